import Verif.Listx.Props

/-!
# Intrusive list: lists changed at will during an iteration (C202)
-/
namespace Gel.Listx

open Spec

variable {A : Type u} [DecidableEq A]

/-- What the body of a loop does in one visit: any calls, then, if the flag says so, `list_del` of the current element. -/
abbrev Visit (A : Type u) := List (Op A) × Bool

def Visit.ops (b : Visit A) (pos : A) : List (Op A) := b.1 ++ if b.2 then [.del pos] else []

/-- `list_for_each(pos, head) body`, listx.h:242-243, from the position `pos`; `bs` says what the body does in each visit, `none` if the
loop is not over after so many. The position of each visit, and the memory afterwards. -/
def forOps (head : A) : List (Visit A) → Heap A → A → Option (List A × Heap A)
  | [], h, pos => if pos = head then some ([], h) else none
  | b :: bs, h, pos =>
    if pos = head then some ([], h)
    else
      let h := run h (b.ops pos)
      (forOps head bs h (h.next pos)).map fun r => (pos :: r.1, r.2)

/-- The element or head a call is about. -/
def Op.subject : Op A → A
  | .init a => a
  | .add x _ => x
  | .addTail x _ => x
  | .del x => x

/-- 1 for an insertion. -/
def Op.adds : Op A → Nat
  | .add _ _ => 1
  | .addTail _ _ => 1
  | _ => 0

def adds (os : List (Op A)) : Nat := (os.map Op.adds).sum

/-- What the body has to keep to: its calls are valid, and are not about the current element (but for the deletion at the end). -/
def Keeps (head : A) : List (Visit A) → Heap A → Lists A → A → Prop
  | [], _, _, _ => True
  | b :: bs, h, s, pos => pos = head ∨ (ValidRun s b.1 ∧ (∀ o ∈ b.1, o.subject ≠ pos) ∧
      Keeps head bs (run h (b.ops pos)) (Spec.run s (b.ops pos)) ((run h (b.ops pos)).next pos))

/-- The lists afterwards. -/
def listsAfter (head : A) : List (Visit A) → Heap A → Lists A → A → Lists A
  | [], _, s, _ => s
  | b :: bs, h, s, pos => if pos = head then s else
      listsAfter head bs (run h (b.ops pos)) (Spec.run s (b.ops pos)) ((run h (b.ops pos)).next pos)

/-- One call: what is before and after the element `c`. -/
theorem call_around {s : Lists A} {head c : A} {p q : List A} (hl : (head, p ++ c :: q) ∈ s) {o : Op A}
    (hc : o.subject ≠ c) : ∃ p' q', (head, p' ++ c :: q') ∈ Spec.step s o ∧ q'.length ≤ q.length + o.adds ∧
      ∀ x, x ≠ o.subject → ((x ∈ p ↔ x ∈ p') ∧ (x ∈ q ↔ x ∈ q')) := by
  cases o with
  | init a => exact ⟨p, q, List.mem_cons_of_mem _ hl, by simp, fun x _ => ⟨.rfl, .rfl⟩⟩
  | add x a =>
    by_cases ha : head = a
    · refine ⟨x :: p, q, List.mem_map.2 ⟨_, hl, ?_⟩, by simp, fun y hy => ⟨?_, .rfl⟩⟩
      · simp [ha]
      · simp only [Op.subject] at hy; simp [hy]
    · exact ⟨p, q, List.mem_map.2 ⟨_, hl, by simp [ha]⟩, by simp, fun y _ => ⟨.rfl, .rfl⟩⟩
  | addTail x a =>
    by_cases ha : head = a
    · refine ⟨p, q ++ [x], List.mem_map.2 ⟨_, hl, ?_⟩, by simp [Op.adds], fun y hy => ⟨.rfl, ?_⟩⟩
      · simp [ha]
      · simp only [Op.subject] at hy; simp [hy]
    · exact ⟨p, q, List.mem_map.2 ⟨_, hl, by simp [ha]⟩, by simp, fun y _ => ⟨.rfl, .rfl⟩⟩
  | del e =>
    simp only [Op.subject] at hc
    by_cases hp : e ∈ p
    · refine ⟨p.erase e, q, List.mem_map.2 ⟨_, hl, ?_⟩, by simp, fun y hy => ⟨?_, .rfl⟩⟩
      · simp [List.erase_append_left _ hp]
      · simp only [Op.subject] at hy
        exact (List.mem_erase_of_ne hy).symm
    · refine ⟨p, q.erase e, List.mem_map.2 ⟨_, hl, ?_⟩, ?_, fun y hy => ⟨.rfl, ?_⟩⟩
      · rw [List.erase_append_right _ hp, List.erase_cons_tail (by simpa using Ne.symm hc)]
      · have := List.length_erase_le (a := e) (l := q); omega
      · simp only [Op.subject] at hy
        exact (List.mem_erase_of_ne hy).symm

theorem calls_around {head c : A} : ∀ (os : List (Op A)) {h : Heap A} {s : Lists A} {p q : List A} (_ : Inv h s) (_ : (head, p ++ c :: q) ∈ s)
    (_ : ValidRun s os) (_ : ∀ o ∈ os, o.subject ≠ c), ∃ p' q', (head, p' ++ c :: q') ∈ Spec.run s os ∧ q'.length ≤ q.length + adds os ∧
      ∀ x, (∀ o ∈ os, o.subject ≠ x) → ((x ∈ p ↔ x ∈ p') ∧ (x ∈ q ↔ x ∈ q'))
  | [], _, _, p, q, _, hl, _, _ => ⟨p, q, hl, by simp, fun _ _ => ⟨.rfl, .rfl⟩⟩
  | o :: os, h, s, p, q, hs, hl, hv, hc => by
    obtain ⟨p1, q1, h1, h2, h3⟩ := call_around hl (hc o (by simp))
    obtain ⟨p', q', h4, h5, h6⟩ := calls_around os (hs.step hv.1) h1 hv.2 fun o ho => hc o (by simp [ho])
    refine ⟨p', q', h4, ?_, fun x hx => ?_⟩
    · simp only [adds, List.map_cons, List.sum_cons] at h5 ⊢; omega
    · have a := h3 x (Ne.symm (hx o (by simp)))
      have b := h6 x fun o ho => hx o (by simp [ho])
      exact ⟨a.1.trans b.1, a.2.trans b.2⟩

theorem next_at {h : Heap A} {head c : A} {p q : List A} (H : Links h head (p ++ c :: q)) : h.next c = (q ++ [head]).head (by simp) := by
  have h2 : head :: (head :: (p ++ c :: q)).map h.next = head :: (p ++ c :: q) ++ [head] := by rw [H.2.1]; simp
  have h3 := congrArg (fun l => l[p.length + 2]?) h2
  rw [← Option.some_inj, ← List.head?_eq_some_head, List.head?_eq_getElem?]
  have e1 : (head :: (head :: (p ++ c :: q)).map h.next)[p.length + 2]? = some (h.next c) := by simp
  have e2 : (head :: (p ++ c :: q) ++ [head])[p.length + 2]? = (q ++ [head])[0]? := by simp
  rw [← e1, ← e2, h2]

/-- What one visit does to the list around the current element `c`. -/
theorem visit_around {h : Heap A} {s : Lists A} {head c : A} {p q : List A} (hs : Inv h s) (hl : (head, p ++ c :: q) ∈ s) {b : Visit A}
    (hv : ValidRun s b.1) (hc : ∀ o ∈ b.1, o.subject ≠ c) :
    ∃ p' q', Inv (run h (b.ops c)) (Spec.run s (b.ops c)) ∧ (head, p' ++ q') ∈ Spec.run s (b.ops c) ∧
      (run h (b.ops c)).next c = (q' ++ [head]).head (by simp) ∧ c ∉ q' ∧ q'.length ≤ q.length + adds b.1 ∧
      ∀ x, (∀ o ∈ b.1, o.subject ≠ x) → x ≠ c → ((x ∈ p ↔ x ∈ p') ∧ (x ∈ q ↔ x ∈ q')) := by
  obtain ⟨p', q', h1, h2, h3⟩ := calls_around b.1 hs hl hv hc
  have hs1 := hs.run b.1 hv
  have H := hs1.2 _ h1
  have hnd : c ∉ p' ∧ c ∉ q' := by
    have := (List.nodup_cons.1 H.1).2
    rw [List.nodup_append] at this
    exact ⟨fun hc' => this.2.2 c hc' c (by simp) rfl, (List.nodup_cons.1 this.2.1).1⟩
  obtain ⟨os, d⟩ := b
  cases d with
  | false =>
    refine ⟨p' ++ [c], q', ?_, ?_, ?_, hnd.2, h2, fun x hx hxc => ?_⟩
    · simpa [Visit.ops] using hs1
    · simpa [Visit.ops] using h1
    · simpa [Visit.ops] using next_at H
    · have := h3 x hx
      simpa [hxc] using this
  | true =>
    have hv' : ValidRun s (Visit.ops (os, true) c) := by
      have : ∀ (os : List (Op A)) (s : Lists A), ValidRun s os → Valid (Spec.run s os) (.del c) → ValidRun s (os ++ [.del c]) := by
        intro os
        induction os with
        | nil => intro s _ h; exact ⟨h, trivial⟩
        | cons o os ih => intro s h1 h2; exact ⟨h1.1, ih _ h1.2 h2⟩
      exact this os s hv ⟨_, h1, by simp⟩
    have er : run h (Visit.ops (os, true) c) = listDel (run h os) c := by
      simp [Visit.ops, run, step]
    have es : Spec.run s (Visit.ops (os, true) c) = Spec.step (Spec.run s os) (.del c) := by
      simp [Visit.ops, Spec.run]
    refine ⟨p', q', hs.run _ hv', ?_, ?_, hnd.2, h2, fun x hx _ => h3 x hx⟩
    · rw [es]
      refine List.mem_map.2 ⟨_, h1, ?_⟩
      simp [List.erase_append_right _ hnd.1]
    · rw [er, del_self H (by simp), next_at H]

/-- The position is the first of the list's elements `q` still to come, or the head. -/
def At (head : A) (q : List A) (pos : A) : Prop := pos = (q ++ [head]).head (by simp)

theorem once_aux {head : A} : ∀ (bs : List (Visit A)) {h : Heap A} {s : Lists A} {pos : A} {p q : List A} {v : List A} {h' : Heap A}
    (_ : Inv h s) (_ : (head, p ++ q) ∈ s) (_ : At head q pos) (_ : Keeps head bs h s pos) (_ : forOps head bs h pos = some (v, h')) (x : A)
    (_ : ∀ b ∈ bs, ∀ o ∈ b.1, o.subject ≠ x) (_ : x ≠ head), v.count x = q.count x
  | bs, h, s, pos, p, [], v, h', _, _, hat, _, hr, x, _, _ => by
    have : pos = head := by simpa [At] using hat
    cases bs <;> rw [forOps, if_pos this] at hr <;> injection hr with hr <;> injection hr with hv _ <;> rw [← hv]
  | [], h, s, pos, p, c :: q, v, h', hs, hl, hat, _, hr, x, _, _ => by
    have e : pos = c := by simpa [At] using hat
    have hne : pos ≠ head := by
      rintro rfl
      have := (hs.2 _ hl).1
      simp [e] at this
    rw [forOps, if_neg hne] at hr
    cases hr
  | b :: bs, h, s, pos, p, c :: q, v, h', hs, hl, hat, hk, hr, x, hx, hxh => by
    have e : pos = c := by simpa [At] using hat
    subst e
    have hne : pos ≠ head := by
      rintro rfl
      have := (hs.2 _ hl).1
      simp at this
    obtain ⟨hv, hsub, hk'⟩ := hk.resolve_left hne
    rw [forOps, if_neg hne] at hr
    obtain ⟨p', q', i1, i2, i3, i4, -, i6⟩ := visit_around hs hl (b := b) hv hsub
    cases hr2 : forOps head bs (run h (b.ops pos)) ((run h (b.ops pos)).next pos) with
    | none => simp only [hr2] at hr; cases hr
    | some r =>
      simp only [hr2] at hr
      injection hr with hr
      injection hr with hv1 hh
      have ih := once_aux bs i1 i2 (show At head q' _ from i3) hk' (v := r.1) (h' := r.2) (by rw [hr2]) x
        (fun b hb => hx b (by simp [hb])) hxh
      rw [← hv1, List.count_cons, List.count_cons, ih]
      have nd : q.Nodup := by
        have := (hs.2 _ hl).1
        rw [List.nodup_cons, List.nodup_append] at this
        exact (List.nodup_cons.1 this.2.2.1).2
      have nd' : q'.Nodup := by
        have := (i1.2 _ i2).1
        rw [List.nodup_cons, List.nodup_append] at this
        exact this.2.2.1
      have hq : q.count x = q'.count x := by
        by_cases hxc : x = pos
        · subst hxc
          have h1 : x ∉ q := by
            have := (hs.2 _ hl).1
            rw [List.nodup_cons, List.nodup_append] at this
            exact (List.nodup_cons.1 this.2.2.1).1
          rw [List.count_eq_zero_of_not_mem h1, List.count_eq_zero_of_not_mem i4]
        · have := (i6 x (hx b (by simp)) hxc).2
          by_cases h1 : x ∈ q
          · rw [List.count_eq_one_of_mem nd h1, List.count_eq_one_of_mem nd' (this.1 h1)]
          · rw [List.count_eq_zero_of_not_mem h1, List.count_eq_zero_of_not_mem fun h2 => h1 (this.2 h2)]
      rw [hq]

/-- **C202.** From any point of an iteration on, with the elements `p` passed and `q` still to come, and whatever the body does to the lists
(without touching the current element otherwise than by deleting it in the end): an element which no call of the body is about is
visited once if it is among those to come, and not otherwise. -/
theorem C202_once {head : A} {bs : List (Visit A)} {h : Heap A} {s : Lists A} {p q : List A} (hs : Inv h s) (hl : (head, p ++ q) ∈ s) {pos : A}
    (hpos : At head q pos) (hk : Keeps head bs h s pos) {v : List A} {h' : Heap A} (hr : forOps head bs h pos = some (v, h')) (x : A)
    (hx : ∀ b ∈ bs, ∀ o ∈ b.1, o.subject ≠ x) (hxh : x ≠ head) : v.count x = if x ∈ q then 1 else 0 := by
  rw [once_aux bs hs hl hpos hk hr x hx hxh]
  have nd : q.Nodup := by
    have := (hs.2 _ hl).1
    rw [List.nodup_cons, List.nodup_append] at this
    exact this.2.2.1
  split
  · exact List.count_eq_one_of_mem nd ‹_›
  · exact List.count_eq_zero_of_not_mem ‹_›

/-- **C202.** It ends after as many visits as there are elements and insertions, and the lists are then what the calls make of them. -/
theorem C202_ends {head : A} : ∀ (bs : List (Visit A)) {h : Heap A} {s : Lists A} {p q : List A} (_ : Inv h s) (_ : (head, p ++ q) ∈ s) {pos : A}
    (_ : At head q pos) (_ : Keeps head bs h s pos) (_ : q.length + (bs.map fun b => adds b.1).sum ≤ bs.length),
    ∃ v h', forOps head bs h pos = some (v, h') ∧ Inv h' (listsAfter head bs h s pos) ∧
      v.length ≤ q.length + (bs.map fun b => adds b.1).sum
  | bs, h, s, p, [], hs, _, pos, hat, _, _ => by
    have : pos = head := by simpa [At] using hat
    refine ⟨[], h, ?_, ?_, by simp⟩
    · cases bs <;> rw [forOps, if_pos this]
    · cases bs
      · exact hs
      · rw [listsAfter, if_pos this]; exact hs
  | [], h, s, p, c :: q, _, _, pos, _, _, hlen => by simp at hlen
  | b :: bs, h, s, p, c :: q, hs, hl, pos, hat, hk, hlen => by
    have e : pos = c := by simpa [At] using hat
    subst e
    have hne : pos ≠ head := by
      rintro rfl
      have := (hs.2 _ hl).1
      simp at this
    obtain ⟨hv, hsub, hk'⟩ := hk.resolve_left hne
    obtain ⟨p', q', i1, i2, i3, -, i5, -⟩ := visit_around hs hl (b := b) hv hsub
    simp only [List.length_cons, List.map_cons, List.sum_cons] at hlen ⊢
    obtain ⟨v, h', e1, e2, e3⟩ := C202_ends bs i1 i2 (show At head q' _ from i3) hk' (by omega)
    refine ⟨pos :: v, h', ?_, ?_, ?_⟩
    · rw [forOps, if_neg hne]
      simp only [e1]
      rfl
    · rw [listsAfter, if_neg hne]; exact e2
    · simp only [List.length_cons]; omega

/-- The first element, or the head, is where an iteration begins. -/
theorem C202_begin {h : Heap A} {head : A} {l : List A} (H : Links h head l) : At head l (h.next head) := by
  have := H.head_next
  rw [List.head?_eq_some_head (by simp)] at this
  exact (Option.some_inj.1 this).symm

/-- **C202**, why the current element has to be deleted last: a body that deletes it and then the element after it visits that one too,
which is in no list any more. -/
theorem C202_deleted_wrong {h : Heap A} {head c d : A} {q : List A} (H : Links h head (c :: d :: q)) {bs : List (Visit A)} {v : List A} {h' : Heap A}
    (hr : forOps head (([.del c, .del d], false) :: ([], false) :: bs) h c = some (v, h')) :
    Links (run h [.del c, .del d]) head q ∧ ∃ v', v = c :: d :: v' := by
  have H1 : Links (listDel h c) head (d :: q) := by simpa using links_del H (e := c) (by simp)
  have H2 : Links (listDel (listDel h c) d) head q := by simpa using links_del H1 (e := d) (by simp)
  have hcd : (listDel (listDel h c) d).next c = d := by
    have h1 : (listDel h c).next c = d := by
      rw [del_self H (by simp)]
      simpa using next_at (p := []) H
    have h2 := (del_frame H1 (e := d) (by simp) (a := c) (by have := H.1; simp at this ⊢; tauto)).1
    rw [h2, h1]
  have hc : c ≠ head := by have := H.1; simp at this; tauto
  have hd : d ≠ head := by have := H.1; simp at this; tauto
  refine ⟨H2, ?_⟩
  have e : run h (Visit.ops ([.del c, .del d], false) c) = listDel (listDel h c) d := rfl
  rw [forOps, if_neg hc] at hr
  simp only [e, hcd] at hr
  rw [forOps, if_neg hd] at hr
  simp only [Visit.ops, List.append_nil, Bool.false_eq_true, if_false, run, List.foldl_nil] at hr
  cases hr2 : forOps head bs (listDel (listDel h c) d) ((listDel (listDel h c) d).next d) with
  | none => rw [hr2] at hr; cases hr
  | some r =>
    rw [hr2] at hr
    injection hr with hr
    injection hr with hv _
    exact ⟨r.1, hv.symm⟩

/-- **C202**, why the current element must not be added again: a body that moves it to the front never comes to an end, if there are at
least two elements. -/
theorem C202_front_wrong {h : Heap A} {head a b : A} {q : List A} (H : Links h head (a :: b :: q)) (fuel : Nat) :
    listForEach (fun h pos => listAdd (listDel h pos) pos head) fuel h head = none := by
  have move : ∀ (h : Heap A) (x : A) (l1 l2 : List A), Links h head (l1 ++ x :: l2) →
      Links (listAdd (listDel h x) x head) head (x :: (l1 ++ l2)) := by
    intro h x l1 l2 H
    have nd := H.1
    simp only [List.nodup_cons, List.mem_append, List.mem_cons, List.nodup_append, not_or] at nd
    have hx : x ∉ l1 := fun hc => nd.2.2.2 x hc x (.inl rfl) rfl
    have H1 := links_del H (e := x) (by simp)
    rw [List.erase_append_right _ hx, List.erase_cons_head] at H1
    refine links_add H1 ?_
    simp only [List.mem_cons, List.mem_append, not_or]
    exact ⟨fun e => nd.1.2.1 e.symm, hx, nd.2.2.1.1⟩
  have loop : ∀ (fuel : Nat) (h : Heap A) (x y : A), Links h head (x :: y :: q) →
      forLoop (fun h pos => listAdd (listDel h pos) pos head) head fuel h y = none := by
    intro fuel
    induction fuel with
    | zero => intro h x y _; rfl
    | succ fuel ih =>
      intro h x y H
      have hy : y ≠ head := by have := H.1; simp at this; tauto
      have H' : Links (listAdd (listDel h y) y head) head (y :: x :: q) := move h y [x] q H
      rw [forLoop, if_neg hy]
      simp only
      have hn : (listAdd (listDel h y) y head).next y = x := by simpa using next_at (p := []) H'
      rw [hn, ih _ y x H']
      rfl
  have ha : a ≠ head := by have := H.1; simp at this; tauto
  have e0 : h.next head = a := by
    have := C202_begin H
    simpa [At] using this
  rw [listForEach, e0]
  cases fuel with
  | zero => rfl
  | succ fuel =>
    have H' : Links (listAdd (listDel h a) a head) head (a :: b :: q) := move h a [] (b :: q) H
    have hn : (listAdd (listDel h a) a head).next a = b := by simpa using next_at (p := []) H'
    rw [forLoop, if_neg ha]
    simp only
    rw [hn, loop fuel _ a b H']
    rfl

/-! ## Examples: list 1, 2, 3 at head 0 -/

def exI : Heap Nat := run ⟨id, id⟩ [.init 0, .addTail 1 0, .addTail 2 0, .addTail 3 0]

-- 1 is deleted when visited, 2 by the body visiting 1; the body visiting 3 adds 4 and 5, at the end and at the beginning
example : (forOps 0 [([.del 2], true), ([.addTail 4 0, .add 5 0], false), ([], false), ([], false)] exI 1).map (·.1) = some [1, 3, 4] := by
  decide
-- the body keeps to its obligations, so 3, which it never names, is visited once
example (v : List Nat) (h' : Heap Nat) (hr : forOps 0 [([.del 2], true), ([], false), ([], false)] exI 1 = some (v, h')) : v.count 3 = 1 := by
  have H : Inv exI [(0, [1, 2, 3])] := ⟨by decide, by
    intro p hp
    rw [List.mem_singleton] at hp
    subst hp
    exact ⟨by decide, by decide, by decide⟩⟩
  have hk : Keeps 0 [([.del 2], true), ([], false), ([], false)] exI [(0, [1, 2, 3])] 1 := by
    refine .inr ⟨⟨⟨_, List.mem_singleton.2 rfl, by simp⟩, trivial⟩, by simp [Op.subject], .inr ⟨trivial, by simp, .inl ?_⟩⟩
    decide
  simpa using C202_once H (p := []) (List.mem_singleton.2 rfl) rfl hk hr 3 (by simp [Op.subject]) (by decide)
-- deleted in the other order: 2 is visited
example : (forOps 0 [([.del 1, .del 2], false), ([], false), ([], false), ([], false)] exI 1).map (·.1) = some [1, 2, 3] := by decide
example : listForEach (fun h pos => listAdd (listDel h pos) pos 0) 100 exI 0 = none :=
  C202_front_wrong (a := 1) (b := 2) (q := [3]) ⟨by decide, by decide, by decide⟩ 100

end Gel.Listx
