import Verif.Listx.Props

/-!
# Intrusive list: iteration over the containing structures, moving and deleting elements (C100-C103)
-/
namespace Gel.Listx

open Spec

/-! ## C100: the containing structures -/

/-- `container_of(ptr, type, member)`, listx.h:29-31, for a member at offset `off`. -/
def containerOf (off ptr : BitVec w) : BitVec w := ptr - off

/-- The loop of `list_for_each_entry(pos, head, member)`, listx.h:263-266, with a body that leaves the memory alone, for
at most `fuel` evaluations of the condition: the positions. -/
def entryLoop (off head : BitVec w) (h : Heap (BitVec w)) : Nat → BitVec w → Option (List (BitVec w))
  | 0, _ => none
  | fuel + 1, pos =>
    if pos + off = head then some []
    else (entryLoop off head h fuel (containerOf off (h.next (pos + off)))).map fun r => pos :: r

def listForEachEntry (off : BitVec w) (fuel : Nat) (h : Heap (BitVec w)) (head : BitVec w) : Option (List (BitVec w)) :=
  entryLoop off head h fuel (containerOf off (h.next head))

/-- The loop of `list_for_each_entry_reverse`, listx.h:275-278. -/
def entryLoopReverse (off head : BitVec w) (h : Heap (BitVec w)) : Nat → BitVec w → Option (List (BitVec w))
  | 0, _ => none
  | fuel + 1, pos =>
    if pos + off = head then some []
    else (entryLoopReverse off head h fuel (containerOf off (h.prev (pos + off)))).map fun r => pos :: r

def listForEachEntryReverse (off : BitVec w) (fuel : Nat) (h : Heap (BitVec w)) (head : BitVec w) :
    Option (List (BitVec w)) :=
  entryLoopReverse off head h fuel (containerOf off (h.prev head))

theorem entryLoop_eq (off head : BitVec w) (h : Heap (BitVec w)) : ∀ (fuel : Nat) (a : BitVec w),
    entryLoop off head h fuel (containerOf off a) =
      (forLoop (fun h _ => h) head fuel h a).map fun r => r.1.map (containerOf off)
  | 0, _ => rfl
  | fuel + 1, a => by
    have ha : containerOf off a + off = a := BitVec.sub_add_cancel a off
    simp only [entryLoop, forLoop, ha]
    by_cases hc : a = head
    · simp [hc]
    · simp only [hc, if_false, entryLoop_eq off head h fuel, Option.map_map]
      rfl

theorem entryLoopReverse_eq (off head : BitVec w) (h : Heap (BitVec w)) : ∀ (fuel : Nat) (a : BitVec w),
    entryLoopReverse off head h fuel (containerOf off a) = (forLoopPrev head h fuel a).map fun r => r.map (containerOf off)
  | 0, _ => rfl
  | fuel + 1, a => by
    have ha : containerOf off a + off = a := BitVec.sub_add_cancel a off
    simp only [entryLoopReverse, forLoopPrev, ha]
    by_cases hc : a = head
    · simp [hc]
    · simp only [hc, if_false, entryLoopReverse_eq off head h fuel, Option.map_map]
      rfl

/-- **C100.** The loops over the containing structures visit, for every element of the list in order (in reverse order),
the address `off` below it, once each, and end. -/
theorem C100_entries (off : BitVec w) (h : Heap (BitVec w)) (head : BitVec w) (l : List (BitVec w)) (H : Links h head l)
    (fuel : Nat) (hf : l.length < fuel) :
    listForEachEntry off fuel h head = some (l.map fun a => a - off) ∧
    listForEachEntryReverse off fuel h head = some (l.reverse.map fun a => a - off) := by
  obtain ⟨h1, h2⟩ := C14_iteration h head l H fuel hf
  constructor
  · rw [listForEach] at h1
    rw [listForEachEntry, entryLoop_eq, h1]
    rfl
  · rw [listForEachPrev] at h2
    rw [listForEachEntryReverse, entryLoopReverse_eq, h2]
    rfl

example : listForEachEntry (8 : BitVec 32) 3 (run (⟨id, id⟩ : Heap (BitVec 32)) [.init 100, .addTail 16 100, .addTail 4 100]) 100 =
    some [8, 0xFFFFFFFC] := by decide
example : listForEachEntryReverse (8 : BitVec 32) 3 (run (⟨id, id⟩ : Heap (BitVec 32)) [.init 100, .addTail 16 100, .addTail 4 100]) 100 =
    some [0xFFFFFFFC, 8] := by decide

variable {A : Type u} [DecidableEq A]

/-! ## C101: moving the current element to another list -/

/-- A body that moves the current element to the end of another list whenever `p` holds for it. -/
def move (p : A → Bool) (other : A) (h : Heap A) (pos : A) : Heap A :=
  if p pos then listAddTail (listDel h pos) pos other else h

theorem addTail_self_next (h : Heap A) (x : A) : (listAddTail h x x).next x = x := by
  simp only [listAddTail, listAdd_, Heap.setNext, Heap.setPrev]
  by_cases hc : x = h.prev x
  · rw [← hc, Function.update_self]
  · rw [Function.update_of_ne hc, Function.update_self]

/-- At the head of the other list, the loop stays there for ever. -/
theorem forLoop_stuck (p : A → Bool) (head other : A) (hne : other ≠ head) (hp : p other = true) :
    ∀ (fuel : Nat) (h : Heap A), forLoop (move p other) head fuel h other = none
  | 0, _ => rfl
  | fuel + 1, h => by
    simp only [forLoop, hne, if_false, move, hp, if_true, addTail_self_next]
    rw [forLoop_stuck p head other hne hp fuel (listAddTail (listDel h other) other other)]
    rfl

/-- If `p` does not hold for the head of the other list, the loop goes round the other list for ever. -/
theorem forLoop_away (p : A → Bool) (head other : A) (hp : p other = false) :
    ∀ (fuel : Nat) (h : Heap A) (m : List A) (pos : A), Links h other m → head ∉ other :: m → pos ∈ other :: m →
      forLoop (move p other) head fuel h pos = none
  | 0, _, _, _, _, _, _ => rfl
  | fuel + 1, h, m, pos, H, hne, hpos => by
    have h1 : pos ≠ head := by
      rintro rfl
      exact hne hpos
    simp only [forLoop, h1, if_false]
    by_cases hc : p pos = true
    · have hm : pos ∈ m := by
        rcases List.mem_cons.1 hpos with rfl | hm
        · rw [hp] at hc
          cases hc
        · exact hm
      have hn : pos ∉ other :: m.erase pos := by
        have hnd := H.1
        rw [List.nodup_cons] at hnd
        rintro hx
        rcases List.mem_cons.1 hx with rfl | hx
        · exact hnd.1 hm
        · exact (hnd.2.mem_erase_iff.1 hx).1 rfl
      have Ha := links_addTail (links_del H hm) hn
      have hmv : move p other h pos = listAddTail (listDel h pos) pos other := by simp [move, hc]
      rw [hmv]
      have hsub : ∀ a, a ∈ other :: (m.erase pos ++ [pos]) → a ∈ other :: m := by
        intro a ha
        simp only [List.mem_cons, List.mem_append, List.not_mem_nil, or_false] at ha ⊢
        rcases ha with h | h | h
        · exact Or.inl h
        · exact Or.inr (List.mem_of_mem_erase h)
        · exact Or.inr (h ▸ hm)
      rw [forLoop_away p head other hp fuel _ (m.erase pos ++ [pos]) _ Ha (fun hh => hne (hsub _ hh))
        (Ha.next_mem (by simp))]
      rfl
    · have h2 : move p other h pos = h := by simp [move, hc]
      rw [h2, forLoop_away p head other hp fuel h m (h.next pos) H hne (H.next_mem hpos)]
      rfl

theorem move_head (p : A → Bool) (head other : A) (m l : List A) (h : Heap A) (H : Links h head l) (H' : Links h other m)
    (hdis : ∀ a ∈ head :: l, a ∉ other :: m) (x : A) (hx : x ∈ l) (hp : p x = true) :
    Links (move p other h x) other (m ++ [x]) ∧ (move p other h x).next x = other := by
  have hxm : x ∉ other :: m := hdis x (by simp [hx])
  have Hd : Links (listDel h x) other m := by
    refine H'.congr (fun a ha => ?_) (fun a ha => ?_)
    · exact (del_frame H hx (fun hc => hdis a hc ha)).1
    · exact (del_frame H hx (fun hc => hdis a hc ha)).2
  have Ha := links_addTail Hd hxm
  simp only [move, hp, if_true]
  refine ⟨Ha, ?_⟩
  have h1 : x ≠ (listDel h x).prev other := by
    intro e
    exact hxm (e ▸ Hd.prev_mem (by simp))
  simp only [listAddTail, listAdd_, Heap.setNext, Heap.setPrev]
  rw [Function.update_of_ne h1, Function.update_self]

theorem forLoop_move (p : A → Bool) (head other : A) (m l : List A) (h : Heap A) (H : Links h head l) (H' : Links h other m)
    (hdis : ∀ a ∈ head :: l, a ∉ other :: m) :
    ∀ (rest kept : List A) (pos : A), l = kept ++ rest → (rest ++ [head]).head? = some pos → (∃ x ∈ rest, p x = true) →
      ∀ fuel, forLoop (move p other) head fuel h pos = none
  | [], kept, pos, hl, hpos, hex, fuel => by
    obtain ⟨x, hx, -⟩ := hex
    cases hx
  | x :: rest, kept, pos, hl, hpos, hex, 0 => rfl
  | x :: rest, kept, pos, hl, hpos, hex, fuel + 1 => by
    simp only [List.cons_append, List.head?_cons, Option.some.injEq] at hpos
    subst hpos
    have hxl : x ∈ l := by simp [hl]
    have hxh : x ≠ head := by
      rintro rfl
      exact (List.nodup_cons.1 H.1).1 hxl
    have hoh : other ≠ head := by
      rintro rfl
      exact hdis other (by simp) (by simp)
    simp only [forLoop, hxh, if_false]
    by_cases hp : p x = true
    · obtain ⟨M1, M2⟩ := move_head p head other m l h H H' hdis x hxl hp
      rw [M2]
      cases hall : p other with
      | true =>
        rw [forLoop_stuck p head other hoh hall]
        rfl
      | false =>
        rw [forLoop_away p head other hall fuel _ (m ++ [x]) other M1 ?_ (by simp)]
        · rfl
        · intro hc
          have hc' : head ∈ other :: m ∨ head = x := by simpa [or_assoc] using hc
          rcases hc' with hc' | hc'
          · exact hdis head (by simp) hc'
          · exact hxh hc'.symm
    · have hm : move p other h x = h := by simp [move, hp]
      have hnext : (rest ++ [head]).head? = some (h.next x) := by
        have h2 := H.2.1
        have e1 : head :: l = (head :: kept) ++ x :: rest := by rw [hl]; rfl
        have e2 : l ++ [head] = (kept ++ [x]) ++ (rest ++ [head]) := by simp [hl]
        rw [e1, e2, List.map_append] at h2
        have h3 := List.append_inj_right h2 (by simp)
        rw [← h3]
        rfl
      have hex' : ∃ y ∈ rest, p y = true := by
        obtain ⟨y, hy, hpy⟩ := hex
        rcases List.mem_cons.1 hy with rfl | hy
        · exact absurd hpy hp
        · exact ⟨y, hy, hpy⟩
      rw [hm, forLoop_move p head other m l h H H' hdis rest (kept ++ [x]) (h.next x) (by simp [hl]) hnext hex' fuel]
      rfl

/-- **C101.** A body that moves the elements for which `p` holds to the end of another list: the loop ends exactly if there
is no such element. -/
theorem C101_exact (p : A → Bool) (h : Heap A) (head other : A) (l m : List A) (H : Links h head l) (H' : Links h other m)
    (hdis : ∀ a ∈ head :: l, a ∉ other :: m) :
    (∃ fuel r, listForEach (move p other) fuel h head = some r) ↔ ∀ x ∈ l, p x = false := by
  constructor
  · rintro ⟨fuel, r, hr⟩ x hx
    by_contra hc
    have := forLoop_move p head other m l h H H' hdis l [] (h.next head) rfl H.head_next
      ⟨x, hx, by simpa using hc⟩ fuel
    rw [listForEach, this] at hr
    cases hr
  · intro hn
    obtain ⟨h', h1, -⟩ := C15_delete_while_iterating h head l H (fun _ => false) (l.length + 1) (by omega)
    refine ⟨l.length + 1, (l, h), ?_⟩
    have key : ∀ (rest kept : List A) (pos : A) (fuel : Nat), l = kept ++ rest → (rest ++ [head]).head? = some pos →
        rest.length < fuel → forLoop (move p other) head fuel h pos = some (rest, h) := by
      intro rest
      induction rest with
      | nil =>
        intro kept pos fuel hl hpos hf
        simp only [List.nil_append, List.head?_cons, Option.some.injEq] at hpos
        obtain ⟨fuel, rfl⟩ : ∃ k, fuel = k + 1 := ⟨fuel - 1, by omega⟩
        simp [forLoop, hpos]
      | cons x rest ih =>
        intro kept pos fuel hl hpos hf
        simp only [List.cons_append, List.head?_cons, Option.some.injEq] at hpos
        subst hpos
        obtain ⟨fuel, rfl⟩ : ∃ k, fuel = k + 1 := ⟨fuel - 1, by omega⟩
        have hxl : x ∈ l := by simp [hl]
        have hxh : x ≠ head := by
          rintro rfl
          exact (List.nodup_cons.1 H.1).1 hxl
        have hnext : (rest ++ [head]).head? = some (h.next x) := by
          have h2 := H.2.1
          have e1 : head :: l = (head :: kept) ++ x :: rest := by rw [hl]; rfl
          have e2 : l ++ [head] = (kept ++ [x]) ++ (rest ++ [head]) := by simp [hl]
          rw [e1, e2, List.map_append] at h2
          have h3 := List.append_inj_right h2 (by simp)
          rw [← h3]
          rfl
        have hm : move p other h x = h := by simp [move, hn x hxl]
        simp only [forLoop, hxh, if_false, hm]
        rw [ih (kept ++ [x]) (h.next x) fuel (by simp [hl]) hnext (by simpa using hf)]
        rfl
    exact key l [] (h.next head) _ rfl H.head_next (by omega)

-- of the elements 1 and 2, the even ones are moved
example : ¬ ∃ fuel r, listForEach (move (fun a => a % 2 == 0) 200) fuel
    (run (⟨id, id⟩ : Heap Nat) [.init 100, .init 200, .addTail 1 100, .addTail 2 100]) 100 = some r := by
  have hv : ValidRun [] ([.init 100, .init 200, .addTail 1 100, .addTail 2 100] : List (Op Nat)) := by
    simp [ValidRun, Valid, nodes, Spec.step]
  have H := (C13_history (⟨id, id⟩ : Heap Nat) _ hv).2
  rw [C101_exact _ _ 100 200 [1, 2] [] (H 100 [1, 2] (by decide)) (H 200 [] (by decide)) (by decide)]
  decide

/-! ## C102: deleting an element twice -/

/-- Neighbours in the ring. -/
theorem ring_next {h : Heap A} {head : A} {l : List A} (H : Links h head l) {p q : List A} {x y : A}
    (hs : head :: l ++ [head] = p ++ x :: y :: q) : h.next x = y ∧ h.prev y = x := by
  have h2 := H.2.1
  have h3 := H.2.2
  have e1 : (head :: l ++ [head])[p.length]? = some x := by rw [hs]; simp
  have e2 : (head :: l ++ [head])[p.length + 1]? = some y := by
    rw [hs, List.getElem?_append_right (by omega)]
    simp
  have hlt : p.length + 1 < (head :: l ++ [head]).length := by
    by_contra hc
    rw [List.getElem?_eq_none (by omega)] at e2
    cases e2
  simp only [List.cons_append, List.length_cons, List.length_append, List.length_nil] at hlt
  have e3 : (head :: l)[p.length]? = some x := by
    rw [← e1, List.getElem?_append_left (by simp only [List.length_cons]; omega)]
  have e4 : (l ++ [head])[p.length]? = some y := by
    rw [← e2]
    rfl
  constructor
  · have := congrArg (fun z : List A => z[p.length]?) h2
    simp only [List.getElem?_map, e3, e4, Option.map_some, Option.some.injEq] at this
    exact this
  · have := congrArg (fun z : List A => z[p.length]?) h3
    simp only [List.getElem?_map, e3, e4, Option.map_some, Option.some.injEq] at this
    exact this

theorem not_self {h : Heap A} {head e : A} {l : List A} (H : Links h head l) (he : e ∈ l) : h.prev e ≠ e ∧ h.next e ≠ e := by
  obtain ⟨a, b, rfl⟩ := List.append_of_mem he
  have hnd := H.1
  constructor
  · obtain ⟨p, u, hu⟩ : ∃ p u, head :: a = p ++ [u] := ⟨(head :: a).dropLast, (head :: a).getLast (by simp), by
      rw [List.dropLast_append_getLast]⟩
    have := (ring_next H (p := p) (q := b ++ [head]) (x := u) (y := e) (by
      rw [← List.cons_append, hu]; simp)).2
    rw [this]
    rintro rfl
    have : u ∈ head :: a := by rw [hu]; simp
    rw [← List.cons_append, List.nodup_append] at hnd
    exact hnd.2.2 u this u (by simp) rfl
  · obtain ⟨v, q, hv⟩ : ∃ v q, b ++ [head] = v :: q := by
      cases b with
      | nil => exact ⟨head, [], rfl⟩
      | cons v b => exact ⟨v, b ++ [head], rfl⟩
    have := (ring_next H (p := head :: a) (q := q) (x := e) (y := v) (by simp [hv])).1
    rw [this]
    rintro rfl
    have hm : v ∈ b ++ [head] := by rw [hv]; simp
    rcases List.mem_append.1 hm with hm | hm
    · have := (List.nodup_append.1 (List.nodup_cons.1 hnd).2).2.1
      exact (List.nodup_cons.1 this).1 hm
    · rw [List.mem_singleton] at hm
      subst hm
      exact (List.nodup_cons.1 hnd).1 (by simp)

/-- **C102.** Deleting an element again at once changes nothing. -/
theorem C102_twice_partial (h : Heap A) (head e : A) (l : List A) (H : Links h head l) (he : e ∈ l) :
    listDel (listDel h e) e = listDel h e := by
  obtain ⟨h1, h2⟩ := not_self H he
  have e1 : (listDel h e).prev e = h.prev e := by
    simp [listDel, listDel_, Heap.setNext, Heap.setPrev, Function.update_of_ne h2.symm]
  have e2 : (listDel h e).next e = h.next e := by
    simp [listDel, listDel_, Heap.setNext, Heap.setPrev, Function.update_of_ne h1.symm]
  rw [listDel, e1, e2]
  simp [listDel, listDel_, Heap.setNext, Heap.setPrev]

theorem forLoop_next_congr {h h' : Heap A} (hn : h.next = h'.next) (head : A) : ∀ (fuel : Nat) (pos : A),
    (forLoop (fun h _ => h) head fuel h pos).map (fun r => r.1) = (forLoop (fun h _ => h) head fuel h' pos).map fun r => r.1
  | 0, _ => rfl
  | fuel + 1, pos => by
    simp only [forLoop]
    by_cases hc : pos = head
    · simp [hc]
    · have := forLoop_next_congr hn head fuel (h.next pos)
      simp only [hc, if_false, Option.map_map]
      rw [← hn]
      have e : ∀ k : Heap A, (fun r : List A × Heap A => r.1) ∘ (fun r : List A × Heap A => (pos :: r.1, r.2)) =
          (fun z => pos :: z) ∘ fun r : List A × Heap A => r.1 := fun _ => rfl
      rw [e h, ← Option.map_map, ← Option.map_map, this]

theorem forLoopPrev_congr {h h' : Heap A} (hn : h.prev = h'.prev) (head : A) : ∀ (fuel : Nat) (pos : A),
    forLoopPrev head h fuel pos = forLoopPrev head h' fuel pos
  | 0, _ => rfl
  | fuel + 1, pos => by
    simp only [forLoopPrev, hn, forLoopPrev_congr hn head fuel]

/-- If its successor has been deleted in between, the second deletion brings the successor back: into the forward, but not
into the backward iteration. -/
theorem C102_later_wrong (h : Heap A) (head e b : A) (a c : List A) (H : Links h head (a ++ e :: b :: c)) (fuel : Nat)
    (hf : a.length + c.length + 1 < fuel) :
    Links (listDel (listDel h e) b) head (a ++ c) ∧
    (listForEach (fun h _ => h) fuel (listDel (listDel (listDel h e) b) e) head).map (fun r => r.1) = some (a ++ b :: c) ∧
    listForEachPrev fuel (listDel (listDel (listDel h e) b) e) head = some (a ++ c).reverse := by
  have hnd := H.1
  have hea : e ∉ a := by
    intro hc
    have := (List.nodup_append.1 (List.nodup_cons.1 hnd).2).2.2 e hc e (by simp)
    exact this rfl
  have H1 : Links (listDel h e) head (a ++ b :: c) := by
    have := links_del H (e := e) (by simp)
    rwa [List.erase_append_right _ hea, List.erase_cons_head] at this
  have hba : b ∉ a := by
    intro hc
    have := (List.nodup_append.1 (List.nodup_cons.1 hnd).2).2.2 b hc b (by simp)
    exact this rfl
  have H2 : Links (listDel (listDel h e) b) head (a ++ c) := by
    have := links_del H1 (e := b) (by simp)
    rwa [List.erase_append_right _ hba, List.erase_cons_head] at this
  refine ⟨H2, ?_⟩
  obtain ⟨p, u, hu⟩ : ∃ p u, head :: a = p ++ [u] := ⟨(head :: a).dropLast, (head :: a).getLast (by simp), by
    rw [List.dropLast_append_getLast]⟩
  obtain ⟨v, q, hv⟩ : ∃ v q, c ++ [head] = v :: q := by
    cases c with
    | nil => exact ⟨head, [], rfl⟩
    | cons v c => exact ⟨v, c ++ [head], rfl⟩
  have r1 := ring_next H (p := p) (q := b :: c ++ [head]) (x := u) (y := e) (by
    rw [← List.cons_append, hu]; simp)
  have r2 := ring_next H (p := head :: a) (q := c ++ [head]) (x := e) (y := b) (by simp)
  have r3 := ring_next H1 (p := p) (q := c ++ [head]) (x := u) (y := b) (by
    rw [← List.cons_append, hu]; simp)
  have r4 := ring_next H1 (p := head :: a) (q := q) (x := b) (y := v) (by simp [hv])
  have hue : e ≠ u := by rw [← r1.2]; exact (not_self H (by simp)).1.symm
  have heb : e ≠ b := by rw [← r2.1]; exact (not_self H (by simp)).2.symm
  have hve : e ≠ v := by
    rintro rfl
    have hm : e ∈ c ++ [head] := by rw [hv]; simp
    rw [List.nodup_cons, List.nodup_append, List.nodup_cons] at hnd
    rcases List.mem_append.1 hm with hm | hm
    · exact hnd.2.2.1.1 (by simp [hm])
    · rw [List.mem_singleton] at hm
      exact hnd.1 (by simp [hm])
  have hvb : b ≠ v := by rw [← r4.1]; exact (not_self H1 (by simp)).2.symm
  have f1 : listDel h e = (h.setPrev b u).setNext u b := by rw [listDel, r1.2, r2.1]; rfl
  have f2 : listDel (listDel h e) b = ((listDel h e).setPrev v u).setNext u v := by
    conv_lhs => rw [listDel, r3.2, r4.1]
    rfl
  have g1 : (listDel (listDel h e) b).prev e = u := by
    rw [f2, f1]
    simp [Heap.setNext, Heap.setPrev, Function.update_of_ne hve, Function.update_of_ne heb, r1.2]
  have g2 : (listDel (listDel h e) b).next e = b := by
    rw [f2, f1]
    simp [Heap.setNext, Heap.setPrev, Function.update_of_ne hue, r2.1]
  have f3 : listDel (listDel (listDel h e) b) e = ((listDel (listDel h e) b).setPrev b u).setNext u b := by
    conv_lhs => rw [listDel, g1, g2]
    rfl
  have k1 : (listDel (listDel (listDel h e) b) e).next = (listDel h e).next := by
    rw [f3, f2]
    simp only [Heap.setNext, Heap.setPrev, Function.update_idem]
    rw [← r3.1, Function.update_eq_self]
  have k2 : (listDel (listDel (listDel h e) b) e).prev = (listDel (listDel h e) b).prev := by
    have : (listDel (listDel h e) b).prev b = u := by
      rw [f2]
      simp only [Heap.setNext, Heap.setPrev]
      rw [Function.update_of_ne hvb, r3.2]
    rw [f3]
    simp only [Heap.setNext, Heap.setPrev]
    conv_lhs => rw [← this]
    rw [Function.update_eq_self]
  constructor
  · rw [listForEach, forLoop_next_congr k1, k1]
    have := (C14_iteration _ head _ H1 fuel (by simp; omega)).1
    rw [listForEach] at this
    rw [this]
    rfl
  · rw [listForEachPrev, forLoopPrev_congr k2, k2]
    exact (C14_iteration _ head _ H2 fuel (by simp; omega)).2

example : (listForEach (fun h _ => h) 9 (run (⟨id, id⟩ : Heap Nat) [.init 100, .addTail 1 100, .addTail 2 100, .addTail 3 100,
    .del 1, .del 2, .del 1]) 100).map (fun r => r.1) = some [2, 3] := by decide
example : listForEachPrev 9 (run (⟨id, id⟩ : Heap Nat) [.init 100, .addTail 1 100, .addTail 2 100, .addTail 3 100,
    .del 1, .del 2, .del 1]) 100 = some [3] := by decide

/-! ## C103: deletion in backward iteration -/

/-- The loop of `list_for_each_prev(pos, head) body`, listx.h:251-252, with a body that may change the memory. -/
def forLoopPrevBody (body : Heap A → A → Heap A) (head : A) : Nat → Heap A → A → Option (List A × Heap A)
  | 0, _, _ => none
  | fuel + 1, h, pos =>
    if pos = head then some ([], h)
    else
      let h := body h pos
      (forLoopPrevBody body head fuel h (h.prev pos)).map fun r => (pos :: r.1, r.2)

theorem listDel_swap (h : Heap A) (e : A) : (listDel h e).swap = listDel h.swap e := rfl

theorem forLoopPrevBody_swap (p : A → Bool) (head : A) : ∀ (fuel : Nat) (h : Heap A) (pos : A),
    forLoopPrevBody (fun h a => if p a then listDel h a else h) head fuel h pos =
      (forLoop (fun h a => if p a then listDel h a else h) head fuel h.swap pos).map fun r => (r.1, r.2.swap)
  | 0, _, _ => rfl
  | fuel + 1, h, pos => by
    simp only [forLoopPrevBody, forLoop]
    by_cases hc : pos = head
    · simp only [hc, if_true, Option.map_some]
      rfl
    · simp only [hc, if_false, forLoopPrevBody_swap p head fuel, Option.map_map]
      by_cases hp : p pos = true
      · simp only [hp, if_true, ← listDel_swap]
        rfl
      · simp only [hp, if_false]
        rfl

/-- **C103.** `list_for_each_prev` with a body that removes the current element whenever `p` holds for it visits every
original element exactly once, in reverse order, ends, and leaves the elements for which `p` does not hold. -/
theorem C103_delete_backward (h : Heap A) (head : A) (l : List A) (H : Links h head l) (p : A → Bool)
    (fuel : Nat) (hf : l.length < fuel) :
    ∃ h', forLoopPrevBody (fun h a => if p a then listDel h a else h) head fuel h (h.prev head) = some (l.reverse, h') ∧
      Links h' head (l.filter fun a => !p a) := by
  obtain ⟨h', h1, h2⟩ := C15_delete_while_iterating h.swap head l.reverse H.swap p fuel (by simpa using hf)
  refine ⟨h'.swap, ?_, ?_⟩
  · rw [forLoopPrevBody_swap]
    rw [listForEach] at h1
    have e : h.swap.next head = h.prev head := rfl
    rw [e] at h1
    rw [h1]
    rfl
  · have := h2.swap
    rwa [List.filter_reverse, List.reverse_reverse] at this

example : (forLoopPrevBody (fun h a => if a % 2 == 1 then listDel h a else h) 100 4
      (run (⟨id, id⟩ : Heap Nat) [.init 100, .addTail 1 100, .addTail 2 100, .addTail 3 100]) 3).map
      (fun r => (r.1, listForEach (fun h _ => h) 2 r.2 100 |>.map (·.1))) = some ([3, 2, 1], some [2]) := by decide

end Gel.Listx
