import Verif.Listx.Props

/-!
# Intrusive list: interrupt handlers (C200, C201)

The calls that change a list as sequences of stores; an interrupt handler runs, to its end, after the first `k` of them. What the
calls load is loaded before the first store (the arguments of `__list_add` and `__list_del`).
-/
namespace Gel.Listx

open Spec

variable {A : Type u} [DecidableEq A]

/-- A store to a field. -/
inductive Store (A : Type u) where
  | next (a v : A)
  | prev (a v : A)
  deriving DecidableEq, Repr

def Store.apply (h : Heap A) : Store A → Heap A
  | .next a v => h.setNext a v
  | .prev a v => h.setPrev a v

def Store.addr : Store A → A
  | .next a _ => a
  | .prev a _ => a

def applyAll (h : Heap A) (ss : List (Store A)) : Heap A := ss.foldl Store.apply h

/-- The stores of `__list_add`, listx.h:105-113. -/
def addStores (new prev next : A) : List (Store A) := [.prev next new, .next new next, .prev new prev, .next prev new]

/-- The stores of a call, in program order: listx.h:92-96, 123-126, 136-139, 149-165. -/
def stores (h : Heap A) : Op A → List (Store A)
  | .init a => [.next a a, .prev a a]
  | .add x a => addStores x a (h.next a)
  | .addTail x a => addStores x (h.prev a) a
  | .del e => [.prev (h.next e) (h.prev e), .next (h.prev e) (h.next e)]

/-- The memory after the first `k` stores. -/
def midway (h : Heap A) (o : Op A) (k : Nat) : Heap A := applyAll h ((stores h o).take k)

/-- **C200.** The stores are those of the call. -/
theorem C200_stores (h : Heap A) (o : Op A) : applyAll h (stores h o) = step h o := by
  cases o <;> rfl

/-! ## Traversals by the handler -/

theorem forLoop_next (p : A → A) (head : A) : ∀ (fuel : Nat) (h : Heap A) (pos : A),
    forLoop (fun h _ => h) head fuel h pos = (forLoop (fun h _ => h) head fuel ⟨h.next, p⟩ pos).map fun r => (r.1, h)
  | 0, _, _ => rfl
  | fuel + 1, h, pos => by
    rw [forLoop, forLoop]
    split
    · rfl
    · simp only
      rw [forLoop_next p head fuel h (h.next pos)]
      cases forLoop (fun h _ => h) head fuel ⟨h.next, p⟩ (h.next pos) <;> rfl

theorem forLoopPrev_prev (n : A → A) (head : A) (h : Heap A) : ∀ (fuel : Nat) (pos : A),
    forLoopPrev head h fuel pos = forLoopPrev head ⟨n, h.prev⟩ fuel pos
  | 0, _ => rfl
  | fuel + 1, pos => by
    rw [forLoopPrev, forLoopPrev]
    split
    · rfl
    · rw [forLoopPrev_prev n head h fuel]

/-- Forwards only the `next` fields matter. -/
theorem forward_of {h h' : Heap A} {head : A} {l : List A} (H : Links h head l) (hn : ∀ a ∈ head :: l, h'.next a = h.next a)
    (fuel : Nat) (hf : l.length < fuel) : listForEach (fun h _ => h) fuel h' head = some (l, h') := by
  have H' : Links ⟨h'.next, h.prev⟩ head l := H.congr hn fun _ _ => rfl
  have := (C14_iteration _ head l H' fuel hf).1
  rw [listForEach] at this ⊢
  rw [forLoop_next h.prev head fuel h', this]
  rfl

/-- Backwards only the `prev` fields matter. -/
theorem backward_of {h h' : Heap A} {head : A} {l : List A} (H : Links h head l) (hp : ∀ a ∈ head :: l, h'.prev a = h.prev a)
    (fuel : Nat) (hf : l.length < fuel) : listForEachPrev fuel h' head = some l.reverse := by
  have H' : Links ⟨h.next, h'.prev⟩ head l := H.congr (fun _ _ => rfl) hp
  have := (C14_iteration _ head l H' fuel hf).2
  rw [listForEachPrev] at this ⊢
  rw [forLoopPrev_prev h.next head h', this]

/-- The number of stores. -/
theorem stores_length (h : Heap A) (o : Op A) : (stores h o).length = match o with
    | .init _ => 2
    | .add _ _ => 4
    | .addTail _ _ => 4
    | .del _ => 2 := by cases o <;> rfl

/-- **C200.** Forwards, at every point of every call: a handler that traverses a list of the program sees it as before the call, until
the last store is done. -/
theorem C200_forward {h : Heap A} {s : Lists A} (hs : Inv h s) {o : Op A} (hv : Valid s o) {k : Nat} (hk : k < (stores h o).length)
    {head : A} {l : List A} (hl : (head, l) ∈ s) (fuel : Nat) (hf : l.length < fuel) :
    listForEach (fun h _ => h) fuel (midway h o k) head = some (l, midway h o k) := by
  refine forward_of (hs.2 _ hl) (fun a ha => ?_) fuel hf
  have hm : a ∈ nodes s := mem_nodes hl ha
  rw [stores_length] at hk
  cases o with
  | init b =>
    have hab : a ≠ b := fun e => hv (e ▸ hm)
    simp only at hk
    rcases (by omega : k = 0 ∨ k = 1) with rfl | rfl <;>
      simp [midway, stores, applyAll, Store.apply, Heap.setNext, Function.update_of_ne hab]
  | add x b =>
    have hax : a ≠ x := fun e => hv.1 (e ▸ hm)
    simp only at hk
    rcases (by omega : k = 0 ∨ k = 1 ∨ k = 2 ∨ k = 3) with rfl | rfl | rfl | rfl <;>
      simp [midway, stores, addStores, applyAll, Store.apply, Heap.setNext, Heap.setPrev, Function.update_of_ne hax]
  | addTail x b =>
    have hax : a ≠ x := fun e => hv.1 (e ▸ hm)
    simp only at hk
    rcases (by omega : k = 0 ∨ k = 1 ∨ k = 2 ∨ k = 3) with rfl | rfl | rfl | rfl <;>
      simp [midway, stores, addStores, applyAll, Store.apply, Heap.setNext, Heap.setPrev, Function.update_of_ne hax]
  | del e =>
    simp only at hk
    rcases (by omega : k = 0 ∨ k = 1) with rfl | rfl <;>
      simp [midway, stores, applyAll, Store.apply, Heap.setPrev]

/-- The points of a call at which its element, but not what is before it, is known backwards. -/
def halfAdded : Op A → Nat → Prop
  | .add _ _, k | .addTail _ _, k => k = 1 ∨ k = 2
  | _, _ => False

/-- **C200** (partial). Backwards: a handler sees a list as before or as after the call, if it does not come after the first or second
store of `list_add` or `list_add_tail`. Missing: those points (`C200_backward_wrong`). -/
theorem C200_backward_partial {h : Heap A} {s : Lists A} (hs : Inv h s) {o : Op A} (hv : Valid s o) {k : Nat} (hk : ¬ halfAdded o k)
    {head : A} {l l' : List A} (hl : (head, l) ∈ s) (hl' : (head, l') ∈ Spec.step s o) (fuel : Nat) (hf : l.length + 1 < fuel) :
    listForEachPrev fuel (midway h o k) head = some l.reverse ∨ listForEachPrev fuel (midway h o k) head = some l'.reverse := by
  have hs' : Inv (step h o) (Spec.step s o) := hs.step hv
  have before : (∀ a ∈ head :: l, (midway h o k).prev a = h.prev a) →
      listForEachPrev fuel (midway h o k) head = some l.reverse := fun hp => backward_of (hs.2 _ hl) hp fuel (by show l.length < fuel; omega)
  have hlen : l'.length ≤ l.length + 1 := by
    have hu : ∀ m, (head, m) ∈ s → m = l := by
      intro m hm
      have := nodes_disjoint hs.1 hm hl (a := head) (by simp) (by simp)
      exact (Prod.mk.inj this).2
    cases o with
    | init b =>
      rcases List.mem_cons.1 hl' with e | e
      · rw [(Prod.mk.inj e).2]; simp
      · rw [hu l' e]; omega
    | add x b =>
      obtain ⟨p, hp, e⟩ := List.mem_map.1 hl'
      split at e
      · obtain ⟨e1, e2⟩ := Prod.mk.inj e
        rw [← e2, hu p.2 (e1 ▸ hp)]; simp
      · rw [hu l' (e ▸ hp)]; omega
    | addTail x b =>
      obtain ⟨p, hp, e⟩ := List.mem_map.1 hl'
      split at e
      · obtain ⟨e1, e2⟩ := Prod.mk.inj e
        rw [← e2, hu p.2 (e1 ▸ hp)]; simp
      · rw [hu l' (e ▸ hp)]; omega
    | del x =>
      obtain ⟨p, hp, e⟩ := List.mem_map.1 hl'
      obtain ⟨e1, e2⟩ := Prod.mk.inj e
      rw [← e2, hu p.2 (e1 ▸ hp)]
      have := List.length_erase_le (a := x) (l := l)
      omega
  have after : (midway h o k).prev = (step h o).prev → listForEachPrev fuel (midway h o k) head = some l'.reverse :=
    fun hp => backward_of (hs'.2 _ hl') (fun a _ => by rw [hp]) fuel (by show l'.length < fuel; omega)
  by_cases h0 : k = 0
  · subst h0
    exact .inl (before fun _ _ => by simp [midway, applyAll])
  cases o with
  | init b =>
    refine .inl (before fun a ha => ?_)
    have hab : a ≠ b := fun e => hv (e ▸ mem_nodes hl ha)
    rcases (by omega : k = 1 ∨ 2 ≤ k) with rfl | h2
    · simp [midway, stores, applyAll, Store.apply, Heap.setNext]
    · rw [midway, List.take_of_length_le (by rw [stores_length]; exact h2)]
      simp [stores, applyAll, Store.apply, Heap.setNext, Heap.setPrev, Function.update_of_ne hab]
  | add x b =>
    refine .inr (after ?_)
    simp only [halfAdded, not_or] at hk
    rcases (by omega : k = 3 ∨ 4 ≤ k) with rfl | h2
    · rfl
    · rw [midway, List.take_of_length_le (by rw [stores_length]; exact h2), C200_stores]
  | addTail x b =>
    refine .inr (after ?_)
    simp only [halfAdded, not_or] at hk
    rcases (by omega : k = 3 ∨ 4 ≤ k) with rfl | h2
    · rfl
    · rw [midway, List.take_of_length_le (by rw [stores_length]; exact h2), C200_stores]
  | del e =>
    refine .inr (after ?_)
    rcases (by omega : k = 1 ∨ 2 ≤ k) with rfl | h2
    · rfl
    · rw [midway, List.take_of_length_le (by rw [stores_length]; exact h2), C200_stores]

theorem self_none {head x : A} {h : Heap A} (hx : h.prev x = x) (hne : x ≠ head) : ∀ fuel, forLoopPrev head h fuel x = none
  | 0 => rfl
  | fuel + 1 => by rw [forLoopPrev, if_neg hne, hx, self_none hx hne fuel]; rfl

theorem through_none {head x : A} {h h' : Heap A} (hx : h'.prev x = x) (hne : x ≠ head) (hp : ∀ a, a ≠ x → h'.prev a = h.prev a) :
    ∀ (fuel : Nat) (pos : A) (r : List A), forLoopPrev head h fuel pos = some r → x ∈ r → ∀ fuel', forLoopPrev head h' fuel' pos = none
  | 0, _, _, h1, _, _ => by cases h1
  | fuel + 1, pos, r, h1, h2, fuel' => by
    rw [forLoopPrev] at h1
    by_cases hpos : pos = head
    · rw [if_pos hpos] at h1
      injection h1 with h1
      rw [← h1] at h2
      simp at h2
    · rw [if_neg hpos] at h1
      by_cases hpx : pos = x
      · rw [hpx]; exact self_none hx hne fuel'
      · cases hr : forLoopPrev head h fuel (h.prev pos) with
        | none => rw [hr] at h1; cases h1
        | some r' =>
          rw [hr] at h1
          injection h1 with h1
          rw [← h1] at h2
          have h3 : x ∈ r' := by
            rcases List.mem_cons.1 h2 with e | e
            · exact absurd e.symm hpx
            · exact e
          cases fuel' with
          | zero => rfl
          | succ fuel' =>
            rw [forLoopPrev, if_neg hpos, hp pos hpx, through_none hx hne hp fuel _ r' hr h3 fuel']
            rfl

/-- **C200**, where it fails: after the first or the second store of `list_add` or `list_add_tail`, backwards, the new element is
reached before its `prev` field is set; if that points to itself (as after `INIT_LIST_HEAD`), the traversal never ends. -/
theorem C200_backward_wrong {h : Heap A} {head x : A} {l : List A} (H : Links h head l) (hx : x ∉ head :: l) (hself : h.prev x = x)
    {o : Op A} (ho : o = .add x head ∨ o = .addTail x head) {k : Nat} (hk : k = 1 ∨ k = 2) (fuel : Nat) :
    listForEachPrev fuel (midway h o k) head = none := by
  have hne : x ≠ head := fun e => hx (by simp [e])
  have hnx : x ≠ h.next head := fun e => hx (e ▸ H.next_mem (by simp))
  rcases ho with rfl | rfl
  · have HF := links_add H hx
    have hit := (C14_iteration _ head _ HF (l.length + 2) (by simp)).2
    rw [listForEachPrev] at hit ⊢
    have e : ∀ a, a ≠ x → (midway h (.add x head) k).prev a = (listAdd h x head).prev a := by
      intro a ha
      rcases hk with rfl | rfl <;>
        simp [midway, stores, addStores, applyAll, Store.apply, Heap.setNext, Heap.setPrev, listAdd, listAdd_, Function.update_of_ne ha]
    rw [e head (Ne.symm hne)]
    refine through_none ?_ hne e _ _ _ hit (by simp) fuel
    rcases hk with rfl | rfl <;>
      simp [midway, stores, addStores, applyAll, Store.apply, Heap.setNext, Heap.setPrev, Function.update_of_ne hnx, hself]
  · have HF := links_addTail H hx
    have hit := (C14_iteration _ head _ HF (l.length + 2) (by simp)).2
    rw [listForEachPrev] at hit ⊢
    have e : ∀ a, a ≠ x → (midway h (.addTail x head) k).prev a = (listAddTail h x head).prev a := by
      intro a ha
      rcases hk with rfl | rfl <;>
        simp [midway, stores, addStores, applyAll, Store.apply, Heap.setNext, Heap.setPrev, listAddTail, listAdd_, Function.update_of_ne ha]
    rw [e head (Ne.symm hne)]
    refine through_none ?_ hne e _ _ _ hit (by simp) fuel
    rcases hk with rfl | rfl <;>
      simp [midway, stores, addStores, applyAll, Store.apply, Heap.setNext, Heap.setPrev, Function.update_of_ne hne, hself]

/-! ## Changes by the handler -/

/-- The main program's call `o`, interrupted after `k` stores by a handler that calls `o'`. -/
def interrupted (h : Heap A) (o : Op A) (k : Nat) (o' : Op A) : Heap A :=
  applyAll (step (midway h o k) o') ((stores h o).drop k)

/-- **C201**, where it fails: both insert at the head of the same list, the handler after the call of the main program has loaded the
first element: the handler's element is lost forwards; backwards the main program's is, unless the handler came before the first
store, then the handler's is lost altogether. -/
theorem C201_lost_wrong {h : Heap A} {head x y : A} {l : List A} (H : Links h head l) (hx : x ∉ head :: l) (hy : y ∉ head :: l)
    (hxy : x ≠ y) {k : Nat} (hk : k < 4) (fuel : Nat) (hf : l.length + 1 < fuel) :
    listForEach (fun h _ => h) fuel (interrupted h (.add x head) k (.add y head)) head =
      some (x :: l, interrupted h (.add x head) k (.add y head)) ∧
    listForEachPrev fuel (interrupted h (.add x head) k (.add y head)) head =
      some (if k = 0 then (x :: l).reverse else (y :: l).reverse) := by
  have hxh : x ≠ head := fun e => hx (by simp [e])
  have hyh : y ≠ head := fun e => hy (by simp [e])
  have hnx : h.next head ≠ x := fun e => hx (e ▸ H.next_mem (by simp))
  have hny : h.next head ≠ y := fun e => hy (e ▸ H.next_mem (by simp))
  have mn : (midway h (.add x head) k).next head = h.next head := by
    rcases (by omega : k = 0 ∨ k = 1 ∨ k = 2 ∨ k = 3) with rfl | rfl | rfl | rfl <;>
      simp [midway, stores, addStores, applyAll, Store.apply, Heap.setNext, Heap.setPrev, Function.update_of_ne (Ne.symm hxh)]
  constructor
  · refine forward_of (links_add H hx) (fun a ha => ?_) fuel (by simpa using hf)
    have hay : a ≠ y := by
      rintro rfl
      simp only [List.mem_cons] at ha hy
      tauto
    simp only [interrupted, step, listAdd, mn]
    rcases (by omega : k = 0 ∨ k = 1 ∨ k = 2 ∨ k = 3) with rfl | rfl | rfl | rfl <;>
      simp only [midway, stores, addStores, applyAll, Store.apply, Heap.setNext, Heap.setPrev, listAdd_, List.take, List.drop,
        List.foldl, Function.update_apply] <;> split_ifs <;> simp_all
  · by_cases hk0 : k = 0
    · rw [if_pos hk0]
      refine backward_of (links_add H hx) (fun a ha => ?_) fuel (by simpa using hf)
      have hay : a ≠ y := by
        rintro rfl
        simp only [List.mem_cons] at ha hy
        tauto
      simp only [interrupted, step, listAdd, mn]
      subst hk0
      simp only [midway, stores, addStores, applyAll, Store.apply, Heap.setNext, Heap.setPrev, listAdd_, List.take, List.drop,
        List.foldl, Function.update_apply]
      split_ifs <;> simp_all
    · rw [if_neg hk0]
      refine backward_of (links_add H hy) (fun a ha => ?_) fuel (by simpa using hf)
      have hax : a ≠ x := by
        rintro rfl
        simp only [List.mem_cons] at ha hx
        tauto
      simp only [interrupted, step, listAdd, mn]
      rcases (by omega : k = 1 ∨ k = 2 ∨ k = 3) with rfl | rfl | rfl <;>
        simp only [midway, stores, addStores, applyAll, Store.apply, Heap.setNext, Heap.setPrev, listAdd_, List.take, List.drop,
          List.foldl, Function.update_apply] <;> split_ifs <;> simp_all

/-- A call for the list `l` at `head`. -/
def OnList (head : A) (l : List A) : Op A → Prop
  | .init _ => False
  | .add x a | .addTail x a => a = head ∧ x ∉ head :: l
  | .del e => e ∈ l

/-- The list and the element of the call. -/
def zone (head : A) (l : List A) : Op A → List A
  | .add x _ | .addTail x _ => x :: head :: l
  | _ => head :: l

theorem stores_zone {h : Heap A} {head : A} {l : List A} (H : Links h head l) {o : Op A} (ho : OnList head l o) :
    ∀ st ∈ stores h o, st.addr ∈ zone head l o := by
  cases o with
  | init a => exact ho.elim
  | add x a =>
    obtain ⟨rfl, -⟩ := ho
    have := H.next_mem (a := a) (by simp)
    intro st hst
    simp only [stores, addStores, List.mem_cons, List.not_mem_nil, or_false] at hst
    rcases hst with rfl | rfl | rfl | rfl <;> simp only [Store.addr, zone, List.mem_cons] at this ⊢ <;> tauto
  | addTail x a =>
    obtain ⟨rfl, -⟩ := ho
    have := H.prev_mem (a := a) (by simp)
    intro st hst
    simp only [stores, addStores, List.mem_cons, List.not_mem_nil, or_false] at hst
    rcases hst with rfl | rfl | rfl | rfl <;> simp only [Store.addr, zone, List.mem_cons] at this ⊢ <;> tauto
  | del e =>
    have h1 := H.next_mem (a := e) (by simp [show e ∈ l from ho])
    have h2 := H.prev_mem (a := e) (by simp [show e ∈ l from ho])
    intro st hst
    simp only [stores, List.mem_cons, List.not_mem_nil, or_false] at hst
    rcases hst with rfl | rfl <;> simp only [Store.addr, zone] <;> assumption

/-- What a call loads from and stores to. -/
def foot (h : Heap A) : Op A → List A
  | .init a => [a]
  | .add x a => [x, a, h.next a]
  | .addTail x a => [x, h.prev a, a]
  | .del e => [e, h.next e, h.prev e]

theorem stores_foot (h : Heap A) (o : Op A) : ∀ st ∈ stores h o, st.addr ∈ foot h o := by
  cases o <;> intro st hst <;> simp only [stores, addStores, List.mem_cons, List.not_mem_nil, or_false] at hst <;>
    rcases hst with rfl | rfl | rfl | rfl <;> simp [Store.addr, foot]

theorem stores_congr {h h' : Heap A} {o : Op A}
    (hn : ∀ a ∈ foot h o, h'.next a = h.next a) (hp : ∀ a ∈ foot h o, h'.prev a = h.prev a) : stores h' o = stores h o := by
  cases o with
  | init a => rfl
  | add x a => simp [stores, hn a (by simp [foot])]
  | addTail x a => simp [stores, hp a (by simp [foot])]
  | del e => simp [stores, hn e (by simp [foot]), hp e (by simp [foot])]

theorem apply_comm (h : Heap A) {s t : Store A} (hst : s.addr ≠ t.addr) : t.apply (s.apply h) = s.apply (t.apply h) := by
  cases s <;> cases t <;> simp only [Store.addr] at hst <;>
    simp only [Store.apply, Heap.setNext, Heap.setPrev] <;> first | rw [Function.update_comm hst] | rfl

theorem apply_all_comm (s : Store A) : ∀ (ts : List (Store A)) (h : Heap A), (∀ t ∈ ts, s.addr ≠ t.addr) →
    applyAll (s.apply h) ts = s.apply (applyAll h ts)
  | [], _, _ => rfl
  | t :: ts, h, hd => by
    show applyAll (t.apply (s.apply h)) ts = s.apply (applyAll (t.apply h) ts)
    rw [apply_comm h (hd t (by simp)), apply_all_comm s ts _ fun t ht => hd t (by simp [ht])]

theorem all_all_comm : ∀ (ss ts : List (Store A)) (h : Heap A), (∀ s ∈ ss, ∀ t ∈ ts, s.addr ≠ t.addr) →
    applyAll (applyAll h ss) ts = applyAll (applyAll h ts) ss
  | [], _, _, _ => rfl
  | s :: ss, ts, h, hd => by
    show applyAll (applyAll (s.apply h) ss) ts = applyAll (s.apply (applyAll h ts)) ss
    rw [all_all_comm ss ts _ fun s hs => hd s (by simp [hs]), apply_all_comm s ts h (hd s (by simp))]

theorem applyAll_frame (a : A) : ∀ (ss : List (Store A)) (h : Heap A), (∀ s ∈ ss, s.addr ≠ a) →
    (applyAll h ss).next a = h.next a ∧ (applyAll h ss).prev a = h.prev a
  | [], _, _ => ⟨rfl, rfl⟩
  | s :: ss, h, hd => by
    have ih := applyAll_frame a ss (s.apply h) fun t ht => hd t (by simp [ht])
    have h1 : (s.apply h).next a = h.next a ∧ (s.apply h).prev a = h.prev a := by
      have := hd s (by simp)
      cases s <;> simp only [Store.addr] at this <;> simp [Store.apply, Heap.setNext, Heap.setPrev, Function.update_of_ne (Ne.symm this)]
    exact ⟨ih.1.trans h1.1, ih.2.trans h1.2⟩

theorem applyAll_append (h : Heap A) (ss ts : List (Store A)) : applyAll h (ss ++ ts) = applyAll (applyAll h ss) ts := by
  rw [applyAll, List.foldl_append]; rfl

/-- **C201** (partial). If the handler's call uses no list head that the main program's call stores to, the memory afterwards is as if
the handler had come after it, wherever it came. Missing: neighbours (`C201_lost_wrong`, `C201_del_wrong`). -/
theorem C201_apart_partial (h : Heap A) {o o' : Op A} (hd : ∀ st ∈ stores h o, st.addr ∉ foot h o') (k : Nat) :
    interrupted h o k o' = step (step h o) o' := by
  have frame : ∀ ss : List (Store A), (∀ s ∈ ss, s ∈ stores h o) → stores (applyAll h ss) o' = stores h o' := by
    intro ss hss
    have : ∀ u ∈ foot h o', (applyAll h ss).next u = h.next u ∧ (applyAll h ss).prev u = h.prev u := by
      intro u hu
      refine applyAll_frame u ss h fun s hs e => ?_
      exact hd s (hss s hs) (e ▸ hu)
    exact stores_congr (fun u hu => (this u hu).1) fun u hu => (this u hu).2
  rw [interrupted, ← C200_stores (midway h o k) o', midway, frame _ fun s hs => List.mem_of_mem_take hs, ← C200_stores h o,
    ← C200_stores (applyAll h (stores h o)) o', frame _ fun s hs => hs,
    all_all_comm (stores h o') ((stores h o).drop k) _ fun s hs t ht e =>
      hd t (List.mem_of_mem_drop ht) (e ▸ stores_foot h o' s hs), ← applyAll_append h, List.take_append_drop]

/-- **C201** (partial). The main program and the handler change different lists, with different elements. Missing: the same list. -/
theorem C201_separate_partial {h : Heap A} {a b : A} {l m : List A} (Hl : Links h a l) (Hm : Links h b m) {o o' : Op A}
    (ho : OnList a l o) (ho' : OnList b m o') (hd : ∀ u ∈ zone a l o, u ∉ zone b m o') (k : Nat) :
    interrupted h o k o' = step (step h o) o' := by
  refine C201_apart_partial h (fun st hst hf => hd _ (stores_zone Hl ho st hst) ?_) k
  cases o' with
  | init a => exact ho'.elim
  | add x a =>
    obtain ⟨rfl, -⟩ := ho'
    have := Hm.next_mem (a := a) (by simp)
    simp only [foot, zone, List.mem_cons, List.not_mem_nil, or_false] at hf this ⊢
    rcases hf with e | e | e <;> rw [e] <;> tauto
  | addTail x a =>
    obtain ⟨rfl, -⟩ := ho'
    have := Hm.prev_mem (a := a) (by simp)
    simp only [foot, zone, List.mem_cons, List.not_mem_nil, or_false] at hf this ⊢
    rcases hf with e | e | e <;> rw [e] <;> tauto
  | del e =>
    have h1 := Hm.next_mem (a := e) (by simp [show e ∈ m from ho'])
    have h2 := Hm.prev_mem (a := e) (by simp [show e ∈ m from ho'])
    have h3 : e ∈ b :: m := by simp [show e ∈ m from ho']
    simp only [foot, zone, List.mem_cons, List.not_mem_nil, or_false] at hf h1 h2 h3 ⊢
    rcases hf with e | e | e <;> rw [e] <;> assumption

/-- **C201**, where it fails: the main program deletes `e`, the handler, in the midst of that, the element `f` after it: forwards `f` is
still in the list; backwards `e` is, or neither of them. -/
theorem C201_del_wrong {h : Heap A} {head e f : A} {l1 l2 : List A} (H : Links h head (l1 ++ e :: f :: l2)) {k : Nat} (hk : k < 2)
    (fuel : Nat) (hf : l1.length + l2.length + 2 < fuel) :
    listForEach (fun h _ => h) fuel (interrupted h (.del e) k (.del f)) head =
      some (l1 ++ f :: l2, interrupted h (.del e) k (.del f)) ∧
    listForEachPrev fuel (interrupted h (.del e) k (.del f)) head = some (if k = 0 then (l1 ++ e :: l2).reverse else (l1 ++ l2).reverse) := by
  obtain ⟨hnd, hn, hp⟩ := id H
  -- the neighbours
  have nx : ∀ (p q : List A) (a : A), head :: (l1 ++ e :: f :: l2) = p ++ a :: q → some (h.next a) = (q ++ [head]).head? := by
    intro p q a hpq
    have h1 : (head :: (l1 ++ e :: f :: l2) ++ [head]) = p ++ a :: (q ++ [head]) := by rw [hpq]; simp
    have h2 : head :: (head :: (l1 ++ e :: f :: l2)).map h.next = p ++ a :: (q ++ [head]) := by rw [hn, ← h1]; simp
    rw [hpq, List.map_append, List.map_cons] at h2
    have h3 := congrArg (fun l => l[p.length + 1]?) h2
    simpa [List.head?_eq_getElem?] using h3
  have pv : ∀ (p q : List A) (a : A), l1 ++ e :: f :: l2 ++ [head] = p ++ a :: q → some (h.prev a) = (head :: p).getLast? := by
    intro p q a hpq
    have h2 : (l1 ++ e :: f :: l2 ++ [head]).map h.prev ++ [head] = head :: (p ++ a :: q) := by rw [hp, ← hpq]; simp
    rw [hpq, List.map_append, List.map_cons] at h2
    have h3 := congrArg (fun l => l[p.length]?) h2
    rw [List.getLast?_eq_getElem?]
    have h4 : (head :: (p ++ a :: q))[p.length]? = (head :: p)[p.length]? := by
      rw [← List.cons_append, List.getElem?_append_left (by simp)]
    simp only [h4] at h3
    simpa using h3
  have e1 : h.next e = f := by simpa using nx (head :: l1) (f :: l2) e (by simp)
  have e2 : h.prev f = e := by
    have := pv (l1 ++ [e]) (l2 ++ [head]) f (by simp)
    rw [← List.cons_append, List.getLast?_append] at this
    simpa using this
  have e3 : h.prev e ∈ head :: l1 := List.mem_of_getLast? (pv l1 (f :: (l2 ++ [head])) e (by simp)).symm
  have e4 : h.next f ∈ l2 ++ [head] := List.mem_of_head? (nx (head :: (l1 ++ [e])) l2 f (by simp)).symm
  have nd := hnd
  simp only [List.nodup_cons, List.nodup_append, List.mem_append, List.mem_cons, not_or] at nd
  obtain ⟨⟨d1, d2, d3, d4⟩, d5, ⟨⟨d6, d7⟩, d8, d9⟩, d10⟩ := nd
  have f1 : h.prev e ≠ e := fun c => by
    rw [c] at e3
    rcases List.mem_cons.1 e3 with c | c
    · exact d2 c.symm
    · exact d10 e c e (.inl rfl) rfl
  have f2 : h.prev e ≠ f := fun c => by
    rw [c] at e3
    rcases List.mem_cons.1 e3 with c | c
    · exact d3 c.symm
    · exact d10 f c f (.inr (.inl rfl)) rfl
  have f3 : h.next f ≠ e := fun c => by
    rw [c] at e4
    rcases List.mem_append.1 e4 with c | c
    · exact d7 c
    · exact d2 (List.mem_singleton.1 c).symm
  have f4 : h.next f ≠ f := fun c => by
    rw [c] at e4
    rcases List.mem_append.1 e4 with c | c
    · exact d8 c
    · exact d3 (List.mem_singleton.1 c).symm
  have ea : e ∉ l1 := fun c => d10 e c e (.inl rfl) rfl
  have fa : f ∉ l1 := fun c => d10 f c f (.inr (.inl rfl)) rfl
  have hef : e ≠ f := d6
  have L1 : Links (listDel h e) head (l1 ++ f :: l2) := by
    have := links_del H (e := e) (by simp)
    rwa [List.erase_append_right _ ea, List.erase_cons_head] at this
  have L2 : Links (listDel h f) head (l1 ++ e :: l2) := by
    have := links_del H (e := f) (by simp)
    rwa [List.erase_append_right _ fa, List.erase_cons_tail (by simpa using hef), List.erase_cons_head] at this
  have L3 : Links (listDel (listDel h e) f) head (l1 ++ l2) := by
    have := links_del L1 (e := f) (by simp)
    rwa [List.erase_append_right _ fa, List.erase_cons_head] at this
  constructor
  · refine forward_of L1 (fun a ha => ?_) fuel (by simp; omega)
    have hae : a ≠ e := by
      rintro rfl
      simp only [List.mem_cons, List.mem_append] at ha
      rcases ha with c | c | c | c
      · exact d2 c.symm
      · exact ea c
      · exact hef c
      · exact d7 c
    rcases (by omega : k = 0 ∨ k = 1) with rfl | rfl <;>
      simp [interrupted, midway, step, stores, applyAll, Store.apply, Heap.setNext, Heap.setPrev, listDel, listDel_, e1, e2,
        Function.update_apply, hae, f2.symm, f1]
  · rcases (by omega : k = 0 ∨ k = 1) with rfl | rfl
    · refine backward_of L2 (fun a ha => ?_) fuel (by simp; omega)
      have haf : a ≠ f := by
        rintro rfl
        simp only [List.mem_cons, List.mem_append] at ha
        rcases ha with c | c | c | c
        · exact d3 c.symm
        · exact fa c
        · exact hef c.symm
        · exact d8 c
      simp [interrupted, midway, step, stores, applyAll, Store.apply, Heap.setNext, Heap.setPrev, listDel, listDel_, e1, e2,
        Function.update_apply, haf]
    · refine backward_of L3 (fun a ha => ?_) fuel (by simp; omega)
      simp [interrupted, midway, step, stores, applyAll, Store.apply, Heap.setNext, Heap.setPrev, listDel, listDel_, e1, e2,
        Function.update_apply, f2.symm]

/-! ## Examples: addresses 0 to 9, list 1, 2 at head 0 -/

def exL : Heap Nat := run ⟨id, id⟩ [.init 0, .addTail 1 0, .addTail 2 0]

example : listForEach (fun h _ => h) 9 (midway exL (.add 3 0) 3) 0 = some ([1, 2], midway exL (.add 3 0) 3) :=
  C200_forward (s := [(0, [1, 2])]) (o := .add 3 0) ⟨by decide, by
    intro p hp
    rw [List.mem_singleton] at hp
    subst hp
    exact ⟨by decide, by decide, by decide⟩⟩ ⟨by decide, [1, 2], by simp⟩ (by decide) (by simp) 9 (by decide)
-- backwards: before, in the midst of, and after `list_add(3)`
example : listForEachPrev 9 (midway exL (.add 3 0) 0) 0 = some [2, 1] ∧ listForEachPrev 9 (midway exL (.add 3 0) 1) 0 = none ∧
    listForEachPrev 9 (midway exL (.add 3 0) 3) 0 = some [2, 1, 3] ∧ listForEachPrev 9 (midway exL (.del 1) 1) 0 = some [2] := by decide
-- a handler adds 4 in the midst of `list_add(3)`
example : (listForEach (fun h _ => h) 9 (interrupted exL (.add 3 0) 2 (.add 4 0)) 0).map (·.1) = some [3, 1, 2] ∧
    listForEachPrev 9 (interrupted exL (.add 3 0) 2 (.add 4 0)) 0 = some [2, 1, 4] := by decide
-- the handler deletes 2 in the midst of `list_del(1)`
example : (listForEach (fun h _ => h) 9 (interrupted exL (.del 1) 1 (.del 2)) 0).map (·.1) = some [2] ∧
    listForEachPrev 9 (interrupted exL (.del 1) 1 (.del 2)) 0 = some [] ∧
    listForEachPrev 9 (interrupted exL (.del 1) 0 (.del 2)) 0 = some [1] := by decide
-- another list
example : (listForEach (fun h _ => h) 9 (interrupted (initListHead exL 5) (.add 3 0) 2 (.add 4 5)) 0).map (·.1) = some [3, 1, 2] ∧
    (listForEach (fun h _ => h) 9 (interrupted (initListHead exL 5) (.add 3 0) 2 (.add 4 5)) 5).map (·.1) = some [4] := by decide

end Gel.Listx
