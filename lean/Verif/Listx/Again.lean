import Verif.Listx.More

/-!
# Intrusive list: property C237, an element added while it is in a list
-/
namespace Gel.Listx

open Spec

variable {A : Type u} [DecidableEq A]

/-! ## Walks -/

/-- A loop that cannot leave a set without the head does not end. -/
theorem endless {h : Heap A} {head : A} (S : List A) (hs : head ∉ S) (hc : ∀ y ∈ S, h.next y ∈ S) :
    ∀ (fuel : Nat) (pos : A), pos ∈ S → forLoop (fun h _ => h) head fuel h pos = none
  | 0, _, _ => rfl
  | fuel + 1, pos, hp => by
    rw [forLoop, if_neg (show pos ≠ head from fun e => hs (by rw [← e]; exact hp))]
    simp only
    rw [endless S hs hc fuel _ (hc _ hp)]
    rfl

/-- A loop along `a` to `x`, after which the head follows. -/
theorem walk {h : Heap A} {head x : A} (hx : h.next x = head) (hxh : x ≠ head) : ∀ (a : List A) (pos : A) (fuel : Nat),
    pos :: a.map h.next = a ++ [x] → head ∉ a → a.length + 1 < fuel →
    forLoop (fun h _ => h) head fuel h pos = some (a ++ [x], h)
  | [], pos, 0, _, _, hf => absurd hf (by simp)
  | [], pos, 1, _, _, hf => absurd hf (by simp)
  | [], pos, fuel + 2, hp, _, _ => by
    have : pos = x := by simpa using hp
    subst this
    simp [forLoop, hxh, hx]
  | y :: a, pos, 0, _, _, hf => absurd hf (by simp)
  | y :: a, pos, fuel + 1, hp, hn, hf => by
    simp only [List.map_cons, List.cons_append, List.cons.injEq] at hp
    obtain ⟨rfl, hp⟩ := hp
    have ih := walk hx hxh a (h.next pos) fuel hp (fun hc => hn (by simp [hc])) (by simp at hf; omega)
    rw [forLoop, if_neg (fun e => hn (by simp [e]))]
    simp only
    rw [ih]
    rfl

/-- The part of a ring up to an element. -/
theorem upto {f : A → A} {head x : A} {a b : List A} (h : (head :: (a ++ x :: b)).map f = a ++ x :: b ++ [head]) :
    f head :: a.map f = a ++ [x] := by
  have := congrArg (List.take (a.length + 1)) h
  simpa [List.take_append, List.take_of_length_le] using this

theorem cons_map_mem {f : A → A} {u z : A} {a : List A} (h : u :: a.map f = a ++ [z]) :
    (u ∈ a ∨ u = z) ∧ ∀ y ∈ a, f y ∈ a ∨ f y = z := by
  have key : ∀ v ∈ u :: a.map f, v ∈ a ∨ v = z := by
    intro v hv
    rw [h] at hv
    simpa using hv
  exact ⟨key u (by simp), fun y hy => key _ (List.mem_cons_of_mem _ (List.mem_map_of_mem hy))⟩

/-! ## The property -/

/-- **C237.** `list_del` and `list_add` or `list_add_tail` move an element to the begin or the end of its list, and to another list. -/
theorem C237_moved (h : Heap A) (head x : A) (a b : List A) (H : Links h head (a ++ x :: b)) :
    Links (listAdd (listDel h x) x head) head (x :: (a ++ b)) ∧
    Links (listAddTail (listDel h x) x head) head (a ++ b ++ [x]) ∧
    ∀ (other : A) (m : List A), Links h other m → (∀ y ∈ other :: m, y ∉ head :: (a ++ x :: b)) →
      Links (listAdd (listDel h x) x other) head (a ++ b) ∧ Links (listAdd (listDel h x) x other) other (x :: m) ∧
      Links (listAddTail (listDel h x) x other) head (a ++ b) ∧ Links (listAddTail (listDel h x) x other) other (m ++ [x]) := by
  have nd := H.1
  simp only [List.nodup_cons, List.mem_append, List.mem_cons, List.nodup_append, not_or] at nd
  have hxa : x ∉ a := fun hc => nd.2.2.2 x hc x (.inl rfl) rfl
  have hxb : x ∉ b := nd.2.2.1.1
  have hxh : x ≠ head := fun e => nd.1.2.1 e.symm
  have H1 := links_del H (e := x) (by simp)
  rw [List.erase_append_right _ hxa, List.erase_cons_head] at H1
  have hx1 : x ∉ head :: (a ++ b) := by simp [hxa, hxb, hxh]
  refine ⟨links_add H1 hx1, links_addTail H1 hx1, fun other m Ho hd => ?_⟩
  have hxm : x ∉ other :: m := fun hc => hd x hc (by simp)
  have Ho1 : Links (listDel h x) other m :=
    Ho.congr (fun y hy => (del_frame H (e := x) (by simp) (hd y hy)).1) (fun y hy => (del_frame H (e := x) (by simp) (hd y hy)).2)
  have hout : ∀ y ∈ head :: (a ++ b), y ∉ other :: m ∧ y ≠ x := by
    intro y hy
    refine ⟨fun hc => hd y hc ?_, fun e => hx1 (e ▸ hy)⟩
    simp only [List.mem_cons, List.mem_append] at hy ⊢
    tauto
  refine ⟨?_, links_add Ho1 hxm, ?_, links_addTail Ho1 hxm⟩
  · exact H1.congr (fun y hy => (add_frame Ho1 (hout y hy).1 (hout y hy).2).1) (fun y hy => (add_frame Ho1 (hout y hy).1 (hout y hy).2).2)
  · exact H1.congr (fun y hy => (addTail_frame Ho1 (hout y hy).1 (hout y hy).2).1)
      (fun y hy => (addTail_frame Ho1 (hout y hy).1 (hout y hy).2).2)

/-- **C237.** `list_add` of an element that is in the list: `list_for_each` does not end any more, and `list_for_each_prev` visits only
that element and those behind it. -/
theorem C237_add_wrong (h : Heap A) (head x : A) (a b : List A) (H : Links h head (a ++ x :: b)) :
    (∀ fuel, listForEach (fun h _ => h) fuel (listAdd h x head) head = none) ∧
    ∀ fuel, b.length + 1 < fuel → listForEachPrev fuel (listAdd h x head) head = some (x :: b).reverse := by
  have nd := H.1
  simp only [List.nodup_cons, List.mem_append, List.mem_cons, List.nodup_append, not_or] at nd
  have hxa : x ∉ a := fun hc => nd.2.2.2 x hc x (.inl rfl) rfl
  have hxb : x ∉ b := nd.2.2.1.1
  have hxh : x ≠ head := fun e => nd.1.2.1 e.symm
  have hu := upto H.2.1
  obtain ⟨hf, hm⟩ := cons_map_mem hu
  have hnext : ∀ y, (listAdd h x head).next y = if y = head then x else if y = x then h.next head else h.next y := by
    intro y
    simp only [listAdd, listAdd_, Heap.setNext, Heap.setPrev, Function.update_apply]
  have hprev : ∀ y, (listAdd h x head).prev y = if y = x then head else if y = h.next head then x else h.prev y := by
    intro y
    simp only [listAdd, listAdd_, Heap.setNext, Heap.setPrev, Function.update_apply]
  constructor
  · intro fuel
    rw [listForEach]
    refine endless (x :: a) (by simp [nd.1.1, nd.1.2.1]) ?_ fuel _ ?_
    · intro y hy
      rw [hnext, if_neg (by rintro rfl; simp [nd.1.1, nd.1.2.1] at hy)]
      split
      · rcases hf with h1 | h1 <;> simp [h1]
      · rcases List.mem_cons.1 hy with rfl | hy
        · contradiction
        · rcases hm y hy with h1 | h1 <;> simp [h1]
    · rw [hnext, if_pos rfl]; simp
  · intro fuel hfu
    rw [listForEachPrev, forLoopPrev_eq]
    have Hs := H.swap
    rw [show (a ++ x :: b).reverse = b.reverse ++ x :: a.reverse by simp] at Hs
    have hs : h.prev head :: b.reverse.map h.prev = b.reverse ++ [x] := upto Hs.2.1
    have hne : ∀ y, y ∈ b ∨ y = head → y ≠ x ∧ y ≠ h.next head := by
      intro y hy
      constructor
      · rintro rfl
        rcases hy with hy | hy
        · exact hxb hy
        · exact hxh hy
      · intro e
        rcases hf with h1 | h1
        · rcases hy with hy | hy
          · exact nd.2.2.2 _ h1 y (.inr hy) e.symm
          · exact nd.1.1 (hy ▸ e ▸ h1)
        · rcases hy with hy | hy
          · exact hxb (by rw [← h1, ← e]; exact hy)
          · exact hxh (by rw [← h1, ← e]; exact hy)
    have hw := walk (h := (listAdd h x head).swap) (head := head) (x := x) (by
        show (listAdd h x head).prev x = head
        rw [hprev, if_pos rfl]) hxh b.reverse ((listAdd h x head).prev head) fuel (by
        rw [hprev, if_neg (hne head (.inr rfl)).1, if_neg (hne head (.inr rfl)).2, ← hs]
        congr 1
        apply List.map_congr_left
        intro y hy
        show (listAdd h x head).prev y = h.prev y
        have := hne y (.inl (by simpa using hy))
        rw [hprev, if_neg this.1, if_neg this.2]) (by simp [nd.1.2.2]) (by simpa using hfu)
    rw [hw]
    simp

/-- **C237.** `list_add_tail` of an element that is in the list: `list_for_each_prev` does not end any more, and `list_for_each` loses all
elements behind the added one; if it was the last one, it does not end either. -/
theorem C237_addTail_wrong (h : Heap A) (head x : A) (a b : List A) (H : Links h head (a ++ x :: b)) :
    (∀ fuel, listForEachPrev fuel (listAddTail h x head) head = none) ∧
    (b = [] → ∀ fuel, listForEach (fun h _ => h) fuel (listAddTail h x head) head = none) ∧
    (b ≠ [] → ∀ fuel, a.length + 1 < fuel →
      listForEach (fun h _ => h) fuel (listAddTail h x head) head = some (a ++ [x], listAddTail h x head)) := by
  have nd := H.1
  simp only [List.nodup_cons, List.mem_append, List.mem_cons, List.nodup_append, not_or] at nd
  have hxa : x ∉ a := fun hc => nd.2.2.2 x hc x (.inl rfl) rfl
  have hxb : x ∉ b := nd.2.2.1.1
  have hxh : x ≠ head := fun e => nd.1.2.1 e.symm
  have hu := upto H.2.1
  obtain ⟨hf, hm⟩ := cons_map_mem hu
  have Hs := H.swap
  rw [show (a ++ x :: b).reverse = b.reverse ++ x :: a.reverse by simp] at Hs
  have hs : h.prev head :: b.reverse.map h.prev = b.reverse ++ [x] := upto Hs.2.1
  obtain ⟨hl, hp⟩ := cons_map_mem hs
  have hnext : ∀ y, (listAddTail h x head).next y = if y = h.prev head then x else if y = x then head else h.next y := by
    intro y
    simp only [listAddTail, listAdd_, Heap.setNext, Heap.setPrev, Function.update_apply]
  have hprev : ∀ y, (listAddTail h x head).prev y = if y = x then h.prev head else if y = head then x else h.prev y := by
    intro y
    simp only [listAddTail, listAdd_, Heap.setNext, Heap.setPrev, Function.update_apply]
  have hlh : head ≠ h.prev head := by
    intro e
    rcases hl with h1 | h1
    · exact nd.1.2.2 (by rw [e]; simpa using h1)
    · exact hxh (by rw [← h1, ← e])
  refine ⟨fun fuel => ?_, fun hb fuel => ?_, fun hb fuel hfu => ?_⟩
  · rw [listForEachPrev, forLoopPrev_eq]
    rw [endless (x :: b) (by simp [nd.1.2.1, nd.1.2.2]) ?_ fuel _ ?_]
    · rfl
    · intro y hy
      show (listAddTail h x head).prev y ∈ x :: b
      rw [hprev]
      split
      · rcases hl with h1 | h1
        · exact List.mem_cons_of_mem _ (by simpa using h1)
        · simp [h1]
      · rw [if_neg (by rintro rfl; simp [nd.1.2.1, nd.1.2.2] at hy)]
        rcases List.mem_cons.1 hy with rfl | hy
        · contradiction
        · rcases hp y (by simpa using hy) with h1 | h1
          · exact List.mem_cons_of_mem _ (by simpa using h1)
          · simp [h1]
    · rw [hprev, if_neg hxh.symm, if_pos rfl]; simp
  · have hpx : h.prev head = x := by simpa [hb] using hl
    rw [listForEach]
    refine endless (x :: a) (by simp [nd.1.1, nd.1.2.1]) ?_ fuel _ ?_
    · intro y hy
      rw [hnext, hpx]
      split
      · simp
      · rcases List.mem_cons.1 hy with rfl | hy
        · contradiction
        · rcases hm y hy with h1 | h1 <;> simp [h1]
    · rw [hnext, if_neg hlh, if_neg hxh.symm]
      rcases hf with h1 | h1 <;> simp [h1]
  · have hlb : h.prev head ∈ b := by
      obtain ⟨b', z, rfl⟩ : ∃ b' z, b = b' ++ [z] := ⟨b.dropLast, b.getLast hb, (List.dropLast_append_getLast hb).symm⟩
      have : h.prev head = z := by
        have := congrArg List.head? hs
        simpa using this
      simp [this]
    rw [listForEach]
    refine walk ?_ hxh a _ fuel ?_ (by simp [nd.1.1]) hfu
    · rw [hnext, if_neg (by intro e; exact hxb (e ▸ hlb)), if_pos rfl]
    · rw [hnext, if_neg hlh, if_neg hxh.symm, ← hu]
      congr 1
      apply List.map_congr_left
      intro y hy
      rw [hnext, if_neg (by intro e; exact nd.2.2.2 y hy (h.prev head) (.inr hlb) e), if_neg (by rintro rfl; exact hxa hy)]

/-- **C237.** An element that is in a list added to another one: that one gets it, but neither iteration of the first list ends any more. -/
theorem C237_other_wrong (h : Heap A) (head other x : A) (a b m : List A) (H : Links h head (a ++ x :: b)) (Ho : Links h other m)
    (hd : ∀ y ∈ other :: m, y ∉ head :: (a ++ x :: b)) :
    Links (listAdd h x other) other (x :: m) ∧ Links (listAddTail h x other) other (m ++ [x]) ∧
    ∀ fuel, listForEach (fun h _ => h) fuel (listAdd h x other) head = none ∧ listForEachPrev fuel (listAdd h x other) head = none ∧
      listForEach (fun h _ => h) fuel (listAddTail h x other) head = none ∧ listForEachPrev fuel (listAddTail h x other) head = none := by
  have hxm : x ∉ other :: m := fun hc => hd x hc (by simp)
  -- in a heap in which `other` links `l` with `x` in it and the elements of the first list are as before
  have key : ∀ (h h' : Heap A) (l a b : List A), (head :: (a ++ x :: b)).Nodup → (head :: (a ++ x :: b)).map h.next = a ++ x :: b ++ [head] →
      Links h' other l → x ∈ l → head ∉ other :: l → (∀ y ∈ head :: (a ++ x :: b), y ≠ x → h'.next y = h.next y) →
      ∀ fuel, listForEach (fun h _ => h) fuel h' head = none := by
    intro h h' l a b nd hn Hl hxl hh hfr fuel
    simp only [List.nodup_cons, List.mem_append, List.mem_cons, List.nodup_append, not_or] at nd
    have hxa : x ∉ a := fun hc => nd.2.2.2 x hc x (.inl rfl) rfl
    obtain ⟨hf, hm⟩ := cons_map_mem (upto hn)
    have hin : ∀ v, v ∈ a ∨ v = x → v ∈ a ++ other :: l := by
      rintro v (h1 | rfl) <;> simp [*]
    rw [listForEach]
    refine endless (a ++ other :: l) (by simp only [List.mem_append, not_or]; exact ⟨nd.1.1, hh⟩) ?_ fuel _ ?_
    · intro y hy
      rcases List.mem_append.1 hy with hy | hy
      · rw [hfr y (by simp [hy]) (by rintro rfl; exact hxa hy)]
        exact hin _ (hm y hy)
      · exact List.mem_append_right _ (Hl.next_mem hy)
    · rw [hfr head (by simp) (fun e => nd.1.2.1 e)]
      exact hin _ hf
  have hh : ∀ l : List A, l.Perm (x :: m) → head ∉ other :: l := by
    intro l hl hc
    have : head ∈ other :: m ∨ head = x := by
      rcases List.mem_cons.1 hc with h1 | h1
      · simp [h1]
      · rcases List.mem_cons.1 (hl.mem_iff.1 h1) with h2 | h2
        · exact .inr h2
        · simp [h2]
    rcases this with h1 | h1
    · exact hd head h1 (by simp)
    · have := H.1; rw [h1] at this; simp at this
  have Hs := H.swap
  rw [show (a ++ x :: b).reverse = b.reverse ++ x :: a.reverse by simp] at Hs
  have hout : ∀ y ∈ head :: (a ++ x :: b), y ∉ other :: m := fun y hy hc => hd y hc hy
  have hmem : ∀ y, y ∈ head :: (b.reverse ++ x :: a.reverse) → y ∈ head :: (a ++ x :: b) := by
    intro y hy
    simp only [List.mem_cons, List.mem_append, List.mem_reverse] at hy ⊢
    tauto
  have h1 := links_add Ho hxm
  have h2 := links_addTail Ho hxm
  refine ⟨h1, h2, fun fuel => ⟨?_, ?_, ?_, ?_⟩⟩
  · exact key h _ _ a b H.1 H.2.1 h1 (by simp) (hh _ (List.Perm.refl _)) (fun y hy hyx => (add_frame Ho (hout y hy) hyx).1) fuel
  · rw [listForEachPrev, forLoopPrev_eq]
    have := key h.swap (listAdd h x other).swap _ b.reverse a.reverse Hs.1 Hs.2.1 h1.swap (by simp) (hh _ (List.reverse_perm _))
      (fun y hy hyx => (add_frame Ho (hout y (hmem y hy)) hyx).2) fuel
    rw [listForEach] at this
    rw [show (listAdd h x other).prev head = (listAdd h x other).swap.next head from rfl, this]
    rfl
  · exact key h _ _ a b H.1 H.2.1 h2 (by simp) (hh _ (List.perm_append_singleton _ _))
      (fun y hy hyx => (addTail_frame Ho (hout y hy) hyx).1) fuel
  · rw [listForEachPrev, forLoopPrev_eq]
    have := key h.swap (listAddTail h x other).swap _ b.reverse a.reverse Hs.1 Hs.2.1 h2.swap (by simp)
      (hh _ ((List.reverse_perm _).trans (List.perm_append_singleton _ _)))
      (fun y hy hyx => (addTail_frame Ho (hout y (hmem y hy)) hyx).2) fuel
    rw [listForEach] at this
    rw [show (listAddTail h x other).prev head = (listAddTail h x other).swap.next head from rfl, this]
    rfl

/-! ## Examples -/

private def three : Heap Nat := run ⟨id, id⟩ [.init 100, .addTail 1 100, .addTail 2 100, .addTail 3 100]

private theorem three_links : Links three 100 ([1] ++ 2 :: [3]) :=
  (C13_history _ _ (by simp [ValidRun, Valid, nodes, Spec.step])).2 100 [1, 2, 3] (by decide)

example : Links (listAdd (listDel three 2) 2 100) 100 [2, 1, 3] := (C237_moved three 100 2 [1] [3] three_links).1

-- the element in the middle added at the begin: 2, 1, 2, 1, … forward, 3, 2 backward
example : listForEach (fun h _ => h) 1000 (listAdd three 2 100) 100 = none ∧ listForEachPrev 5 (listAdd three 2 100) 100 = some [3, 2] :=
  ⟨(C237_add_wrong three 100 2 [1] [3] three_links).1 1000, (C237_add_wrong three 100 2 [1] [3] three_links).2 5 (by decide)⟩

example : let n := (listAdd three 2 100).next
    [n 100, n (n 100), n (n (n 100)), n (n (n (n 100)))] = [2, 1, 2, 1] := by decide +kernel

example : (listForEach (fun h _ => h) 5 (listAddTail three 2 100) 100).map (·.1) = some [1, 2] := by
  rw [(C237_addTail_wrong three 100 2 [1] [3] three_links).2.2 (by decide) 5 (by decide)]
  rfl

end Gel.Listx
