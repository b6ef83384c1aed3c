import Verif.Listx.More

/-!
# Intrusive list: property C193, an element deleted again later
-/
namespace Gel.Listx

open Spec

variable {A : Type u} [DecidableEq A]

namespace Spec

/-- `v` follows `u` in the ring of one of the lists. -/
def Next (s : Lists A) (u v : A) : Prop := ∃ q ∈ s, ∃ a b, q.1 :: q.2 ++ [q.1] = a ++ u :: v :: b

/-- `e` is an element between `u` and `v`. -/
def Between (s : Lists A) (u e v : A) : Prop := ∃ q ∈ s, ∃ a b, q.1 :: q.2 ++ [q.1] = a ++ u :: e :: v :: b

/-- The call makes `e` a head or an element. -/
def Uses (e : A) : Op A → Prop
  | .init a => a = e
  | .add x _ | .addTail x _ => x = e
  | .del _ => False

end Spec

theorem next_of_mem {h : Heap A} {s : Lists A} (H : Inv h s) {u : A} (hu : u ∈ nodes s) : Next s u (h.next u) := by
  obtain ⟨q, hq, hm⟩ := List.mem_flatMap.1 hu
  obtain ⟨a, b, hab⟩ := List.append_of_mem hm
  obtain ⟨y, c, hc⟩ : ∃ y c, b ++ [q.1] = y :: c := by
    cases b with
    | nil => exact ⟨_, _, rfl⟩
    | cons y b => exact ⟨_, _, rfl⟩
  have hr : q.1 :: q.2 ++ [q.1] = a ++ u :: y :: c := by rw [hab, List.append_assoc, List.cons_append, hc]
  exact ⟨q, hq, a, c, by rw [(ring_next (H.2 q hq) hr).1]; exact hr⟩

theorem prev_of_mem {h : Heap A} {s : Lists A} (H : Inv h s) {v : A} (hv : v ∈ nodes s) : Next s (h.prev v) v := by
  obtain ⟨q, hq, hm⟩ := List.mem_flatMap.1 hv
  have hm' : v ∈ q.2 ++ [q.1] := by simpa [or_comm] using hm
  obtain ⟨a, b, hab⟩ := List.append_of_mem hm'
  obtain ⟨c, y, hc⟩ : ∃ c y, q.1 :: a = c ++ [y] := ⟨(q.1 :: a).dropLast, (q.1 :: a).getLast (by simp), by
    rw [List.dropLast_append_getLast]⟩
  have hr : q.1 :: q.2 ++ [q.1] = c ++ y :: v :: b := by
    rw [List.cons_append, hab, ← List.cons_append, hc, List.append_assoc]; rfl
  exact ⟨q, hq, c, b, by rw [(ring_next (H.2 q hq) hr).2]; exact hr⟩

theorem next_iff {h : Heap A} {s : Lists A} (H : Inv h s) {u v : A} (hn : Next s u v) :
    u ∈ nodes s ∧ v ∈ nodes s ∧ h.next u = v ∧ h.prev v = u := by
  obtain ⟨q, hq, a, b, hr⟩ := hn
  have h1 := ring_next (H.2 q hq) hr
  have hm : ∀ x ∈ q.1 :: q.2 ++ [q.1], x ∈ nodes s := by
    intro x hx
    exact mem_nodes hq (by simpa [or_comm, or_left_comm] using hx)
  exact ⟨hm u (by rw [hr]; simp), hm v (by rw [hr]; simp), h1.1, h1.2⟩

/-- Deleting something that is not in any list. -/
theorem stale_del {h : Heap A} {s : Lists A} (H : Inv h s) (e : A) :
    (∀ q ∈ s, Links (listDel h e) q.1 q.2) ↔
      Next s (h.prev e) (h.next e) ∨ (h.prev e ∉ nodes s ∧ h.next e ∉ nodes s) := by
  have hnext : ∀ a, (listDel h e).next a = if a = h.prev e then h.next e else h.next a := by
    intro a
    simp only [listDel, listDel_, Heap.setNext, Heap.setPrev, Function.update_apply]
  have hprev : ∀ a, (listDel h e).prev a = if a = h.next e then h.prev e else h.prev a := by
    intro a
    simp only [listDel, listDel_, Heap.setNext, Heap.setPrev, Function.update_apply]
  constructor
  · intro hl
    have H' : Inv (listDel h e) s := ⟨H.1, hl⟩
    by_cases hu : h.prev e ∈ nodes s
    · refine Or.inl ?_
      have := next_of_mem H' hu
      rwa [hnext, if_pos rfl] at this
    · refine Or.inr ⟨hu, fun hv => hu ?_⟩
      have := prev_of_mem H' hv
      rw [hprev, if_pos rfl] at this
      exact (next_iff H' this).1
  · rintro (hn | ⟨hu, hv⟩) q hq
    · obtain ⟨-, -, h1, h2⟩ := next_iff H hn
      refine (H.2 q hq).congr ?_ ?_ <;> intro a _
      · rw [hnext]
        split
        · rename_i ha; rw [ha, h1]
        · rfl
      · rw [hprev]
        split
        · rename_i ha; rw [ha, h2]
        · rfl
    · refine (H.2 q hq).congr ?_ ?_ <;> intro a ha
      · rw [hnext, if_neg]
        rintro rfl
        exact hu (mem_nodes hq ha)
      · rw [hprev, if_neg]
        rintro rfl
        exact hv (mem_nodes hq ha)

/-- What is in no list keeps its fields and stays outside. -/
theorem frame_step {h : Heap A} {s : Lists A} (H : Inv h s) {o : Op A} (hv : Valid s o) {e : A} (he : e ∉ nodes s)
    (hu : ¬ Uses e o) : (step h o).next e = h.next e ∧ (step h o).prev e = h.prev e ∧ e ∉ nodes (Spec.step s o) := by
  cases o with
  | init a =>
    have ha : e ≠ a := fun hc => hu hc.symm
    refine ⟨(init_frame h a e ha).1, (init_frame h a e ha).2, ?_⟩
    show e ∉ nodes ((a, []) :: s)
    simp only [nodes, List.flatMap_cons, List.mem_append, List.mem_singleton]
    rintro (h1 | h1)
    · exact ha h1
    · exact he h1
  | add x a =>
    obtain ⟨-, l, hl⟩ := hv
    have hx : e ≠ x := fun hc => hu hc.symm
    have h1 : e ∉ a :: l := fun hc => he (mem_nodes hl hc)
    refine ⟨(add_frame (H.2 _ hl) h1 hx).1, (add_frame (H.2 _ hl) h1 hx).2, ?_⟩
    intro hc
    obtain ⟨q, hq, hm⟩ := List.mem_flatMap.1 hc
    obtain ⟨r, hr, rfl⟩ := List.mem_map.1 hq
    have h2 : e ∉ r.1 :: r.2 := fun hc => he (mem_nodes hr hc)
    split at hm
    · simp only [List.mem_cons] at hm h2
      rcases hm with hm | hm | hm
      · exact h2 (Or.inl hm)
      · exact hx hm
      · exact h2 (Or.inr hm)
    · exact h2 hm
  | addTail x a =>
    obtain ⟨-, l, hl⟩ := hv
    have hx : e ≠ x := fun hc => hu hc.symm
    have h1 : e ∉ a :: l := fun hc => he (mem_nodes hl hc)
    refine ⟨(addTail_frame (H.2 _ hl) h1 hx).1, (addTail_frame (H.2 _ hl) h1 hx).2, ?_⟩
    intro hc
    obtain ⟨q, hq, hm⟩ := List.mem_flatMap.1 hc
    obtain ⟨r, hr, rfl⟩ := List.mem_map.1 hq
    have h2 : e ∉ r.1 :: r.2 := fun hc => he (mem_nodes hr hc)
    split at hm
    · simp only [List.mem_cons, List.mem_append, List.not_mem_nil, or_false] at hm h2
      rcases hm with hm | hm | hm
      · exact h2 (Or.inl hm)
      · exact h2 (Or.inr hm)
      · exact hx hm
    · exact h2 hm
  | del x =>
    obtain ⟨q, hq, hx⟩ := hv
    have h1 : e ∉ q.1 :: q.2 := fun hc => he (mem_nodes hq hc)
    refine ⟨(del_frame (H.2 _ hq) hx h1).1, (del_frame (H.2 _ hq) hx h1).2, ?_⟩
    intro hc
    obtain ⟨q, hq, hm⟩ := List.mem_flatMap.1 hc
    obtain ⟨r, hr, rfl⟩ := List.mem_map.1 hq
    refine he (mem_nodes hr ?_)
    rcases List.mem_cons.1 hm with hm | hm
    · exact List.mem_cons.2 (Or.inl hm)
    · exact List.mem_cons_of_mem _ (List.mem_of_mem_erase hm)

theorem frame_run {h : Heap A} {s : Lists A} (H : Inv h s) (ops : List (Op A)) (hv : ValidRun s ops) {e : A} (he : e ∉ nodes s)
    (hu : ∀ o ∈ ops, ¬ Uses e o) :
    (run h ops).next e = h.next e ∧ (run h ops).prev e = h.prev e ∧ e ∉ nodes (Spec.run s ops) := by
  induction ops generalizing h s with
  | nil => exact ⟨rfl, rfl, he⟩
  | cons o ops ih =>
    obtain ⟨h1, h2, h3⟩ := frame_step H hv.1 he (hu o (by simp))
    obtain ⟨g1, g2, g3⟩ := ih (H.step hv.1) hv.2 h3 (fun o ho => hu o (by simp [ho]))
    exact ⟨g1.trans h1, g2.trans h2, g3⟩

theorem validRun_append {s : Lists A} {a b : List (Op A)} (h : ValidRun s (a ++ b)) :
    ValidRun s a ∧ ValidRun (Spec.run s a) b := by
  induction a generalizing s with
  | nil => exact ⟨trivial, h⟩
  | cons o a ih =>
    obtain ⟨h1, h2⟩ := h
    obtain ⟨h3, h4⟩ := ih h2
    exact ⟨⟨h1, h3⟩, h4⟩

/-- **C193.** An element that was between `u` and `v` is deleted, the lists are used on in any way, and it is deleted again: all lists stay
as they are if `v` follows `u` at that time, or neither of them is in a list any more, and in no other case. -/
theorem C193_exact (h : Heap A) (ops ops' : List (Op A)) (e u v : A) (hv : ValidRun [] (ops ++ .del e :: ops'))
    (hb : Between (Spec.run [] ops) u e v) (hu : ∀ o ∈ ops', ¬ Uses e o) :
    (∀ q ∈ Spec.run [] (ops ++ .del e :: ops'), Links (run h (ops ++ .del e :: ops' ++ [.del e])) q.1 q.2) ↔
      Next (Spec.run [] (ops ++ .del e :: ops')) u v ∨
      (u ∉ nodes (Spec.run [] (ops ++ .del e :: ops')) ∧ v ∉ nodes (Spec.run [] (ops ++ .del e :: ops'))) := by
  obtain ⟨hv1, hv2⟩ := validRun_append hv
  have H0 : Inv (run h ops) (Spec.run [] ops) := Inv.run (h := h) (s := []) ⟨by simp [nodes], by simp⟩ ops hv1
  have H1 := H0.step hv2.1
  have H2 : Inv (run h (ops ++ .del e :: ops')) (Spec.run [] (ops ++ .del e :: ops')) :=
    Inv.run (h := h) (s := []) ⟨by simp [nodes], by simp⟩ _ hv
  -- the fields of the element
  obtain ⟨q, hq, a, b, hr⟩ := hb
  have huv := ring_next (H0.2 q hq) hr
  have hvv := ring_next (H0.2 q hq) (p := a ++ [u]) (x := e) (y := v) (q := b) (by rw [hr]; simp)
  obtain ⟨q', hq', he'⟩ := hv2.1
  have hself := not_self (H0.2 q' hq') he'
  have f1 : (listDel (run h ops) e).prev e = u := by
    simp [listDel, listDel_, Heap.setNext, Heap.setPrev, Function.update_of_ne hself.2.symm, huv.2]
  have f2 : (listDel (run h ops) e).next e = v := by
    simp [listDel, listDel_, Heap.setNext, Heap.setPrev, Function.update_of_ne hself.1.symm, hvv.1]
  have hout : e ∉ nodes (Spec.step (Spec.run [] ops) (.del e)) := by
    intro hc
    obtain ⟨r, hr, hm⟩ := List.mem_flatMap.1 hc
    obtain ⟨t, ht, rfl⟩ := List.mem_map.1 hr
    have hnd : (t.1 :: t.2).Nodup := (H0.2 t ht).1
    rcases List.mem_cons.1 hm with hm | hm
    · have : t = q' := nodes_disjoint H0.1 ht hq' (a := e) (by rw [hm]; simp) (List.mem_cons_of_mem _ he')
      subst this
      exact (List.nodup_cons.1 hnd).1 (hm ▸ he')
    · exact (List.Nodup.not_mem_erase (List.nodup_cons.1 hnd).2) hm
  obtain ⟨g1, g2, -⟩ := frame_run H1 ops' hv2.2 hout hu
  have e1 : run h (ops ++ .del e :: ops') = run (step (run h ops) (.del e)) ops' := by
    simp [run, List.foldl_append]
  have key := stale_del H2 e
  have k1 : (run h (ops ++ .del e :: ops')).prev e = u := by rw [e1, g2]; exact f1
  have k2 : (run h (ops ++ .del e :: ops')).next e = v := by rw [e1, g1]; exact f2
  rw [k1, k2] at key
  have e2 : run h (ops ++ .del e :: ops' ++ [.del e]) = listDel (run h (ops ++ .del e :: ops')) e := by
    rw [run, List.foldl_append]; rfl
  rw [e2]
  exact key

/-- A list with head 0 and the elements 1, 2, 3: deleting 2 again does harm if 3 was deleted, none if 1 was deleted as well, and none if an
element was added elsewhere. -/
example : ¬ (∀ q ∈ Spec.run [] ([.init 0, .addTail 1 0, .addTail 2 0, .addTail 3 0] ++ .del 2 :: [.del 3]),
      Links (run (⟨id, id⟩ : Heap Nat) ([.init 0, .addTail 1 0, .addTail 2 0, .addTail 3 0] ++ .del 2 :: [.del 3] ++ [.del 2])) q.1 q.2) ∧
    (∀ q ∈ Spec.run [] ([.init 0, .addTail 1 0, .addTail 2 0, .addTail 3 0] ++ .del 2 :: [.del 3, .del 1]),
      Links (run (⟨id, id⟩ : Heap Nat) ([.init 0, .addTail 1 0, .addTail 2 0, .addTail 3 0] ++ .del 2 :: [.del 3, .del 1] ++ [.del 2])) q.1 q.2) ∧
    (∀ q ∈ Spec.run [] ([.init 0, .addTail 1 0, .addTail 2 0, .addTail 3 0] ++ .del 2 :: [.add 4 0]),
      Links (run (⟨id, id⟩ : Heap Nat) ([.init 0, .addTail 1 0, .addTail 2 0, .addTail 3 0] ++ .del 2 :: [.add 4 0] ++ [.del 2])) q.1 q.2) := by
  refine ⟨?_, ?_, ?_⟩
  · intro hc
    have := hc (0, [1]) (by decide)
    exact absurd this.2.1 (by decide)
  · intro q hq
    have : q = (0, []) := by simpa [Spec.run, Spec.step] using hq
    subst this
    exact ⟨by decide, by decide, by decide⟩
  · intro q hq
    have : q = (0, [4, 1, 3]) := by simpa [Spec.run, Spec.step] using hq
    subst this
    exact ⟨by decide, by decide, by decide⟩

end Gel.Listx
