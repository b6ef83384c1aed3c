import Verif.Listx.Lemmas

/-!
# Intrusive list: properties C13, C14, C15
-/
namespace Gel.Listx

open Spec

variable {A : Type u} [DecidableEq A]

/-- **C13.** Every valid history of INIT_LIST_HEAD, list_add, list_add_tail and list_del on any number of lists, from
arbitrary memory, leaves every head linking, in both directions, exactly the elements the specification gives; no
address is in two lists. -/
theorem C13_history (h : Heap A) (ops : List (Op A)) (hv : ValidRun [] ops) :
    (nodes (Spec.run [] ops)).Nodup ∧ ∀ head l, (head, l) ∈ Spec.run [] ops → Links (run h ops) head l := by
  have := Inv.run (h := h) (s := []) ⟨by simp [nodes], by simp⟩ ops hv
  exact ⟨this.1, fun head l hm => this.2 (head, l) hm⟩

/-- C13: what one call does to one well-formed list, and that it touches no other address. -/
theorem C13_calls (h : Heap A) (head x : A) (l : List A) (H : Links h head l) :
    (x ∉ head :: l → Links (listAdd h x head) head (x :: l) ∧ Links (listAddTail h x head) head (l ++ [x])) ∧
    (x ∈ l → Links (listDel h x) head (l.erase x)) ∧
    (∀ a, a ∉ head :: l → a ≠ x →
      (listAdd h x head).next a = h.next a ∧ (listAdd h x head).prev a = h.prev a ∧
      (listAddTail h x head).next a = h.next a ∧ (listAddTail h x head).prev a = h.prev a ∧
      (x ∈ l → (listDel h x).next a = h.next a ∧ (listDel h x).prev a = h.prev a)) := by
  refine ⟨fun hx => ⟨links_add H hx, links_addTail H hx⟩, links_del H, fun a ha hax => ?_⟩
  obtain ⟨h1, h2⟩ := add_frame H ha hax
  obtain ⟨h3, h4⟩ := addTail_frame H ha hax
  exact ⟨h1, h2, h3, h4, fun hx => del_frame H hx ha⟩

-- two lists, an element removed from the middle of one and added to the other
example : Spec.run ([] : Lists Nat) [.init 100, .init 200, .addTail 1 100, .addTail 2 100, .add 3 100, .del 1,
    .add 1 200] = [(200, [1]), (100, [3, 2])] := by decide

example : ValidRun ([] : Lists Nat) [.init 100, .init 200, .addTail 1 100, .addTail 2 100, .add 3 100, .del 1,
    .add 1 200] := by
  simp [ValidRun, Valid, nodes, Spec.step]

/-- **C14.** Iterating over a well-formed list forwards visits exactly its elements in order, backwards in reverse
order, and both loops end after one evaluation of the condition per element and one more. -/
theorem C14_iteration (h : Heap A) (head : A) (l : List A) (H : Links h head l) (fuel : Nat) (hf : l.length < fuel) :
    listForEach (fun h _ => h) fuel h head = some (l, h) ∧ listForEachPrev fuel h head = some l.reverse := by
  have key : ∀ (h : Heap A) (l : List A), Links h head l → l.length < fuel →
      listForEach (fun h _ => h) fuel h head = some (l, h) := by
    intro h l H hf
    have hid : ∀ (fuel : Nat) (h : Heap A) (pos : A) r, forLoop (fun h _ => h) head fuel h pos = some r → r.2 = h := by
      intro fuel
      induction fuel with
      | zero => intro h pos r hr; simp [forLoop] at hr
      | succ fuel ih =>
        intro h pos r hr
        simp only [forLoop] at hr
        split at hr
        · cases hr; rfl
        · simp only [Option.map_eq_some_iff] at hr
          obtain ⟨r', hr', rfl⟩ := hr
          exact ih _ _ r' hr'
    obtain ⟨h', e, -⟩ := forLoop_del (fun _ => false) [] l H (h.next head) H.head_next fuel hf
    simp only [Bool.false_eq_true, if_false] at e
    have := hid _ _ _ _ e
    simp only at this
    subst this
    exact e
  refine ⟨key h l H hf, ?_⟩
  have := key h.swap l.reverse H.swap (by simpa using hf)
  rw [listForEachPrev, forLoopPrev_eq]
  rw [listForEach] at this
  have e : h.swap.next head = h.prev head := rfl
  rw [e] at this
  rw [this]; rfl

/-- C14: the queries agree with the sequence: `list_empty`, `list_is_last`, `list_next` and `list_prev` of the head, and
the neighbours of an element. -/
theorem C14_queries (h : Heap A) (head : A) (l : List A) (H : Links h head l) :
    (listEmpty h head = true ↔ l = []) ∧
    listNext h head = l.head? ∧ listPrev h head = l.getLast? ∧
    (∀ e ∈ l, (listIsLast h e head = true ↔ l.getLast? = some e)) ∧
    (∀ a b u v, l = a ++ u :: v :: b → listNext h u = some v ∧ listPrev h v = some u) := by
  have hh := H.head_next
  have hempty : listEmpty h head = true ↔ l = [] := by
    simp only [listEmpty, decide_eq_true_eq]
    cases l with
    | nil => simpa using hh.symm
    | cons a l =>
      simp only [List.cons_append, List.head?_cons, Option.some.injEq] at hh
      rw [← hh]
      simp only [reduceCtorEq, iff_false]
      rintro rfl
      have := H.1
      simp at this
  have hprev : (l.reverse ++ [head]).head? = some (h.prev head) := H.swap.head_next
  have hself : ∀ e ∈ l, h.next e ≠ e ∧ h.prev e ≠ e := by
    -- an element is not its own neighbour
    have hs : ∀ (h : Heap A) (l : List A), Links h head l → ∀ e ∈ l, h.next e ≠ e := by
      intro h l H e he hc
      obtain ⟨a, b, rfl⟩ := List.append_of_mem he
      have h2 := H.2.1
      have e1 : head :: (a ++ e :: b) = (head :: a) ++ e :: b := rfl
      have e2 : a ++ e :: b ++ [head] = (a ++ [e]) ++ (b ++ [head]) := by simp
      rw [e1, e2, List.map_append] at h2
      have h3 := List.append_inj_right h2 (by simp)
      rw [List.map_cons, hc] at h3
      have h4 : e ∈ b ++ [head] := by rw [← h3]; simp
      have h1 := H.1
      simp only [List.mem_append, List.mem_singleton] at h4
      rcases h4 with h4 | rfl
      · rw [List.nodup_cons, List.nodup_append] at h1
        have := h1.2.2.1
        simp [h4] at this
      · simp at h1
    intro e he
    exact ⟨hs h l H e he, hs h.swap l.reverse H.swap e (by simpa using he)⟩
  refine ⟨hempty, ?_, ?_, ?_, ?_⟩
  · rw [listNext]
    by_cases hl : l = []
    · rw [if_pos (hempty.2 hl), hl]; rfl
    · rw [if_neg (by rw [hempty]; exact hl)]
      cases l with
      | nil => exact absurd rfl hl
      | cons a l => simpa using hh.symm
  · rw [listPrev]
    by_cases hl : l = []
    · rw [if_pos (hempty.2 hl), hl]; rfl
    · rw [if_neg (by rw [hempty]; exact hl), ← List.head?_reverse]
      cases hr : l.reverse with
      | nil => exact absurd (by simpa using hr) hl
      | cons a r => rw [hr] at hprev; simpa using hprev.symm
  · intro e he
    obtain ⟨a, b, rfl⟩ := List.append_of_mem he
    have h2 := H.2.1
    have e1 : head :: (a ++ e :: b) = (head :: a) ++ e :: b := rfl
    have e2 : a ++ e :: b ++ [head] = (a ++ [e]) ++ (b ++ [head]) := by simp
    rw [e1, e2, List.map_append] at h2
    have h3 := List.append_inj_right h2 (by simp)
    simp only [listIsLast, decide_eq_true_eq]
    have h1 := H.1
    cases b with
    | nil =>
      simp only [List.map_cons, List.map_nil, List.nil_append, List.cons.injEq, and_true] at h3
      simp [h3]
    | cons c b =>
      simp only [List.map_cons, List.cons_append, List.cons.injEq] at h3
      rw [h3.1]
      constructor
      · rintro rfl; simp at h1
      · intro hc
        rw [List.getLast?_append, List.getLast?_cons_cons] at hc
        have hm : e ∈ c :: b := by
          cases hg : (c :: b).getLast? with
          | none => simp at hg
          | some z =>
            rw [hg] at hc
            simp at hc
            subst hc
            exact List.mem_of_getLast? hg
        rw [List.nodup_cons, List.nodup_append] at h1
        exact absurd hm (List.nodup_cons.1 h1.2.2.1).1
  · intro a b u v hl
    subst hl
    have key : ∀ (h : Heap A) (a b : List A) (u v : A), Links h head (a ++ u :: v :: b) → h.next u = v := by
      intro h a b u v H
      have h2 := H.2.1
      have e1 : head :: (a ++ u :: v :: b) = (head :: a) ++ u :: v :: b := rfl
      have e2 : a ++ u :: v :: b ++ [head] = (a ++ [u]) ++ (v :: b ++ [head]) := by simp
      rw [e1, e2, List.map_append] at h2
      have h3 := List.append_inj_right h2 (by simp)
      exact (List.cons.inj h3).1
    have k1 := key h a b u v H
    have k2 : h.prev v = u := key h.swap b.reverse a.reverse v u (by have := H.swap; simpa using this)
    have s1 := (hself u (by simp)).1
    have s2 := (hself v (by simp)).1
    exact ⟨by rw [listNext, if_neg (by simpa [listEmpty] using s1), k1], by rw [listPrev, if_neg (by simpa [listEmpty] using s2), k2]⟩

/-- **C15.** `list_for_each` with a body that removes the current element whenever `p` holds for it visits every original
element exactly once, in order, ends, and leaves the elements for which `p` does not hold. -/
theorem C15_delete_while_iterating (h : Heap A) (head : A) (l : List A) (H : Links h head l) (p : A → Bool)
    (fuel : Nat) (hf : l.length < fuel) :
    ∃ h', listForEach (fun h a => if p a then listDel h a else h) fuel h head = some (l, h') ∧
      Links h' head (l.filter fun a => !p a) := by
  simpa [listForEach] using forLoop_del p [] l H (h.next head) H.head_next fuel hf

-- a list of three elements, the odd ones removed while iterating
example : Links (run (⟨id, id⟩ : Heap Nat) [.init 100, .addTail 1 100, .addTail 2 100, .addTail 3 100]) 100 [1, 2, 3] :=
  (C13_history _ _ (by simp [ValidRun, Valid, nodes, Spec.step])).2 100 [1, 2, 3] (by decide)

example : (listForEach (fun h a => if a % 2 == 1 then listDel h a else h) 4
      (run (⟨id, id⟩ : Heap Nat) [.init 100, .addTail 1 100, .addTail 2 100, .addTail 3 100]) 100).map
      (fun r => (r.1, listForEach (fun h _ => h) 2 r.2 100 |>.map (·.1))) = some ([1, 2, 3], some [2]) := by decide

end Gel.Listx
