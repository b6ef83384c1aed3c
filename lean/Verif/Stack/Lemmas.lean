import Verif.Stack.Model
import Verif.Stack.Spec
import Mathlib.Tactic.SplitIfs

/-!
# Macro stack: lemmas
-/
namespace Gel.Stack

variable {α : Type u}

/-- The stack of capacity `cap` holds `l`, oldest first. -/
structure Rep (cap : Nat) (s : Stack α) (l : List α) : Prop where
  idx : s.idx = l.length
  len : s.items.length = cap
  fits : l.length ≤ cap
  get : ∀ i, i < l.length → s.items[i]? = l[i]?

theorem init_rep (items : List α) : Rep items.length (init items) [] := ⟨rfl, rfl, Nat.zero_le _, by simp⟩

theorem push_rep {cap : Nat} (hc : cap ≤ 65535) {s : Stack α} {l : List α} (h : Rep cap s l) (x : α) :
    if l.length < cap then ∃ s', push s x = .ok (s', 0) ∧ Rep cap s' (l ++ [x]) else push s x = .ok (s, 1) := by
  have hi := h.idx; have hl := h.len; have hf := h.fits
  split_ifs with hlt
  · refine ⟨⟨l.length + 1, s.items.set l.length x⟩, ?_, by simp, by simpa using hl, by simp; omega, ?_⟩
    · rw [push, if_neg (by omega), wr, if_pos (by omega), hi]
      simp only [Res.ok_bind, Res.pure_eq]
      rw [Nat.mod_eq_of_lt (by omega)]
    · intro i hi'
      rw [List.length_append, List.length_singleton] at hi'
      show (s.items.set l.length x)[i]? = _
      rw [List.getElem?_set]
      rcases Nat.lt_or_ge i l.length with h' | h'
      · rw [if_neg (by omega), h.get i h', List.getElem?_append_left h']
      · have : i = l.length := by omega
        subst this
        rw [if_pos rfl, if_pos (by omega)]; simp
  · rw [push, if_pos (by omega)]

theorem pop_rep {cap : Nat} {s : Stack α} {l : List α} (h : Rep cap s l) (hl : l.length ≠ 0) :
    pop s = .ok ((popNull s).1, 0, l.getLast?) ∧ (popNull s).2 = 0 ∧ Rep cap (popNull s).1 l.dropLast := by
  have hi := h.idx
  have hne : ¬ s.idx = 0 := by omega
  have hg := h.get (l.length - 1) (by omega)
  refine ⟨?_, by simp [popNull, hne], ?_⟩
  · rw [pop, if_neg hne, hi, rd, hg, List.getLast?_eq_getElem?]
    have : l[l.length - 1]? = some l[l.length - 1] := List.getElem?_eq_getElem (by omega)
    rw [this]
    simp [popNull, hi, hl]
  · simp only [popNull, hne, if_false]
    refine ⟨by simp [hi], h.len, by simp; have := h.fits; omega, ?_⟩
    intro i hi'
    simp only [List.length_dropLast] at hi'
    rw [List.getElem?_dropLast, if_pos hi']
    exact h.get i (by omega)

/-- The shifting loop: positions `i .. i + cnt` get the element after them. -/
theorem shift_ok (items : List α) (i cnt : Nat) (h : i + cnt < items.length) :
    ∃ r, shift items i cnt = .ok r ∧ r.length = items.length ∧
      ∀ j, r[j]? = if i ≤ j ∧ j < i + cnt then items[j + 1]? else items[j]? := by
  induction cnt generalizing items i with
  | zero => exact ⟨items, rfl, rfl, by intro j; rw [if_neg (by omega)]⟩
  | succ cnt ih =>
    obtain ⟨x, hx⟩ : ∃ x, items[i + 1]? = some x := ⟨_, List.getElem?_eq_getElem (by omega)⟩
    obtain ⟨r, h1, h2, h3⟩ := ih (items.set i x) (i + 1) (by simp; omega)
    refine ⟨r, ?_, by simpa using h2, ?_⟩
    · simp only [shift, rd, hx, Res.ok_bind, wr]
      rw [if_pos (by omega)]
      simpa using h1
    · intro j
      rw [h3 j]
      simp only [List.getElem?_set]
      split_ifs <;> first | rfl | omega | (rename_i h4 _ _; subst h4; simp [hx])

theorem dequeue_rep {cap : Nat} {s : Stack α} {l : List α} (h : Rep cap s l) :
    ∃ s', dequeue s = .ok s' ∧ Rep cap s' (l.drop 1) := by
  have hi := h.idx; have hl := h.len; have hf := h.fits
  by_cases h0 : l.length = 0
  · have : l = [] := List.length_eq_zero_iff.1 h0
    subst this
    exact ⟨s, by rw [dequeue, if_neg (by omega)], h⟩
  · obtain ⟨r, h1, h2, h3⟩ := shift_ok s.items 0 (s.idx - 1) (by omega)
    refine ⟨⟨s.idx - 1, r⟩, ?_, by simp [hi], by rw [← hl]; exact h2, by simp; omega, ?_⟩
    · rw [dequeue, if_pos (by omega), h1]; rfl
    · intro i hi'
      rw [List.length_drop] at hi'
      show r[i]? = _
      rw [h3 i, if_pos (by omega), h.get (i + 1) (by omega), List.getElem?_drop, Nat.add_comm]

/-- One call, except a `peek` that stores the element, against the specification. -/
theorem step_rep {cap : Nat} (hc : cap ≤ 65535) {s : Stack α} {l : List α} (h : Rep cap s l) (c : Call α)
    (hp : c ≠ .peek) :
    ∃ s', step s c = .ok (s', (Spec.step cap l c).2) ∧ Rep cap s' (Spec.step cap l c).1 := by
  have hi := h.idx; have hl := h.len
  cases c with
  | push x =>
    have := push_rep hc h x
    split_ifs at this with hlt
    · obtain ⟨s', e, r⟩ := this
      exact ⟨s', by simp [step, e, Spec.step, hlt], by simpa [Spec.step, hlt] using r⟩
    · exact ⟨s, by simp [step, this, Spec.step, hlt], by simpa [Spec.step, hlt] using h⟩
  | pop =>
    by_cases h0 : l.length = 0
    · exact ⟨s, by simp [step, pop, hi, Spec.step, h0], by simpa [Spec.step, h0] using h⟩
    · obtain ⟨e, -, r⟩ := pop_rep h h0
      refine ⟨(popNull s).1, ?_, ?_⟩
      · simp [step, e, Spec.step, h0]
      · simpa [Spec.step, h0] using r
  | popNull =>
    by_cases h0 : l.length = 0
    · exact ⟨s, by simp [step, popNull, hi, Spec.step, h0], by simpa [Spec.step, h0] using h⟩
    · obtain ⟨-, e, r⟩ := pop_rep h h0
      refine ⟨(popNull s).1, ?_, ?_⟩
      · simp [step, e, Spec.step, h0]
      · simpa [Spec.step, h0] using r
  | peek => exact absurd rfl hp
  | peekNull =>
    refine ⟨s, ?_, by simp only [Spec.step]; split_ifs <;> exact h⟩
    simp only [step, peekNull, Spec.step, hi]
    split_ifs <;> rfl
  | dequeue =>
    obtain ⟨s', e, r⟩ := dequeue_rep h
    exact ⟨s', by simp [step, e, Spec.step], r⟩
  | isEmpty =>
    refine ⟨s, ?_, h⟩
    simp only [step, isEmpty, Spec.step, hi]
    split_ifs with h' <;> simp [h']
  | isFull =>
    refine ⟨s, ?_, h⟩
    simp only [step, isFull, Spec.step, hi, hl]
    split_ifs with h' <;> simp [h']

theorem run_rep {cap : Nat} (hc : cap ≤ 65535) {s : Stack α} {l : List α} (h : Rep cap s l) (cs : List (Call α))
    (hp : .peek ∉ cs) :
    ∃ s', run s cs = .ok (s', (Spec.run cap l cs).2) ∧ Rep cap s' (Spec.run cap l cs).1 := by
  induction cs generalizing s l with
  | nil => exact ⟨s, rfl, h⟩
  | cons c cs ih =>
    obtain ⟨s1, e1, r1⟩ := step_rep hc h c (by intro e; exact hp (by simp [e]))
    obtain ⟨s2, e2, r2⟩ := ih r1 (by intro h; exact hp (List.mem_cons_of_mem _ h))
    exact ⟨s2, by simp [run, e1, e2, Spec.run], r2⟩

theorem run_append (s : Stack α) (cs ds : List (Call α)) :
    run s (cs ++ ds) = (run s cs >>= fun r => run r.1 ds >>= fun r' => pure (r'.1, r.2 ++ r'.2)) := by
  induction cs generalizing s with
  | nil =>
    simp only [List.nil_append, run, Res.ok_bind]
    cases run s ds <;> simp
  | cons c cs ih =>
    simp only [List.cons_append, run]
    cases step s c <;> simp [ih]

end Gel.Stack
