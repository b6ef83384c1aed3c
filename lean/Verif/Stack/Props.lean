import Verif.Stack.Lemmas

/-!
# Macro stack: properties C11 and C12
-/
namespace Gel.Stack

variable {α : Type u}

/-- **C11.** For every capacity up to 65535 and every history of push, pop, dequeue and the queries, the stack returns
what a bounded stack with removal at the bottom returns, and no access leaves the item array. -/
theorem C11_stack (items : List α) (hc : items.length ≤ 65535) (cs : List (Call α)) (hp : .peek ∉ cs) :
    ∃ s', run (init items) cs = .ok (s', (Spec.run items.length [] cs).2) := by
  obtain ⟨s', h, -⟩ := run_rep hc (init_rep items) cs hp
  exact ⟨s', h⟩

example : run (init [0, 0, 0]) [.push 1, .push 2, .push 3, .push 4, .isFull, .dequeue, .pop, .push 5, .pop, .pop, .pop,
      .isEmpty] =
    .ok (⟨0, [2, 5, 3]⟩, [⟨0, none⟩, ⟨0, none⟩, ⟨0, none⟩, ⟨1, none⟩, ⟨1, none⟩, ⟨0, none⟩, ⟨0, some 3⟩, ⟨0, none⟩,
      ⟨0, some 5⟩, ⟨0, some 2⟩, ⟨1, none⟩, ⟨1, none⟩]) := by decide

/-- **C12, partial.** In every reachable state: on an empty stack, or when no element is to be stored, `NAME_peek`
returns the status the specification asks for and changes nothing; on a non-empty stack that is not full it also
succeeds and changes nothing. Missing: the element stored, which is wrong (`C12_peek_wrong`, `C12_peek_full`). -/
theorem C12_peek_partial (items : List α) (hc : items.length ≤ 65535) (cs : List (Call α)) (hp : .peek ∉ cs) :
    ∃ s' os, run (init items) cs = .ok (s', os) ∧
      step s' .peekNull = .ok (s', (Spec.step items.length (Spec.run items.length [] cs).1 .peekNull).2) ∧
      ((Spec.run items.length [] cs).1 = [] → step s' .peek = .ok (s', ⟨1, none⟩)) ∧
      ((Spec.run items.length [] cs).1 ≠ [] → isFull s' = false → ∃ v, step s' .peek = .ok (s', ⟨0, some v⟩)) := by
  obtain ⟨s', h, r⟩ := run_rep hc (init_rep items) cs hp
  have hi := r.idx
  refine ⟨s', _, h, ?_, ?_, ?_⟩
  · simp only [step, peekNull, Spec.step, hi]
    split_ifs <;> rfl
  · intro e
    simp [step, peek, hi, e]
  · intro hne hf
    have : ¬ s'.idx = 0 := by
      rw [hi]; intro h0; exact hne (List.length_eq_zero_iff.1 h0)
    have hlt : s'.idx < s'.items.length := by
      have h1 := r.fits; have h2 := r.len
      simp only [isFull, beq_eq_false_iff_ne] at hf
      omega
    refine ⟨s'.items[s'.idx], ?_⟩
    simp [step, peek, this, rd, List.getElem?_eq_getElem hlt]

/-- **C12 is false of the code.** On every stack of capacity at least 2: after pushing one element, `NAME_peek` yields
whatever the second slot happened to contain, while `NAME_pop` yields the pushed element. -/
theorem C12_peek_wrong (x y z : α) (rest : List α) (hc : rest.length + 2 ≤ 65535) :
    ∃ s', run (init (y :: z :: rest)) [.push x, .peek, .pop] = .ok (s', [⟨0, none⟩, ⟨0, some z⟩, ⟨0, some x⟩]) := by
  refine ⟨⟨0, x :: z :: rest⟩, ?_⟩
  simp [run, step, push, peek, pop, init, wr, rd]

/-- C12 is false of the code: on a full stack `NAME_peek` reads outside the item array, whatever the history. -/
theorem C12_peek_full (items : List α) (h0 : 0 < items.length) (hc : items.length ≤ 65535) (cs : List (Call α))
    (hp : .peek ∉ cs) (hf : (Spec.run items.length [] cs).1.length = items.length) :
    run (init items) (cs ++ [.peek]) = .ub := by
  obtain ⟨s', h, r⟩ := run_rep hc (init_rep items) cs hp
  have hi := r.idx; have hl := r.len
  rw [run_append, h]
  simp only [Res.ok_bind, run, step, peek]
  rw [if_neg (by omega), rd, List.getElem?_eq_none (by omega)]
  rfl

-- the hypothesis is met after filling the stack
example : (Spec.run 2 [] [.push 1, .push 2]).1.length = 2 := rfl

end Gel.Stack
