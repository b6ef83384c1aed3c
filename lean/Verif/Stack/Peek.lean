import Verif.Stack.Props

/-!
# Macro stack: what `NAME_peek` yields, property C178
-/
namespace Gel.Stack

variable {α : Type u}

namespace Spec

/-- A stack, top first, and the remains above it: the array above the top, nearest first. -/
structure Tape (α : Type u) where
  stack : List α
  above : List α

/-- A push covers the nearest remains, a pop leaves its element there, a removal at the bottom leaves a copy of the top element
there; `NAME_peek` shows the nearest remains, and is undefined if there are none. -/
def tapeStep (s : Tape α) : Call α → Res (Tape α × Obs α)
  | .push x => match s.above with
    | [] => .ok (s, ⟨1, none⟩)
    | _ :: above => .ok (⟨x :: s.stack, above⟩, ⟨0, none⟩)
  | .pop => match s.stack with
    | [] => .ok (s, ⟨1, none⟩)
    | t :: stack => .ok (⟨stack, t :: s.above⟩, ⟨0, some t⟩)
  | .popNull => match s.stack with
    | [] => .ok (s, ⟨1, none⟩)
    | t :: stack => .ok (⟨stack, t :: s.above⟩, ⟨0, none⟩)
  | .peek => match s.stack, s.above with
    | [], _ => .ok (s, ⟨1, none⟩)
    | _ :: _, [] => .ub
    | _ :: _, r :: _ => .ok (s, ⟨0, some r⟩)
  | .peekNull => .ok (s, ⟨if s.stack = [] then 1 else 0, none⟩)
  | .dequeue => match s.stack with
    | [] => .ok (s, ⟨0, none⟩)
    | t :: stack => .ok (⟨(t :: stack).dropLast, t :: s.above⟩, ⟨0, none⟩)
  | .isEmpty => .ok (s, ⟨if s.stack = [] then 1 else 0, none⟩)
  | .isFull => .ok (s, ⟨if s.above = [] then 1 else 0, none⟩)

def tapeRun : Tape α → List (Call α) → Res (List (Obs α))
  | _, [] => .ok []
  | s, c :: cs => do
    let (s, o) ← tapeStep s c
    let os ← tapeRun s cs
    pure (o :: os)

end Spec
open Spec (Tape tapeStep tapeRun)

/-- The struct that a tape stands for. -/
def ofTape (s : Tape α) : Stack α := ⟨s.stack.length, s.stack.reverse ++ s.above⟩

theorem shift_list (pre l above : List α) (b : α) :
    shift (pre ++ b :: l ++ above) pre.length l.length = .ok (pre ++ l ++ (b :: l).getLast (by simp) :: above) := by
  induction l generalizing pre b with
  | nil => simp [shift]
  | cons c l ih =>
    have := ih (pre ++ [c]) c
    simp only [List.append_assoc, List.cons_append, List.nil_append, List.length_append, List.length_singleton] at this
    simp [shift, rd, wr, this, List.getElem?_append_right]

theorem dequeue_tape (stack above : List α) (t : α) :
    dequeue (ofTape ⟨t :: stack, above⟩) = .ok (ofTape ⟨(t :: stack).dropLast, t :: above⟩) := by
  obtain ⟨b, l, e⟩ : ∃ b l, (t :: stack).reverse = b :: l := by
    cases h : (t :: stack).reverse with
    | nil => simp at h
    | cons b l => exact ⟨b, l, rfl⟩
  have hl : stack.length = l.length := by
    have := congrArg List.length e
    simpa using this
  have hlast : (b :: l).getLast (by simp) = t := by
    simp only [← e]
    simp
  have hd : (t :: stack).dropLast.reverse = l := by
    rw [← List.tail_reverse, e]; rfl
  have := shift_list [] l above b
  simp only [List.nil_append, List.length_nil, hlast] at this
  rw [dequeue]
  simp only [ofTape, e, hd, List.length_cons, List.length_dropLast, Nat.add_sub_cancel, hl]
  rw [if_pos (by omega), this]
  rfl

theorem step_tape (s : Tape α) (hc : s.stack.length + s.above.length ≤ 65535) (c : Call α) :
    step (ofTape s) c = (tapeStep s c >>= fun r => pure (ofTape r.1, r.2)) := by
  obtain ⟨st, ab⟩ := s
  simp only at hc
  cases c with
  | push x =>
    cases ab with
    | nil => simp [step, push, ofTape, tapeStep]
    | cons a ab =>
      simp only [List.length_cons] at hc
      have : (st.length + 1) % 65536 = st.length + 1 := Nat.mod_eq_of_lt (by omega)
      simp [step, push, ofTape, tapeStep, wr, this]
  | pop =>
    cases st with
    | nil => simp [step, pop, ofTape, tapeStep]
    | cons t st => simp [step, pop, ofTape, tapeStep, rd]
  | popNull =>
    cases st with
    | nil => simp [step, popNull, ofTape, tapeStep]
    | cons t st => simp [step, popNull, ofTape, tapeStep]
  | peek =>
    cases st with
    | nil => simp [step, peek, ofTape, tapeStep]
    | cons t st =>
      cases ab with
      | nil => simp [step, peek, ofTape, tapeStep, rd]
      | cons a ab => simp [step, peek, ofTape, tapeStep, rd, List.getElem?_append_right]
  | peekNull => cases st <;> simp [step, peekNull, ofTape, tapeStep]
  | dequeue =>
    cases st with
    | nil => simp [step, dequeue, ofTape, tapeStep]
    | cons t st => simp [step, tapeStep, dequeue_tape]
  | isEmpty => cases st <;> simp [step, isEmpty, ofTape, tapeStep]
  | isFull => cases ab <;> simp [step, isFull, ofTape, tapeStep]

theorem tapeStep_length (s : Tape α) (c : Call α) (s' : Tape α) (o : Obs α) (h : tapeStep s c = .ok (s', o)) :
    s'.stack.length + s'.above.length = s.stack.length + s.above.length := by
  obtain ⟨st, ab⟩ := s
  cases c <;> cases st <;> cases ab <;> simp [tapeStep] at h <;> obtain ⟨rfl, -⟩ := h <;> simp <;> omega

/-- **C178.** Every capacity up to 65535 and every history with `NAME_peek` anywhere: the results, the values and the reads outside
the array are those of a stack with its remains: `NAME_peek` shows what lies just above the top. -/
theorem C178_peek (items : List α) (hc : items.length ≤ 65535) (cs : List (Call α)) :
    (do let (_, os) ← run (init items) cs; pure os) = tapeRun ⟨[], items⟩ cs := by
  have key : ∀ (cs : List (Call α)) (s : Tape α), s.stack.length + s.above.length ≤ 65535 →
      (do let (_, os) ← run (ofTape s) cs; pure os) = tapeRun s cs := by
    intro cs
    induction cs with
    | nil => intro s _; rfl
    | cons c cs ih =>
      intro s h
      rw [run, tapeRun, step_tape s h]
      cases e : tapeStep s c with
      | ok r =>
        obtain ⟨s', o⟩ := r
        have := tapeStep_length s c s' o e
        simp only [Res.ok_bind, Res.pure_eq]
        rw [← ih s' (by omega)]
        cases run (ofTape s') cs <;> rfl
      | ub => rfl
      | abort => rfl
      | diverge => rfl
  exact key cs ⟨[], items⟩ (by simpa using hc)

/-- **C178.** `NAME_peek` right after a removal at the bottom shows the top element, if one is left; right after a pop it shows the
element just popped. -/
theorem C178_after (items : List α) (hc : items.length ≤ 65535) (cs : List (Call α)) (s : Stack α) (os : List (Obs α))
    (hrun : run (init items) cs = .ok (s, os)) (h2 : 2 ≤ s.idx) :
    ∃ s1 s2 t, step s .dequeue = .ok (s1, ⟨0, none⟩) ∧ step s1 .peek = .ok (s1, ⟨0, some t⟩) ∧
      (∃ s', step s1 .pop = .ok (s', ⟨0, some t⟩)) ∧
      step s .pop = .ok (s2, ⟨0, some t⟩) ∧ step s2 .peek = .ok (s2, ⟨0, some t⟩) := by
  have reach : ∀ (cs : List (Call α)) (x : Tape α) (s : Stack α) (os : List (Obs α)),
      x.stack.length + x.above.length ≤ 65535 → run (ofTape x) cs = .ok (s, os) →
      ∃ y : Tape α, s = ofTape y ∧ y.stack.length + y.above.length ≤ 65535 := by
    intro cs
    induction cs with
    | nil => intro x s os h e; simp only [run, Res.ok.injEq, Prod.mk.injEq] at e; exact ⟨x, e.1.symm, h⟩
    | cons c cs ih =>
      intro x s os h e
      rw [run, step_tape x h] at e
      cases e1 : tapeStep x c with
      | ok r =>
        obtain ⟨x', o⟩ := r
        have hl := tapeStep_length x c x' o e1
        rw [e1] at e
        simp only [Res.ok_bind, Res.pure_eq] at e
        cases e2 : run (ofTape x') cs with
        | ok r =>
          obtain ⟨s'', os''⟩ := r
          rw [e2] at e
          simp only [Res.ok_bind, Res.ok.injEq, Prod.mk.injEq] at e
          rw [← e.1]
          exact ih x' s'' os'' (by omega) e2
        | ub => rw [e2] at e; exact absurd e (by simp)
        | abort => rw [e2] at e; exact absurd e (by simp [bind, Res.bind])
        | diverge => rw [e2] at e; exact absurd e (by simp [bind, Res.bind])
      | ub => rw [e1] at e; exact absurd e (by simp)
      | abort => rw [e1] at e; exact absurd e (by simp [bind, Res.bind])
      | diverge => rw [e1] at e; exact absurd e (by simp [bind, Res.bind])
  obtain ⟨y, rfl, hy⟩ := reach cs ⟨[], items⟩ s os (by simpa using hc) hrun
  obtain ⟨st, ab⟩ := y
  match st, hy, h2 with
  | [], _, h2 => simp [ofTape] at h2
  | [_], _, h2 => simp [ofTape] at h2
  | t :: u :: st, hy, _ =>
    simp only [List.length_cons] at hy
    have hd : (t :: u :: st).dropLast = t :: (u :: st).dropLast := rfl
    refine ⟨ofTape ⟨(t :: u :: st).dropLast, t :: ab⟩, ofTape ⟨u :: st, t :: ab⟩, t, ?_, ?_,
      ⟨ofTape ⟨(u :: st).dropLast, t :: t :: ab⟩, ?_⟩, ?_, ?_⟩
    · rw [step_tape _ (by simp; omega)]; rfl
    · rw [step_tape _ (by simp; omega)]; rfl
    · rw [step_tape _ (by simp; omega)]; rfl
    · rw [step_tape _ (by simp; omega)]; rfl
    · rw [step_tape _ (by simp; omega)]; rfl

/-- **C178.** From 65536 items on the stack never is full: the push number 65536 makes it empty. -/
theorem C178_large (items : List α) (hc : 65536 ≤ items.length) (f : Nat → α) :
    ∃ s', run (init items) ((List.range 65536).map (.push ∘ f) ++ [.isEmpty, .pop]) =
      .ok (s', List.replicate 65536 ⟨0, none⟩ ++ [⟨1, none⟩, ⟨1, none⟩]) := by
  have key : ∀ m, m ≤ 65536 → ∃ s : Stack α, run (init items) ((List.range m).map (.push ∘ f)) =
      .ok (s, List.replicate m ⟨0, none⟩) ∧ s.idx = m % 2 ^ 16 ∧ s.items.length = items.length := by
    intro m
    induction m with
    | zero => intro _; exact ⟨_, rfl, rfl, rfl⟩
    | succ m ih =>
      intro hm
      obtain ⟨s, e, h1, h2⟩ := ih (by omega)
      have hi : s.idx < s.items.length := by omega
      refine ⟨⟨(s.idx + 1) % 2 ^ 16, s.items.set s.idx (f m)⟩, ?_, ?_, ?_⟩
      · rw [List.range_succ, List.map_append, run_append, e]
        have : s.idx ≠ s.items.length := by omega
        simp [run, step, push, this, wr, hi, List.replicate_succ']
      · show (s.idx + 1) % 2 ^ 16 = (m + 1) % 2 ^ 16
        rw [h1]; omega
      · simpa using h2
  obtain ⟨s, e, h1, h2⟩ := key 65536 (Nat.le_refl _)
  have h0 : s.idx = 0 := by rw [h1]
  refine ⟨s, ?_⟩
  have h6 : run s [.isEmpty, .pop] = .ok (s, [⟨1, none⟩, ⟨1, none⟩]) := by simp [run, step, isEmpty, pop, h0]
  rw [run_append, e, Res.ok_bind]
  show (run s [.isEmpty, .pop] >>= _) = _
  rw [h6]
  rfl

/-- Peek shows the initial content, then a popped element, then (after a removal at the bottom) the top; on the full stack it reads
outside the array. -/
example : tapeRun ⟨[], [7, 8, 9]⟩ [.push 1, .peek, .push 2, .pop, .peek, .push 3, .dequeue, .peek, .pop] =
    .ok [⟨0, none⟩, ⟨0, some 8⟩, ⟨0, none⟩, ⟨0, some 2⟩, ⟨0, some 2⟩, ⟨0, none⟩, ⟨0, none⟩, ⟨0, some 3⟩, ⟨0, some 3⟩] ∧
    tapeRun ⟨[], [7]⟩ [.push 1, .peek] = .ub := by decide

end Gel.Stack
