import Verif.StateMachine.Model

/-!
# State machine: property C67
-/
namespace Gel.StateMachine

/-- The managers return an `int`, and if it is not negative, it is a state of the table. -/
def Closed (managers : List (Manager μ ε)) : Prop :=
  managers.length < 2 ^ 31 ∧ ∀ f ∈ managers, ∀ m e, (f m e).2 < managers.length

/-- One event. -/
theorem C67_step (managers : List (Manager μ ε)) (state : Nat) (model : μ) (event : ε) (f : Manager μ ε)
    (hf : managers[state]? = some f) (hint : (f model event).2 < 2 ^ 31) :
    ((f model event).2 < 0 → sendEvent managers state model event = .ok ((f model event).1, state, 0)) ∧
    (∀ s : Nat, (f model event).2 = s → sendEvent managers state model event = .ok ((f model event).1, s, 1)) := by
  have hr : rd managers state = .ok f := by rw [rd, hf]
  rw [sendEvent, hr, Res.ok_bind]
  constructor
  · intro h
    simp only
    rw [if_neg (by omega)]; rfl
  · intro s h
    simp only
    rw [if_pos (by omega), h, wrapU, Int.emod_eq_of_lt (by omega) (by omega)]; rfl

/-- Events in order: the model, the state and the answers. -/
def run (managers : List (Manager μ ε)) : Nat → μ → List ε → Res (μ × Nat × List Int)
  | state, model, [] => .ok (model, state, [])
  | state, model, e :: es => do
    let (model, state, r) ← sendEvent managers state model e
    let (model, state, rs) ← run managers state model es
    pure (model, state, r :: rs)

/-- The specification: the automaton with the transition function `next`, where `none` stands for "stay", and the changes
of the model. -/
def ideal (next : Nat → μ → ε → Option Nat) (eff : Nat → μ → ε → μ) : Nat → μ → List ε → μ × Nat × List Int
  | state, model, [] => (model, state, [])
  | state, model, e :: es =>
    let state' := (next state model e).getD state
    let r := ideal next eff state' (eff state model e) es
    (r.1, r.2.1, (if (next state model e).isSome then 1 else 0) :: r.2.2)

/-- The automaton of a table. -/
def tableNext (managers : List (Manager μ ε)) (state : Nat) (m : μ) (e : ε) : Option Nat :=
  match managers[state]? with
  | none => none
  | some f => if (f m e).2 < 0 then none else some (f m e).2.toNat

def tableEff (managers : List (Manager μ ε)) (state : Nat) (m : μ) (e : ε) : μ :=
  match managers[state]? with
  | none => m
  | some f => (f m e).1

/-- **C67.** With a closed table, from a state of the table, any history of events is that of the automaton: there is no
undefined behaviour and the state stays within the table. -/
theorem C67_run (managers : List (Manager μ ε)) (hc : Closed managers) (es : List ε) :
    ∀ (state : Nat) (model : μ), state < managers.length →
      run managers state model es = .ok (ideal (tableNext managers) (tableEff managers) state model es) ∧
      (ideal (tableNext managers) (tableEff managers) state model es).2.1 < managers.length := by
  induction es with
  | nil => intro state model h; exact ⟨rfl, h⟩
  | cons e es ih =>
    intro state model h
    have hf : managers[state]? = some managers[state] := List.getElem?_eq_getElem h
    generalize managers[state] = f at hf
    have hlt := hc.2 f (List.mem_of_getElem? hf) model e
    have hst := C67_step managers state model e f hf (by have := hc.1; omega)
    by_cases hneg : (f model e).2 < 0
    · have hn : tableNext managers state model e = none := by rw [tableNext, hf]; simp [hneg]
      have he : tableEff managers state model e = (f model e).1 := by rw [tableEff, hf]
      obtain ⟨h1, h2⟩ := ih state (f model e).1 h
      rw [run, hst.1 hneg, Res.ok_bind]
      simp only [ideal, hn, he, Option.getD_none, Option.isSome_none, h1, Res.ok_bind, Res.pure_eq]
      exact ⟨rfl, h2⟩
    · obtain ⟨s, hs⟩ := Int.eq_ofNat_of_zero_le (show 0 ≤ (f model e).2 by omega)
      have hn : tableNext managers state model e = some s := by rw [tableNext, hf]; simp [hneg, hs]
      have he : tableEff managers state model e = (f model e).1 := by rw [tableEff, hf]
      obtain ⟨h1, h2⟩ := ih s (f model e).1 (by omega)
      rw [run, hst.2 s hs, Res.ok_bind]
      simp only [ideal, hn, he, Option.getD_some, Option.isSome_some, h1, Res.ok_bind, Res.pure_eq, if_true]
      exact ⟨trivial, h2⟩

/-- **C67.** Without a closed table: a manager that returns a number that is not a state makes the next event undefined. -/
theorem C67_outside (managers : List (Manager μ ε)) (state s : Nat) (model : μ) (e e' : ε) (f : Manager μ ε)
    (hf : managers[state]? = some f) (hs : (f model e).2 = s) (hint : s < 2 ^ 31) (hout : managers.length ≤ s) :
    run managers state model [e, e'] = .ub := by
  have hst := (C67_step managers state model e f hf (by omega)).2 s hs
  have hr : rd managers s = .ub := by rw [rd, List.getElem?_eq_none hout]
  rw [run, hst, Res.ok_bind]
  simp only [run, sendEvent, hr, Res.ub_bind]

/-- A lamp: events 0 (button) and 1 (anything else); the model counts. -/
def lamp : List (Manager Nat Nat) := [fun m e => (m + 1, if e = 0 then 1 else -1), fun m e => (m + 10, if e = 0 then 0 else -1)]

example : run lamp 0 0 [0, 1, 1, 0, 0] = .ok (32, 1, [1, 0, 0, 1, 1]) ∧ run [fun (m : Nat) (_ : Nat) => (m, 3)] 0 0 [0, 0] = .ub := by
  decide

end Gel.StateMachine
