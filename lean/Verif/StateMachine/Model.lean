import Verif.C

/-!
# State machine: model of gel/state_machine/state_machine.h

`DEFINE_STATE_MACHINE` for a model type `μ` and an event type `ε`. `int` and `unsigned int` have 32 bits.
-/
namespace Gel.StateMachine

/-- An event manager, state_machine.h:10: what it does to the model and what it returns. -/
abbrev Manager (μ ε : Type) := μ → ε → μ × Int

/-- `name_sm_send_event`, state_machine.h:16-24, for the table `managers`: the model, the state and the returned value. -/
def sendEvent (managers : List (Manager μ ε)) (state : Nat) (model : μ) (event : ε) : Res (μ × Nat × Int) := do
  let manager ← rd managers state
  let r := manager model event
  if r.2 ≥ 0 then pure (r.1, (wrapU 32 r.2).toNat, 1) else pure (r.1, state, 0)

end Gel.StateMachine
