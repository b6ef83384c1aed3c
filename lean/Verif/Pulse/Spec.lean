import Verif.Debounce.Spec

/-!
# Pulse counter: specification

Pulses counted on the level of one input over time.
-/
namespace Gel.Pulse.Spec

/-- `lev k` is the level before call `k`; `clr k` says whether the counter is cleared just before call `k`; `pol` is the
level of a pulse. The number of pulses that have ended before call `k` since the last time the counter was cleared. -/
def pulses (pol : Bool) (lev : Nat → Bool) (clr : Nat → Prop) [DecidablePred clr] : Nat → Nat
  | 0 => 0
  | k + 1 => (if clr k then 0 else pulses pol lev clr k) + if lev k = pol ∧ lev (k + 1) ≠ pol then 1 else 0

end Gel.Pulse.Spec
