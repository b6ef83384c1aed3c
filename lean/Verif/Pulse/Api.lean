import Verif.Pulse.Model

/-!
# Pulse counter: histories of calls
-/
namespace Gel.Pulse

variable {w : Nat}

/-- `pulse_clear` of several counters, one after the other. -/
def clears (f : Filter w) : List Int → Res (Filter w)
  | [] => .ok f
  | i :: l => do
    let f ← clear f i
    clears f l

/-- The filter after `k` calls of `pulse_filter`; before call `k` the counters in `cl k` are cleared. -/
def run (gnu : Bool) (f : Filter w) (ins : Nat → BitVec w) (cl : Nat → List Int) (d : BitVec w) : Nat → Res (Filter w)
  | 0 => .ok f
  | k + 1 => do
    let g ← run gnu f ins cl d k
    let g ← clears g (cl k)
    let (g, _) ← filter gnu g (ins k) d
    pure g

/-- What call `k` returns. -/
def ret (gnu : Bool) (f : Filter w) (ins : Nat → BitVec w) (cl : Nat → List Int) (d : BitVec w) (k : Nat) : Res Int := do
  let g ← run gnu f ins cl d k
  let g ← clears g (cl k)
  let (_, r) ← filter gnu g (ins k) d
  pure r

end Gel.Pulse
