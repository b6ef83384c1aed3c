/-!
# Timer: specification
-/
namespace Gel.Timer.Spec

/-- Polled at the times `τ 0`, `τ 1`, ...: the time from which the current period of `p` counts before poll `k`. It
starts at `t0`; every poll at or after its end starts a new period. -/
def since (p t0 : Nat) (τ : Nat → Nat) : Nat → Nat
  | 0 => t0
  | k + 1 => if since p t0 τ k + p ≤ τ k then τ k else since p t0 τ k

end Gel.Timer.Spec
