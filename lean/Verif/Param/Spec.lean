import Verif.C

/-!
# Parameter: specification

Written on numbers, without the model.
-/
namespace Gel.Param.Spec

/-- What stepping a parameter of value `v` by `s * mod` within `lo..hi` is to give: the sum if it is within the limits,
otherwise the opposite limit. -/
def stepped (lo hi v s mod : Int) : Int :=
  if lo ≤ v + s * mod ∧ v + s * mod ≤ hi then v + s * mod
  else if mod > 0 then lo
  else if mod < 0 then hi
  else v

/-- The range of an integer type of `w` bits. -/
def InRange (signed : Bool) (w : Nat) (x : Int) : Prop :=
  if signed then -(2 : Int) ^ (w - 1) ≤ x ∧ x < 2 ^ (w - 1) else 0 ≤ x ∧ x < 2 ^ w

instance (signed : Bool) (w : Nat) (x : Int) : Decidable (InRange signed w x) := by
  unfold InRange; split <;> infer_instance

/-- The regions of `n` bytes at `a` and of `k` bytes at `b` have no byte in common. -/
def Apart (a n b k : Nat) : Prop := a + n ≤ b ∨ b + k ≤ a

end Gel.Param.Spec
