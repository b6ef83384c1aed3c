import Verif.Pid.Model
import Mathlib.Algebra.BigOperators.Group.List.Basic

/-!
# PID: specification, over the errors, newest first
-/
namespace Gel.Pid.Spec
variable {α : Type} [AddCommGroup α] [LinearOrder α]

/-- The error of a setpoint and an input. -/
def err (x : α × α) : α := x.1 - x.2

/-- What an error adds to the integral: nothing if it is at or beyond the enabled threshold of its sign. -/
def contrib (lowEn highEn : Bool) (low high : α) (e : α) : α :=
  if (0 < e ∧ lowEn = true ∧ low ≤ e) ∨ (e < 0 ∧ highEn = true ∧ high ≤ -e) then 0 else e

/-- The sign of the newest error that is not zero; 0 if there is none. -/
def lastSign : List α → Int
  | [] => 0
  | e :: es => if 0 < e then 1 else if e < 0 then -1 else lastSign es

/-- The errors that count: with `auto` those from the last change of the sign on. -/
def window (auto : Bool) : List α → List α
  | [] => []
  | e :: es => if auto = true ∧ lastSign (e :: es) ≠ lastSign es then [e] else e :: window auto es

/-- What the code has in the place of an error `e` of the history: an error of zero does not replace the value that is `n`
inputs older. -/
def held (n : Nat) (c : α → α) : List α → List α
  | [] => []
  | e :: es => (if e = 0 then (held n c es).getD (n - 1) 0 else c e) :: held n c es

/-- The errors that `pid_add_input` stores for the derivative, given the pairs of setpoint and input, newest first: the
error of the previous input, with the setpoint of the present one. -/
def olds : List (α × α) → List α
  | [] => []
  | [_] => []
  | x :: y :: ys => (x.1 - y.2) :: olds (y :: ys)

end Gel.Pid.Spec
