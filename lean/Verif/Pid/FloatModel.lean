import Verif.Pid.IntModel
import Verif.Float.Round

/-!
# PID with integer types: the products with the gains, gel/pid/pid.c:75, 84 and 116

`float` gains have `p = 24` bits of precision; `p` is a parameter, as a compiler may evaluate with more
(`FLT_EVAL_METHOD`). The exponent is unbounded in the model. This makes no difference to integers of up to 64 bits: a
product beyond the range of `float` is undefined when converted, as in the model it does not fit in the integer type, and a
product that underflows is converted to 0 in both. The gains are finite (not infinite, no NaN).
-/
namespace Gel.Pid
open Gel.Round

/-- `(pid_output_type_t)(pid->Kp * error)`: the integer is converted to floating point, multiplied, and the product is
converted back. -/
def gain (p : Nat) (k : ℚ) (x : Int) : Int := trunc (rnd p (k * rnd p x))

/-- A call: `pid_ctrl_tune` with the values of the gains, or another one. -/
inductive FOp
  | tune (kp ki kd : ℚ)
  | other (o : Op Int)

def FOp.toOp (p : Nat) : FOp → Op Int
  | .tune kp ki kd => .set (.tune (gain p kp) (gain p ki) (gain p kd))
  | .other o => o

end Gel.Pid
