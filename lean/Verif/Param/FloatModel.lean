import Verif.Param.Model
import Verif.Float.Ieee

/-!
# Parameter: the types `float` and `double`

The floating point operations of the macros for IEEE 754 binary32 and binary64, evaluated in the type of the parameter
(`FLT_EVAL_METHOD` 0, no contraction to fused operations).
-/
namespace Gel.Param
open Gel.Ieee

/-- The format of a type. -/
def fmt : Ty → Fmt
  | .dbl => binary64
  | _ => binary32

/-- The value of a bit pattern of the type. -/
def val (t : Ty) (x : Int) : Val := decode (fmt t) x.toNat

/-- `*var + p.step.name * mod`, parameter.c:49; `mod` is converted to the type. -/
def stepVal (t : Ty) (v s : Val) (mod : Int) : Val := add (fmt t) v (mul (fmt t) s (round (fmt t) mod))

/-- `max - min + 1`, parameter.c:64. -/
def countVal (t : Ty) (min max : Val) : Val := add (fmt t) (add (fmt t) max (neg min)) (.fin 1)

/-- Conversion to `size_t` of `sz` bits; undefined unless the integral part is a value of the type (C11 6.3.1.4). -/
def toSize (sz : Nat) : Val → Res Int
  | .fin x => if -1 < x ∧ x < 2 ^ sz then .ok (Round.trunc x) else .ub
  | _ => .ub

def ieee (sz : Nat) : Fl where
  gt t a b := less (val t b) (val t a)
  lt t a b := less (val t a) (val t b)
  step t v s mod := (encode (fmt t) (stepVal t (val t v) (val t s) mod) : Nat)
  count t min max := toSize sz (countVal t (val t min) (val t max))

end Gel.Param
