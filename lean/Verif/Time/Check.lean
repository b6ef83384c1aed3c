import Verif.C

/-!
# Time checks: model of gel/timer/timecheck.h

Timestamps are `unsigned long` by default (timecheck.h:9-13); `w` is the width of `long`. The `typecheck` macro
(timecheck.h:15-25) is 1 and has no effect.
-/
namespace Gel.Time

/-- `time_after(a, b)`, timecheck.h:27: `(long)(b - a) < 0`. -/
def timeAfter (a b : BitVec w) : Bool := decide ((b - a).toInt < 0)

/-- `time_after_or_equal(a, b)`, timecheck.h:28. -/
def timeAfterOrEqual (a b : BitVec w) : Bool := decide ((b - a).toInt ≤ 0)

/-- `time_before(a, b)`, timecheck.h:29. -/
def timeBefore (a b : BitVec w) : Bool := timeAfter b a

/-- `time_interval`, timecheck.h:34-39. -/
def timeInterval (a b : BitVec w) : BitVec w := if timeAfter a b then -(b - a) else b - a

/-- `is_loosely_expired`, timecheck.h:42-45, and `is_expired`, timecheck.h:31. -/
def isLooselyExpired (start current delay : BitVec w) : Bool := timeAfterOrEqual current (start + delay)

/-- `is_strictly_expired`, timecheck.h:48-51. -/
def isStrictlyExpired (start current delay : BitVec w) : Bool := timeAfter current (start + delay)

/-! ## Custom timestamp types

With `GEL_CUSTOM_TIMESTAMP_TYPE` (timecheck.h:9-13) the timestamp type is another unsigned type. Operands narrower than
`int` are promoted to it, so that their sums and differences are signed and do not wrap; others are computed modulo a
power of two. -/

/-- The widths of `timestamp_t`, `int` and `long`. -/
structure Types where
  stamp : Nat
  int : Nat
  long : Nat

/-- An arithmetic result on operands of type `timestamp_t`, or on such results, after the usual conversions. -/
def Types.arith (T : Types) (x : Int) : Res Int :=
  if T.stamp < T.int then chkS T.int x else .ok (wrapU T.stamp x)

/-- `(long)x`; the conversion of a value that does not fit reduces modulo 2^long. -/
def Types.toLong (T : Types) (x : Int) : Int := wrapS T.long x

/-- `is_loosely_expired`, timecheck.h:42-45, for the types `T`; the arguments are values of type `timestamp_t`. -/
def Types.isLooselyExpired (T : Types) (start current delay : BitVec T.stamp) : Res Bool := do
  let b ← T.arith (start.toNat + delay.toNat)
  let d ← T.arith (b - current.toNat)
  pure (decide (T.toLong d ≤ 0))

/-- `is_strictly_expired`, timecheck.h:48-51, for the types `T`. -/
def Types.isStrictlyExpired (T : Types) (start current delay : BitVec T.stamp) : Res Bool := do
  let b ← T.arith (start.toNat + delay.toNat)
  let d ← T.arith (b - current.toNat)
  pure (decide (T.toLong d < 0))

/-- `time_after(a, b)`, timecheck.h:27, for the types `T` and arguments of type `timestamp_t`. -/
def Types.timeAfter (T : Types) (a b : BitVec T.stamp) : Res Bool := do
  let d ← T.arith (b.toNat - a.toNat)
  pure (decide (T.toLong d < 0))

end Gel.Time
