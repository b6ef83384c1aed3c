import Verif.Pid.Model
import Mathlib.Algebra.Order.Group.Int

/-!
# PID with integer types: model of gel/pid/pid.c as configured in gel_conf_template.h:30-31

`pid_control_type_t` and `pid_output_type_t` are signed integers of `w` bits (`int`: 32). Every operation whose result is
not representable is undefined. A product with a float gain, converted to the integer type, is an arbitrary function of
the integer factor; the conversion is undefined if the result is not representable.
-/
namespace Gel.Pid

/-- `pid_current_error`, pid.c:130-132 and 8-10. -/
def errorW (w : Nat) (p : Pid Int) : Res Int := chkS w (p.sp - p.input)

/-- `ABS`, pid.c:5. -/
def absW (w : Nat) (x : Int) : Res Int := if 0 < x then .ok x else chkS w (-x)

/-- The condition `!enabled || ABS(error) < threshold` of pid.c:44 and 49. -/
def below (w : Nat) (en : Bool) (err thr : Int) : Res Bool :=
  if en = false then .ok true
  else do
    let a ← absW w err
    pure (decide (a < thr))

/-- pid.c:43-53. -/
def entryW (w : Nat) (p : Pid Int) (err : Int) : Res (Option Int) :=
  if 0 < err then do
    let b ← below w p.lowEn err p.low
    pure (some (if b then err else 0))
  else if err < 0 then do
    let b ← below w p.highEn err p.high
    pure (some (if b then err else 0))
  else .ok none

/-- `pid_add_input`, pid.c:25-65. -/
def addInputW (w n d : Nat) (p : Pid Int) (v : Int) : Res (Pid Int) := do
  let old ← errorW w p
  let e ← errorW w { p with input := v }
  let q := updateSign n { p with input := v } e
  let o ← entryW w q e
  let h ← store q.hist q.index o
  addOld d { q with hist := h, index := (q.index + 1) % n } old

/-- `pid_compute_p`, pid.c:73-76. -/
def computePW (w : Nat) (p : Pid Int) : Res Int := do
  let e ← errorW w p
  chkS w (p.kp e)

/-- The loop of pid.c:82-83. -/
def sumFromW (w : Nat) (a : List Int) : Nat → Nat → Int → Res Int
  | 0, _, acc => .ok acc
  | k + 1, i, acc => do
    let x ← rd a i
    let s ← chkS w (acc + x)
    sumFromW w a k (i + 1) s

/-- `pid_compute_i`, pid.c:79-87. -/
def computeIW (w n : Nat) (p : Pid Int) : Res Int := do
  let s ← sumFromW w p.hist n 0 0
  chkS w (p.ki s)

/-- `pid_compute_d`, pid.c:90-118. -/
def computeDW (w d : Nat) (p : Pid Int) : Res Int := do
  let e ← errorW w p
  if p.dsize = 0 then pure 0
  else do
    let x ← rd p.dhist (if p.dsize = d then p.dindex else 0)
    let der ← chkS w (e - x)
    let b ← below w p.dthr e (p.dlow + 1)
    if b then chkS w (p.kd der) else pure 0

/-- `pid_compute`, pid.c:121-127. -/
def computeW (w n d : Nat) (p : Pid Int) : Res Int := do
  let t ← computePW w p
  let i ← computeIW w n p
  let k ← computeDW w d p
  let s ← chkS w (t + i)
  chkS w (s + k)

def stepW (w n d : Nat) (p : Pid Int) : Op Int → Res (Pid Int)
  | .input v => addInputW w n d p v
  | .set s => .ok (set n p s)

/-- A history of settings and inputs. -/
def runW (w n d : Nat) (p : Pid Int) : List (Op Int) → Res (Pid Int)
  | [] => .ok p
  | o :: os => do
    let p ← stepW w n d p o
    runW w n d p os

end Gel.Pid
