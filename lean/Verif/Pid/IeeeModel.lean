import Verif.Pid.Model
import Verif.Float.Ieee

/-!
# PID with floating point types

`pid_control_type_t` and `pid_output_type_t` are both `float` or both `double` here: format `f`, evaluated in the type itself
(`FLT_EVAL_METHOD` 0). The gains are `float` and converted exactly. Infinities and NaN are included; zeros have no sign.
-/
namespace Gel.Pid.Fp
open Gel.Ieee

def zero : Val := .fin 0

/-- `a - b`. -/
def sub (f : Fmt) (a b : Val) : Val := add f a (neg b)

/-- `ABS`, pid.c:5. -/
def absF (x : Val) : Val := if less zero x then x else neg x

/-- `pid_init`, pid.c:13-15. -/
def init (f : Fmt) (n d : Nat) : Pid Val :=
  ⟨mul f zero, mul f zero, mul f zero, 0, 0, 0, List.replicate n zero, List.replicate d zero, zero, zero, zero, zero, zero,
    false, false, false, false, false, 0⟩

/-- `calc_error` and `pid_current_error`, pid.c:8-10 and 130-132. -/
def error (f : Fmt) (p : Pid Val) : Val := sub f p.sp p.input

/-- `pid_clear_integral_history`, pid.c:135-138. -/
def clear (n : Nat) (p : Pid Val) : Pid Val := { p with index := 0, hist := List.replicate n zero }

/-- pid.c:30-40: the sign and the automatic clearing. -/
def updateSign (n : Nat) (p : Pid Val) (err : Val) : Pid Val :=
  let s := if less zero err then 1 else if less err zero then -1 else p.sign
  if p.sign ≠ s then
    if p.auto then clear n { p with sign := s } else { p with sign := s }
  else p

/-- pid.c:43-53: the value to be stored in the history, if one is stored. -/
def entry (p : Pid Val) (err : Val) : Option Val :=
  if less zero err then
    if p.lowEn = false ∨ less (absF err) p.low then some err else some zero
  else if less err zero then
    if p.highEn = false ∨ less (absF err) p.high then some err else some zero
  else none

/-- `pid_add_input`, pid.c:25-65. -/
def addInput (f : Fmt) (n d : Nat) (p : Pid Val) (v : Val) : Res (Pid Val) := do
  let old := error f p
  let e := error f { p with input := v }
  let q := updateSign n { p with input := v } e
  let h ← store q.hist q.index (entry q e)
  addOld d { q with hist := h, index := (q.index + 1) % n } old

/-- `pid_compute_p`, pid.c:73-76. -/
def computeP (f : Fmt) (p : Pid Val) : Val := p.kp (error f p)

/-- The loop of pid.c:82-83. -/
def sumFrom (f : Fmt) (a : List Val) : Nat → Nat → Val → Res Val
  | 0, _, acc => .ok acc
  | k + 1, i, acc => do
    let x ← rd a i
    sumFrom f a k (i + 1) (add f acc x)

/-- `pid_compute_i`, pid.c:79-87. -/
def computeI (f : Fmt) (n : Nat) (p : Pid Val) : Res Val := do
  let s ← sumFrom f p.hist n 0 zero
  pure (p.ki s)

/-- `pid_compute_d`, pid.c:90-118. -/
def computeD (f : Fmt) (d : Nat) (p : Pid Val) : Res Val :=
  if p.dsize = 0 then .ok zero
  else do
    let x ← rd p.dhist (if p.dsize = d then p.dindex else 0)
    if p.dthr = true ∧ less p.dlow (absF (error f p)) then pure zero
    else pure (p.kd (sub f (error f p) x))

/-- `pid_compute`, pid.c:121-127. -/
def compute (f : Fmt) (n d : Nat) (p : Pid Val) : Res Val := do
  let i ← computeI f n p
  let k ← computeD f d p
  pure (add f (add f (computeP f p) i) k)

/-- The other functions, pid.c:18-22, 68-70 and 141-175; the gains by their values, the thresholds of the integral as `size_t`. -/
inductive Setting where
  | tune (kp ki kd : Val)
  | sp (x : Val)
  | clear
  | lowEn (b : Bool)
  | highEn (b : Bool)
  | dthr (b : Bool)
  | low (t : Nat)
  | high (t : Nat)
  | dlow (x : Val)
  | auto (b : Bool)

def set (f : Fmt) (n : Nat) (p : Pid Val) : Setting → Pid Val
  | .tune kp ki kd => { p with kp := mul f kp, ki := mul f ki, kd := mul f kd }
  | .sp x => { p with sp := x }
  | .clear => clear n p
  | .lowEn b => { p with lowEn := b }
  | .highEn b => { p with highEn := b }
  | .dthr b => { p with dthr := b }
  | .low t => { p with low := round f t }
  | .high t => { p with high := round f t }
  | .dlow x => { p with dlow := x }
  | .auto b => { p with auto := b }

inductive Op where
  | input (v : Val)
  | set (s : Setting)

def step (f : Fmt) (n d : Nat) (p : Pid Val) : Op → Res (Pid Val)
  | .input v => addInput f n d p v
  | .set s => .ok (set f n p s)

/-- A history of settings and inputs. -/
def run (f : Fmt) (n d : Nat) (p : Pid Val) : List Op → Res (Pid Val)
  | [] => .ok p
  | o :: os => do
    let p ← step f n d p o
    run f n d p os

end Gel.Pid.Fp
