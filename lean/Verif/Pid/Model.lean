import Verif.C
import Mathlib.Algebra.Group.Defs
import Mathlib.Order.Defs.LinearOrder

/-!
# PID: model of gel/pid/pid.c

`pid_control_type_t` and `pid_output_type_t` are configured by the user; they are one type `α` here, with exact addition and
subtraction and an order (so no overflow and no rounding). The products with the float gains are arbitrary functions.
-/
namespace Gel.Pid

/-- `pid_ctrl_t`, pid.h:14-31. `sign` is 0 after `pid_init`, then -1 or 1 (pid.h:8-11). -/
structure Pid (α : Type) where
  kp : α → α
  ki : α → α
  kd : α → α
  index : Nat
  dindex : Nat
  dsize : Nat
  hist : List α
  dhist : List α
  input : α
  sp : α
  low : α
  high : α
  dlow : α
  first : Bool
  auto : Bool
  dthr : Bool
  highEn : Bool
  lowEn : Bool
  sign : Int

variable {α : Type} [AddCommGroup α] [LinearOrder α]

/-- pid.c:5. -/
def abs (x : α) : α := if 0 < x then x else -x

/-- `pid_init`, pid.c:13-15: `memset` with zeros; a gain of zero gives zero. `n` is `GEL_PID_INTEGRAL_HISTORY_SIZE`, `d` is
`GEL_PID_DERIVATIVE_DELTA`. -/
def init (n d : Nat) : Pid α :=
  ⟨fun _ => 0, fun _ => 0, fun _ => 0, 0, 0, 0, List.replicate n 0, List.replicate d 0, 0, 0, 0, 0, 0,
    false, false, false, false, false, 0⟩

/-- `pid_current_error` and `calc_error`, pid.c:8-10 and 130-132. -/
def error (p : Pid α) : α := p.sp - p.input

/-- `pid_ctrl_tune`, pid.c:18-22. -/
def tune (p : Pid α) (kp ki kd : α → α) : Pid α := { p with kp := kp, ki := ki, kd := kd }

/-- `pid_set_sp`, pid.c:68-70. -/
def setSp (p : Pid α) (sp : α) : Pid α := { p with sp := sp }

/-- `pid_clear_integral_history`, pid.c:135-138. -/
def clear (n : Nat) (p : Pid α) : Pid α := { p with index := 0, hist := List.replicate n 0 }

/-- pid.c:30-40: the sign and the automatic clearing. -/
def updateSign (n : Nat) (p : Pid α) (err : α) : Pid α :=
  let s := if 0 < err then 1 else if err < 0 then -1 else p.sign
  if p.sign ≠ s then
    if p.auto then clear n { p with sign := s } else { p with sign := s }
  else p

/-- pid.c:43-53: the value to be stored in the history, if one is stored. -/
def entry (p : Pid α) (err : α) : Option α :=
  if 0 < err then
    if p.lowEn = false ∨ abs err < p.low then some err else some 0
  else if err < 0 then
    if p.highEn = false ∨ abs err < p.high then some err else some 0
  else none

/-- Storing it. -/
def store (a : List α) (i : Nat) : Option α → Res (List α)
  | none => .ok a
  | some x => wr a i x

/-- pid.c:57-64: the derivative history. -/
def addOld (d : Nat) (p : Pid α) (old : α) : Res (Pid α) :=
  if p.first then do
    let h ← wr p.dhist p.dindex old
    pure { p with dhist := h, dindex := (p.dindex + 1) % d, dsize := if p.dsize < d then p.dsize + 1 else p.dsize,
                  first := true }
  else pure { p with first := true }

/-- `pid_add_input`, pid.c:25-65. -/
def addInput (n d : Nat) (p : Pid α) (v : α) : Res (Pid α) := do
  let old := error p
  let q := updateSign n { p with input := v } (error { p with input := v })
  let h ← store q.hist q.index (entry q (error q))
  addOld d { q with hist := h, index := (q.index + 1) % n } old

/-- `pid_compute_p`, pid.c:73-76. -/
def computeP (p : Pid α) : α := p.kp (error p)

/-- The loop of pid.c:82-83: `k` elements from `i` on. -/
def sumFrom (a : List α) : Nat → Nat → α → Res α
  | 0, _, acc => .ok acc
  | k + 1, i, acc => do
    let x ← rd a i
    sumFrom a k (i + 1) (acc + x)

/-- `pid_compute_i`, pid.c:79-87. -/
def computeI (n : Nat) (p : Pid α) : Res α := do
  let s ← sumFrom p.hist n 0 0
  pure (p.ki s)

/-- `pid_compute_d`, pid.c:90-118. -/
def computeD (d : Nat) (p : Pid α) : Res α :=
  if p.dsize = 0 then .ok 0
  else do
    let x ← rd p.dhist (if p.dsize = d then p.dindex else 0)
    if p.dthr = true ∧ p.dlow < abs (error p) then pure 0
    else pure (p.kd (error p - x))

/-- `pid_compute`, pid.c:121-127. -/
def compute (n d : Nat) (p : Pid α) : Res α := do
  let i ← computeI n p
  let k ← computeD d p
  pure (computeP p + i + k)

/-- The other functions, pid.c:141-175. The thresholds of the integral are given as `size_t`, converted to `α`. -/
inductive Setting (α : Type) where
  | tune (kp ki kd : α → α)
  | sp (x : α)
  | clear
  | lowEn (b : Bool)
  | highEn (b : Bool)
  | dthr (b : Bool)
  | low (x : α)
  | high (x : α)
  | dlow (x : α)
  | auto (b : Bool)

def set (n : Nat) (p : Pid α) : Setting α → Pid α
  | .tune kp ki kd => tune p kp ki kd
  | .sp x => setSp p x
  | .clear => clear n p
  | .lowEn b => { p with lowEn := b }
  | .highEn b => { p with highEn := b }
  | .dthr b => { p with dthr := b }
  | .low x => { p with low := x }
  | .high x => { p with high := x }
  | .dlow x => { p with dlow := x }
  | .auto b => { p with auto := b }

/-- A history of settings and inputs. -/
inductive Op (α : Type) where
  | input (v : α)
  | set (s : Setting α)

def step (n d : Nat) (p : Pid α) : Op α → Res (Pid α)
  | .input v => addInput n d p v
  | .set s => .ok (set n p s)

def run (n d : Nat) (p : Pid α) : List (Op α) → Res (Pid α)
  | [] => .ok p
  | o :: os => do
    let p ← step n d p o
    run n d p os

/-- The setpoint set to the first component, then the second added as input. -/
def feed (n d : Nat) (p : Pid α) : List (α × α) → Res (Pid α)
  | [] => .ok p
  | x :: xs => do
    let p ← addInput n d (setSp p x.1) x.2
    feed n d p xs

end Gel.Pid
