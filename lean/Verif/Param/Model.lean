import Verif.C

/-!
# Parameter: model of gel/parameter/parameter.c and parameter.h

Platform: `GEL_PARAMETER_MAX_SIZE` 8, little-endian, two's complement, `int` and `unsigned int` 32 bits, conversions to a
narrower signed type take the low bits (as GCC defines it).

The variables live in a byte memory; every pointer other than NULL is taken to be valid and aligned. Handles live in a
list of their own, outside that memory. Floating point comparisons and arithmetic are parameters (`Fl`); a floating
point value is its bit pattern, as a number.
-/
namespace Gel.Param

/-- `parameter_type_t`, parameter.h:153-174. -/
inductive Ty where
  | u8 | i8 | u16 | i16 | u32 | i32 | u64 | i64 | flt | dbl
  deriving DecidableEq, Repr

namespace Ty

/-- `sizeof`. -/
def size : Ty → Nat
  | u8 | i8 => 1
  | u16 | i16 => 2
  | u32 | i32 | flt => 4
  | u64 | i64 | dbl => 8

def signed : Ty → Bool
  | i8 | i16 | i32 | i64 => true
  | _ => false

def isInt : Ty → Bool
  | flt | dbl => false
  | _ => true

/-- Conversion of a value to the type: its low bits. -/
def wrap (t : Ty) (x : Int) : Int := if t.signed then wrapS (8 * t.size) x else wrapU (8 * t.size) x

end Ty

abbrev Mem := Nat → BitVec 8

/-- The number stored in the `n` bytes from `a`. -/
def load (m : Mem) (a : Nat) : Nat → Nat
  | 0 => 0
  | n + 1 => (m a).toNat + 256 * load m (a + 1) n

/-- The memory after storing the low `n` bytes of `x` from `a`. -/
def store (m : Mem) (a n x : Nat) : Mem := fun b =>
  if a ≤ b ∧ b < a + n then BitVec.ofNat 8 (x / 256 ^ (b - a)) else m b

/-- `*(TYPE *)a`. -/
def rdv (m : Mem) (a : Nat) (t : Ty) : Int := t.wrap (load m a t.size)

/-- `*(TYPE *)a = x`. -/
def wrv (m : Mem) (a : Nat) (t : Ty) (x : Int) : Mem := store m a t.size (wrapU (8 * t.size) x).toNat

/-- `parameter_handle_t`, parameter.h:201-212. The union `parameter_type_union_t` (parameter.h:177-198) is its 8 bytes; a
NULL pointer is `none`; `runtime` is the address of the callback. -/
structure Handle where
  type : Ty
  pointer : Nat
  pmin : Option Nat
  pmax : Option Nat
  min : BitVec 64
  max : BitVec 64
  defaultv : BitVec 64
  step : BitVec 64
  level : BitVec 32
  data : Nat
  runtime : Option Nat
  arg : Nat
  deriving DecidableEq, Repr

/-- Reading the member of the union that belongs to the type. -/
def member (t : Ty) (u : BitVec 64) : Int := t.wrap u.toNat

/-- The floating point operations, on bit patterns: `a > b`, `a < b`, `v + s * mod`, and `max - min + 1` converted to
`size_t`. -/
structure Fl where
  gt : Ty → Int → Int → Bool
  lt : Ty → Int → Int → Bool
  step : Ty → Int → Int → Int → Int
  count : Ty → Int → Int → Res Int

/-- `a > b` of two values of the type. -/
def gt (F : Fl) (t : Ty) (a b : Int) : Bool := if t.isInt then decide (a > b) else F.gt t a b

/-- `a < b` of two values of the type. -/
def lt (F : Fl) (t : Ty) (a b : Int) : Bool := if t.isInt then decide (a < b) else F.lt t a b

/-- The `min` of the macros, parameter.c:19, 33, 47, 62. -/
def lo (m : Mem) (h : Handle) : Int :=
  match h.pmin with
  | some a => rdv m a h.type
  | none => member h.type h.min

/-- The `max` of the macros, parameter.c:20, 34, 48, 63. -/
def hi (m : Mem) (h : Handle) : Int :=
  match h.pmax with
  | some a => rdv m a h.type
  | none => member h.type h.max

/-- `SET_DEFAULT`, parameter.c:9-14. -/
def setDefault (m : Mem) (h : Handle) : Mem := wrv m h.pointer h.type (member h.type h.defaultv)

/-- `CHECK_RANGE_AGAINST`, parameter.c:17-27. -/
def checkRangeAgainst (F : Fl) (m : Mem) (h : Handle) (newv : Int) : Int :=
  if gt F h.type newv (hi m h) then 1 else if lt F h.type newv (lo m h) then -1 else 0

/-- `CHECK_RANGE`, parameter.c:30-41. -/
def checkRange (F : Fl) (m : Mem) (h : Handle) : Int :=
  if gt F h.type (rdv m h.pointer h.type) (hi m h) then 1
  else if lt F h.type (rdv m h.pointer h.type) (lo m h) then -1 else 0

/-- `TYPE newv = *var + p.step.name * (mod)`, parameter.c:49, with the usual arithmetic conversions: 8 and 16 bit types
and `int32_t` are computed in `int`, `uint32_t` and `uint64_t` in their own type with `mod` converted to it, `int64_t` in
its own type. -/
def newValue (F : Fl) (t : Ty) (v s mod : Int) : Res Int :=
  match t with
  | .u8 | .i8 | .u16 | .i16 | .i32 => do
    let p ← chkS 32 (s * mod)
    let q ← chkS 32 (v + p)
    pure (t.wrap q)
  | .u32 => pure (wrapU 32 (v + wrapU 32 (s * wrapU 32 mod)))
  | .u64 => pure (wrapU 64 (v + wrapU 64 (s * wrapU 64 mod)))
  | .i64 => do
    let p ← chkS 64 (s * mod)
    let q ← chkS 64 (v + p)
    pure (t.wrap q)
  | .flt | .dbl => pure (F.step t v s mod)

/-- `APPLY_OPERATOR`, parameter.c:44-57. -/
def applyOperator (F : Fl) (m : Mem) (h : Handle) (mod : Int) : Res Mem := do
  let v := rdv m h.pointer h.type
  let min := lo m h
  let max := hi m h
  let newv ← newValue F h.type v (member h.type h.step) mod
  let res := checkRangeAgainst F m h newv
  if res ≠ 0 ∧ mod > 0 then pure (wrv m h.pointer h.type min)
  else if res ≠ 0 ∧ mod < 0 then pure (wrv m h.pointer h.type max)
  else pure (wrv m h.pointer h.type newv)

/-- `parameter_operator`, parameter.c:298-347. -/
def operator (F : Fl) (m : Mem) (h : Option Handle) (mod : Int) : Res (Mem × Int) :=
  match h with
  | some h => do
    let m ← applyOperator F m h mod
    pure (m, 0)
  | none => pure (m, -1)

/-- The result type of `GET_RANGE`, parameter.c:60-65: `max - min + 1` in the type of the arithmetic, then converted to a
`size_t` of `sz` bits. -/
def getRange (F : Fl) (sz : Nat) (t : Ty) (min max : Int) : Res Int :=
  match t with
  | .u8 | .i8 | .u16 | .i16 | .i32 => do
    let p ← chkS 32 (max - min)
    let q ← chkS 32 (p + 1)
    pure (wrapU sz q)
  | .u32 => pure (wrapU sz (wrapU 32 (wrapU 32 (max - min) + 1)))
  | .u64 => pure (wrapU sz (wrapU 64 (wrapU 64 (max - min) + 1)))
  | .i64 => do
    let p ← chkS 64 (max - min)
    let q ← chkS 64 (p + 1)
    pure (wrapU sz q)
  | .flt | .dbl => F.count t min max

/-- `parameter_get_total_values`, parameter.c:500-549. -/
def getTotalValues (F : Fl) (sz : Nat) (m : Mem) (h : Option Handle) : Res Int :=
  match h with
  | some h => getRange F sz h.type (lo m h) (hi m h)
  | none => pure 0

/-- `parameter_to_long`, parameter.c:144-183, for a `long` of `lw` bits. -/
def toLong (lw : Nat) (m : Mem) (h : Option Handle) : Int :=
  match h with
  | some h =>
    match h.type with
    | .u8 => wrapS lw (rdv m h.pointer .u8)
    | .i8 => wrapS lw (rdv m h.pointer .u8)
    | .u16 => wrapS lw (rdv m h.pointer .u16)
    | .i16 => wrapS lw (rdv m h.pointer .i16)
    | .u32 => wrapS lw (rdv m h.pointer .u32)
    | .i32 => wrapS lw (rdv m h.pointer .i32)
    | .u64 => wrapS lw (rdv m h.pointer .u64)
    | .i64 => wrapS lw (rdv m h.pointer .i64)
    | .flt => 0
    | .dbl => 0
  | none => 0

/-- `parameter_to_index`, parameter.c:187-226, for a `size_t` of `sz` bits. -/
def toIndex (sz : Nat) (m : Mem) (h : Option Handle) : Int :=
  match h with
  | some h =>
    match h.type with
    | .u8 => wrapU sz (rdv m h.pointer .u8)
    | .i8 => wrapU sz (rdv m h.pointer .u8)
    | .u16 => wrapU sz (rdv m h.pointer .u16)
    | .i16 => wrapU sz (rdv m h.pointer .i16)
    | .u32 => wrapU sz (rdv m h.pointer .u32)
    | .i32 => wrapU sz (rdv m h.pointer .i32)
    | .u64 => wrapU sz (rdv m h.pointer .u64)
    | .i64 => wrapU sz (rdv m h.pointer .i64)
    | .flt => 0
    | .dbl => 0
  | none => 0

/-- `parameter_to_bool`, parameter.c:229-231. -/
def toBool (sz : Nat) (m : Mem) (h : Option Handle) : Bool := decide (toIndex sz m h > 0)

/-- `memcpy` of `n` bytes; overlapping regions are undefined (C11 7.24.2.1). -/
def copyBytes (m : Mem) (d s n : Nat) : Res Mem :=
  if d + n ≤ s ∨ s + n ≤ d ∨ n = 0 then .ok fun b => if d ≤ b ∧ b < d + n then m (s + (b - d)) else m b else .ub

/-- The `switch` that computes `len`, parameter.c:564-597. -/
def copyLen : Ty → Nat
  | .u8 | .i8 => 1
  | .u16 | .i16 => 2
  | .u32 | .i32 => 4
  | .u64 | .i64 => 8
  | .flt => 4
  | .dbl => 8

/-- `parameter_copy_value`, parameter.c:560-604. -/
def copyValue (m : Mem) (dst src : Option Handle) : Res (Mem × Int) :=
  match src, dst with
  | some s, some d =>
    if s.type = d.type then do
      let m ← copyBytes m d.pointer s.pointer (copyLen s.type)
      pure (m, 0)
    else pure (m, -1)
  | _, _ => pure (m, -1)

/-- `parameter_clone`, parameter.c:91-140: the memory and what `*dest` is set to, if it is. -/
def clone (m : Mem) (dest : Bool) (src : Option Handle) (pointer : Option Nat) : Mem × Option Handle :=
  match src, pointer with
  | some s, some p =>
    if dest then (wrv m p s.type (rdv m s.pointer s.type), some { s with pointer := p }) else (m, none)
  | _, _ => (m, none)

/-- `parameter_clone_with_buffer`, parameter.c:552-557. -/
def cloneWithBuffer (m : Mem) (src : Handle) (buffer : Nat) : Res (Mem × Handle) := do
  let clone := { src with pointer := buffer }
  let (m, _) ← copyValue m (some clone) (some src)
  pure (m, clone)

/-! ## Lists of handles -/

/-- The handles and the memory. -/
abbrev State := List Handle × Mem

/-- The `runtime` callbacks: what the function at an address does when called with `&ps[i]`. -/
abbrev Env := Nat → Nat → State → State

/-- `if (ps[i].runtime) ps[i].runtime(&ps[i], ps[i].arg)`, parameter.c:75-76 and 287-288. -/
def callRuntime (env : Env) (h : Handle) (i : Nat) (s : State) : State :=
  match h.runtime with
  | some f => env f i s
  | none => s

/-- The loop of `parameter_get_handle`, parameter.c:74-85, with `n` iterations left. -/
def getLoop (env : Env) (al : BitVec 32) : Nat → Nat → Nat → State → Res (State × Option Nat)
  | 0, _, _, s => .ok (s, none)
  | n + 1, i, num, s => do
    let h ← rd s.1 i
    let s := callRuntime env h i s
    let h ← rd s.1 i
    if h.level = 0 ∨ h.level &&& al > 0 then
      match num with
      | 0 => pure (s, some i)
      | num + 1 => getLoop env al n (i + 1) num s
    else getLoop env al n (i + 1) num s

/-- `parameter_get_handle`, parameter.c:70-88, for the whole list: the index of the returned handle, if not NULL. -/
def getHandle (env : Env) (s : State) (num : Nat) (al : BitVec 32) : Res (State × Option Nat) := do
  cassert (num < s.1.length)
  getLoop env al s.1.length 0 num s

/-- The loop of `parameter_get_count`, parameter.c:286-292, with `n` iterations left. -/
def countLoop (env : Env) (al : BitVec 32) : Nat → Nat → Nat → State → Res (State × Nat)
  | 0, _, count, s => .ok (s, count)
  | n + 1, i, count, s => do
    let h ← rd s.1 i
    let s := callRuntime env h i s
    let h ← rd s.1 i
    countLoop env al n (i + 1) (if h.level &&& al > 0 then count + 1 else count) s

/-- `parameter_get_count`, parameter.c:282-295. -/
def getCount (env : Env) (s : State) (al : BitVec 32) : Res (State × Nat) := countLoop env al s.1.length 0 0 s

/-- The loop that `parameter_reset_to_defaults` (parameter.c:352-399) and `parameter_check_ranges` (407-489) share, with
`n` iterations left: look handle `i` up, and do `body` with it if there is one. The body works on the memory and a
counter. -/
def eachLoop (env : Env) (body : Handle → Mem × Int → Res (Mem × Int)) : Nat → Nat → State → Int → Res (State × Int)
  | 0, _, s, c => .ok (s, c)
  | n + 1, i, s, c => do
    let (s, r) ← getHandle env s i 0xFFFFFFFF
    match r with
    | none => eachLoop env body n (i + 1) s c
    | some k => do
      let h ← rd s.1 k
      let (m, c) ← body h (s.2, c)
      eachLoop env body n (i + 1) (s.1, m) c

/-- The body of the loop of `parameter_reset_to_defaults`, parameter.c:355-398. -/
def resetBody (h : Handle) (s : Mem × Int) : Res (Mem × Int) := .ok (setDefault s.1 h, s.2)

/-- `parameter_reset_to_defaults`, parameter.c:350-400. -/
def resetToDefaults (env : Env) (s : State) : Res State := do
  let (s, _) ← eachLoop env resetBody s.1.length 0 s 0
  pure s

/-- The body of the loop of `parameter_check_ranges`, parameter.c:410-488. -/
def checkBody (F : Fl) (h : Handle) (s : Mem × Int) : Res (Mem × Int) :=
  if checkRange F s.1 h ≠ 0 then do
    let m := setDefault s.1 h
    let c ← chkS 32 (s.2 + 1)
    pure (m, c)
  else pure s

/-- `parameter_check_ranges`, parameter.c:403-492. -/
def checkRanges (env : Env) (F : Fl) (s : State) : Res (State × Int) := eachLoop env (checkBody F) s.1.length 0 s 0

/-! ## The initialisation macros -/

/-- `CAST16`, `CAST32` and `CAST64`, parameter.h:75, 86 and 100: note the type of the last one. -/
def cast16 (x : Int) : Int := wrapU 16 x
def cast32 (x : Int) : Int := wrapU 32 x
def cast64 (x : Int) : Int := wrapU 32 x

/-- `_PARAMETER_LIMIT_VALUE_OPTION`, parameter.h:110-121, for the integer types: the member the union is initialised
with, for an integer argument. -/
def limitValue (t : Ty) (x : Int) : Int :=
  match t with
  | .u8 => wrapU 8 (wrapU 8 x)
  | .i8 => wrapS 8 (wrapU 8 (wrapS 8 x))
  | .u16 => wrapU 16 (cast16 x)
  | .i16 => wrapS 16 (cast16 x)
  | .u32 => wrapU 32 (cast32 x)
  | .i32 => wrapS 32 (cast32 x)
  | .u64 => wrapU 64 (cast64 x)
  | .i64 => wrapS 64 (cast64 x)
  | .flt | .dbl => 0

end Gel.Param
