import Verif.C

/-!
# Pulse counter: model of gel/debounce/pulsecounter.c and pulsecounter.h

`unsigned int` and `int` have `w` bits, any number, and so many inputs there are (`PULSE_NUM`, pulsecounter.h:4). `gnu` selects the
semantics of left shifts of signed values (`shlS`).
-/
namespace Gel.Pulse

variable {w : Nat}

/-- `pulse_type_t`, pulsecounter.h:6-9. An object of the enumeration can also hold other values. -/
inductive Kind where
  | high | low | other
  deriving DecidableEq, Repr

/-- `pulse_filter_t`, pulsecounter.h:11-16. -/
structure Filter (w : Nat) where
  type : Kind
  oldInput : BitVec w
  filters : List (BitVec w)
  count : List (BitVec w)
  deriving DecidableEq

/-- `NTH(x, i)`, pulsecounter.c:3. -/
def nth (x : BitVec w) (i : Nat) : Res (BitVec w) := do
  let y ← shrU x i
  pure (y &&& 1)

/-- `SET_NTH(x, i, val)`, pulsecounter.c:4, for an unsigned `val`; `1 << i` is a shift of an `int`. -/
def setNth (gnu : Bool) (x : BitVec w) (i : Nat) (val : BitVec w) : Res (BitVec w) := do
  let a ← shlS gnu 1#w i
  pure ((x &&& ~~~a) ||| (val <<< i))

/-- `pulse_count`, pulsecounter.h:25-29. The conversion of the counter to `int` reduces modulo 2^w. -/
def count (f : Filter w) (i : Int) : Res Int :=
  if i < 0 ∨ w ≤ i then .ok (-1) else do
    let c ← rd f.count i.toNat
    pure c.toInt

/-- `pulse_clear`, pulsecounter.h:46-50. -/
def clear (f : Filter w) (i : Int) : Res (Filter w) :=
  if i < 0 ∨ w ≤ i then .ok f else do
    let c ← wr f.count i.toNat 0
    pure { f with count := c }

/-- The loop of `pulse_filter_init`, pulsecounter.c:11-12. -/
def initLoop (f : Filter w) (i : Nat) : Nat → Res (Filter w)
  | 0 => .ok f
  | n + 1 => do
    let f ← clear f i
    initLoop f (i + 1) n

/-- `pulse_filter_init`, pulsecounter.c:6-13. The member `filters` is not assigned. -/
def init (f : Filter w) (type : Kind) (init : BitVec w) : Res (Filter w) :=
  initLoop { f with oldInput := init, type := type } 0 w

/-- Whether the `switch` of pulsecounter.c:28-42 counts, for an input whose stored bit is `o` and whose new bit is
`b`. -/
def counts (type : Kind) (o b : BitVec w) : Bool :=
  match type with
  | .high => o == 1 && b == 0
  | .low => o == 0 && b == 1
  | .other => false

/-- The body of the loop of `pulse_filter`, pulsecounter.c:19-45: the filter and `change`. -/
def filterStep (gnu : Bool) (f : Filter w) (change : Int) (input debounce : BitVec w) (i : Nat) :
    Res (Filter w × Int) := do
  let b ← nth input i
  let o ← nth f.oldInput i
  if b = o then
    let fs ← wr f.filters i 0
    pure ({ f with filters := fs }, change)
  else
    let c ← rd f.filters i
    let fs ← wr f.filters i (if 0 < c then c - 1 else debounce)
    let c ← rd fs i
    if c = 0 then
      let n ← rd f.count i
      let cs ← wr f.count i (if counts f.type o b then n + 1 else n)
      let old ← setNth gnu f.oldInput i b
      pure ({ f with filters := fs, count := cs, oldInput := old }, if counts f.type o b then 1 else change)
    else
      pure ({ f with filters := fs }, change)

/-- The loop of `pulse_filter`, pulsecounter.c:18-46. -/
def filterLoop (gnu : Bool) (input debounce : BitVec w) (f : Filter w) (change : Int) (i : Nat) :
    Nat → Res (Filter w × Int)
  | 0 => .ok (f, change)
  | n + 1 => do
    let (f, change) ← filterStep gnu f change input debounce i
    filterLoop gnu input debounce f change (i + 1) n

/-- `pulse_filter`, pulsecounter.c:15-48. -/
def filter (gnu : Bool) (f : Filter w) (input debounce : BitVec w) : Res (Filter w × Int) :=
  filterLoop gnu input debounce f 0 0 w

/-- `pulse_level`, pulsecounter.c:51-55. -/
def level (f : Filter w) (i : Int) : Res Int :=
  if i < 0 ∨ w ≤ i then .ok (-1) else do
    let b ← nth f.oldInput i.toNat
    pure b.toNat

end Gel.Pulse
