import Verif.C

/-!
# Debounce: model of gel/debounce/debounce.c and debounce.h

`unsigned int` and `int` have `w` bits, any number, and so many inputs there are (`NUM_INPUTS`, debounce.h:6). `gnu` selects the semantics of
left shifts of signed values (`shlS`).
-/
namespace Gel.Debounce

variable {w : Nat}

/-- `debounce_filter_t`, debounce.h:9-13. -/
structure Filter (w : Nat) where
  oldInput : BitVec w
  buffered : BitVec w
  count : List (BitVec w)
  deriving DecidableEq

/-- `NTH(x, i)`, debounce.h:7. -/
def nth (x : BitVec w) (i : Nat) : Res (BitVec w) := do
  let y ← shrU x i
  pure (y &&& 1)

/-- `BOOL(x)`, debounce.c:3, for an unsigned argument. -/
def bool (x : BitVec w) : BitVec w := if 0 < x then 1 else 0

/-- `SET_NTH(x, i, val)`, debounce.c:4. Both shifts are shifts of an `int`. -/
def setNth (gnu : Bool) (x : BitVec w) (i : Nat) (val : BitVec w) : Res (BitVec w) := do
  let a ← shlS gnu 1#w i
  let b ← shlS gnu (bool val) i
  pure ((x &&& ~~~a) ||| b)

/-- The loop of `debounce_filter_init`, debounce.c:10-12. -/
def clearLoop (count : List (BitVec w)) (i : Nat) : Nat → Res (List (BitVec w))
  | 0 => .ok count
  | n + 1 => do
    let count ← wr count i 0
    clearLoop count (i + 1) n

/-- `debounce_filter_init`, debounce.c:6-14. -/
def init (f : Filter w) : Res (Filter w) := do
  let count ← clearLoop f.count 0 w
  pure { f with buffered := 0, count := count, oldInput := 0 }

/-- `debounce_filter_set`, debounce.c:16-19. -/
def set (f : Filter w) (v : BitVec w) : Filter w := { f with oldInput := v, buffered := v }

/-- `debounce_filter_single`, debounce.c:31-50: the filter and the returned change. The `int` argument `debounce` is
given by its representation (it is only ever converted to `unsigned int`, line 40). -/
def filterSingle (gnu : Bool) (f : Filter w) (input : BitVec w) (i : Nat) (debounce : BitVec w) :
    Res (Filter w × BitVec w) := do
  let o ← nth f.oldInput i
  if bool input = o then
    let count ← wr f.count i 0
    pure ({ f with count := count }, 0)
  else
    let c ← rd f.count i
    let count ← wr f.count i (if 0 < c then c - 1 else debounce)
    let c ← rd count i
    if c = 0 then
      let buffered ← setNth gnu f.buffered i input
      let oldInput ← setNth gnu f.oldInput i input
      let change ← setNth gnu 0 i 1
      pure ({ oldInput := oldInput, buffered := buffered, count := count }, change)
    else
      pure ({ f with count := count }, 0)

/-- The loop of `debounce_filter`, debounce.c:25-26. -/
def filterLoop (gnu : Bool) (input debounce : BitVec w) (f : Filter w) (change : BitVec w) (i : Nat) :
    Nat → Res (Filter w × BitVec w)
  | 0 => .ok (f, change)
  | n + 1 => do
    let b ← nth input i
    let (f, c) ← filterSingle gnu f b i debounce
    filterLoop gnu input debounce f (change ||| c) (i + 1) n

/-- `debounce_filter`, debounce.c:21-29. -/
def filter (gnu : Bool) (f : Filter w) (input : BitVec w) (debounce : BitVec w) : Res (Filter w × BitVec w) :=
  filterLoop gnu input debounce f 0 0 w

/-- `debounce_read`, debounce.h:22-26. `i >= NUM_INPUTS` compares as `size_t`. -/
def read (f : Filter w) (i : Nat) : Res Int :=
  if w ≤ i then .ok (-1) else do
    let b ← nth f.buffered i
    pure b.toNat

/-- `debounce_value`, debounce.h:28-30. -/
def value (f : Filter w) : BitVec w := f.buffered

end Gel.Debounce
