import Verif.C

/-!
# Wear leveling: model of gel/wearleveling/wearleveling.c

The three callbacks are a parameter (`Dev`), functions of an abstract device state. Reading does not change that state
(simplification). `int` is unbounded in the device's error codes; `size_t` has 64 bits.
-/
namespace Gel.Wear

abbrev Byte := BitVec 8

/-- The callbacks, wearleveling.h:12-14: the returned code and what is stored in the buffer, in `*marker`, or on the
device. -/
structure Dev (D : Type) where
  readBlock : D → Nat → Nat → Int × List Byte
  writeBlock : D → Nat → Byte → List Byte → Int × D
  readMarker : D → Nat → Int × Byte

/-- `wear_leveled_memory_t` without the callbacks, wearleveling.h:17-25. -/
structure Wlm where
  n : Nat
  last : Nat
  marker : Byte
  deriving DecidableEq, Repr

/-- The loop of `search_last`, wearleveling.c:103-117, and the returns after it, 119-125, with `k` iterations left before
`i` reaches `blocks_in_page`; the returned value and `*last_marker`. -/
def searchLoop (dev : Dev D) (d : D) : Nat → Nat → Byte → Int × Byte
  | 0, _, lm => (0, lm)
  | k + 1, i, lm =>
    let (err, marker) := dev.readMarker d i
    if err ≠ 0 then (err, lm)
    else if marker ≠ lm + 1 then ((i : Int) - 1, lm)
    else searchLoop dev d k (i + 1) marker

/-- `search_last`, wearleveling.c:93-126. -/
def searchLast (dev : Dev D) (d : D) (n : Nat) : Int × Byte :=
  let (err, lm) := dev.readMarker d 0
  if err ≠ 0 then (err, lm) else searchLoop dev d (n - 1) 1 lm

/-- `wearleveling_init`, wearleveling.c:75-84. -/
def init (dev : Dev D) (d : D) (n : Nat) : Res Wlm := do
  cassert (n < 256)
  let (r, lm) := searchLast dev d n
  pure { n := n, last := asSize r, marker := lm }

/-- `wearleveling_read`, wearleveling.c:35-37. -/
def read (dev : Dev D) (d : D) (w : Wlm) (len : Nat) : Int × List Byte := dev.readBlock d w.last len

/-- `NEXT_BLOCK(x, mod)` for `size_t`, wearleveling.c:21. -/
def nextBlock (x n : Nat) : Res Nat := if n = 0 then .ub else .ok ((x + 1) % 2 ^ 64 % n)

/-- `wearleveling_write`, wearleveling.c:48-63: the device, the structure and the returned value. A variable length array
of length 0 is undefined (C11 6.7.6.2p5). -/
def write (dev : Dev D) (d : D) (w : Wlm) (buffer : List Byte) : Res (D × Wlm × Int) :=
  if buffer.length = 0 then .ub
  else
    let (res, intermediate) := dev.readBlock d w.last buffer.length
    if res ≠ 0 then .ok (d, w, res)
    else if intermediate ≠ buffer then do
      let marker := w.marker + 1
      let last ← nextBlock w.last w.n
      let w := { w with marker := marker, last := last }
      let (res, d) := dev.writeBlock d last marker buffer
      pure (d, w, res)
    else .ok (d, w, 0)

end Gel.Wear
