import Verif.C
import Verif.Crc.Tables

/-!
# Checksums: model of gel/crc/crc16-ccitt.c and gel/crc/crc32.c

`unsigned short` has 16 bits, `unsigned int` 32 and `size_t` 64; the lengths are natural numbers (a length that fits the
type is never reached by a wrapping loop counter).
-/
namespace Gel.Crc

/-- One iteration of the loop of `crc16_ccitt`, crc16-ccitt.c:95-98. The shifts are done in `int`; the left shift is
converted back to 16 bits, the right shift of the 16-bit value cannot leave them. -/
def crc16Step (crc : BitVec 16) (b : BitVec 8) : Res (BitVec 16) := do
  let tmp : BitVec 16 := (crc >>> 8) ^^^ b.setWidth 16
  let t ← rd crc16Table tmp.toNat
  pure ((crc <<< 8) ^^^ t)

/-- The loop of `crc16_ccitt` from index `i` with `cnt` iterations to go, crc16-ccitt.c:95-98. -/
def crc16Loop (block : List (BitVec 8)) (i : Nat) : Nat → BitVec 16 → Res (BitVec 16)
  | 0, crc => .ok crc
  | cnt + 1, crc => do
    let b ← rd block i
    let crc ← crc16Step crc b
    crc16Loop block (i + 1) cnt crc

/-- `crc16_ccitt`, crc16-ccitt.c:92-100. -/
def crc16 (block : List (BitVec 8)) (blockLength : Nat) (crc : BitVec 16) : Res (BitVec 16) :=
  crc16Loop block 0 blockLength crc

/-- One iteration of the loop of `crc32`, crc32.c:69. -/
def crc32Step (crc : BitVec 32) (b : BitVec 8) : Res (BitVec 32) := do
  let t ← rd crc32Table (((crc >>> 24) ^^^ b.setWidth 32) &&& 255).toNat
  pure ((crc <<< 8) ^^^ t)

/-- The loop of `crc32`, crc32.c:68-71; the pointer `buf` advances with `i`. -/
def crc32Loop (buf : List (BitVec 8)) (i : Nat) : Nat → BitVec 32 → Res (BitVec 32)
  | 0, crc => .ok crc
  | cnt + 1, crc => do
    let b ← rd buf i
    let crc ← crc32Step crc b
    crc32Loop buf (i + 1) cnt crc

/-- `crc32`, crc32.c:66-73. -/
def crc32 (buf : List (BitVec 8)) (len : Nat) (init : BitVec 32) : Res (BitVec 32) := crc32Loop buf 0 len init

end Gel.Crc
