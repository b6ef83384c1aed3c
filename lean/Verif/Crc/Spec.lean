import Mathlib.Data.ZMod.Basic
import Mathlib.Algebra.Polynomial.Div

/-!
# Checksums: specification

Polynomials over GF(2), from Mathlib. Nothing here refers to the tables.
-/
namespace Gel.Crc.Spec

open Polynomial

/-- The bits of a word, most significant first. -/
def bits {w : Nat} (v : BitVec w) : List Bool := (List.range w).map fun i => v.getMsbD i

/-- The bits of a message in transmission order: bytes in order, most significant bit first. -/
def msgBits (m : List (BitVec 8)) : List Bool := m.flatMap bits

/-- The polynomial whose coefficients are the bits, the first one of the highest degree. -/
noncomputable def poly : List Bool → (ZMod 2)[X]
  | [] => 0
  | b :: l => (if b then X ^ l.length else 0) + poly l

/-- The CCITT polynomial. -/
noncomputable def P16 : (ZMod 2)[X] := X ^ 16 + X ^ 12 + X ^ 5 + 1

/-- The polynomial of IEEE 802.3, 0x104C11DB7. -/
noncomputable def P32 : (ZMod 2)[X] :=
  X ^ 32 + X ^ 26 + X ^ 23 + X ^ 22 + X ^ 16 + X ^ 12 + X ^ 11 + X ^ 10 + X ^ 8 + X ^ 7 + X ^ 5 + X ^ 4 + X ^ 2 + X + 1

/-- The big-endian bytes of a 16-bit word. -/
def be16 (c : BitVec 16) : List (BitVec 8) := [c.extractLsb' 8 8, c.extractLsb' 0 8]

/-- The big-endian bytes of a 32-bit word. -/
def be32 (c : BitVec 32) : List (BitVec 8) :=
  [c.extractLsb' 24 8, c.extractLsb' 16 8, c.extractLsb' 8 8, c.extractLsb' 0 8]

/-- The number of positions in which two bit sequences differ. -/
def distance (a b : List Bool) : Nat := (List.zipWith xor a b).count true

end Gel.Crc.Spec
