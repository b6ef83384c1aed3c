import Verif.C

/-!
# Serializer: specification

Positional notation in base 256 on natural numbers.
-/
namespace Gel.Serial.Spec

/-- The `n` bytes of `v`, least significant first. -/
def leBytes (n v : Nat) : List (BitVec 8) := (List.range n).map fun k => BitVec.ofNat 8 (v / 256 ^ k)

/-- The `n` bytes of `v`, most significant first. -/
def beBytes (n v : Nat) : List (BitVec 8) := (leBytes n v).reverse

/-- The unsigned formats. -/
inductive Format where
  | u8 | u16le | u16be | u32le | u32be | u64le | u64be
  deriving DecidableEq

/-- Size in bytes. -/
def Format.size : Format → Nat
  | u8 => 1
  | u16le | u16be => 2
  | u32le | u32be => 4
  | u64le | u64be => 8

/-- Size in bits. -/
abbrev Format.width (f : Format) : Nat := 8 * f.size

/-- Whether the most significant byte comes first. -/
def Format.big : Format → Bool
  | u16be | u32be | u64be => true
  | _ => false

/-- The bytes of a value. -/
def image (f : Format) (v : BitVec f.width) : List (BitVec 8) :=
  if f.big then beBytes f.size v.toNat else leBytes f.size v.toNat

/-- `bytes` written over `buf` at `off`. -/
def overwrite (buf : List (BitVec 8)) (off : Nat) (bytes : List (BitVec 8)) : List (BitVec 8) :=
  buf.take off ++ bytes ++ buf.drop (off + bytes.length)

end Gel.Serial.Spec
