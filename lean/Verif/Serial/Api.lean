import Verif.Serial.Model
import Verif.Serial.Spec

/-!
# Serializer: the functions by format
-/
namespace Gel.Serial

open Spec

/-- The serializer of a format. -/
def serialize (f : Format) : Mem → Nat → BitVec f.width → Res (Mem × Nat) :=
  match f with
  | .u8 => serializeU8
  | .u16le => serializeU16Le
  | .u16be => serializeU16Be
  | .u32le => serializeU32Le
  | .u32be => serializeU32Be
  | .u64le => serializeU64Le
  | .u64be => serializeU64Be

/-- The unsigned deserializer of a format. -/
def deserialize (f : Format) : Mem → Nat → Res (BitVec f.width × Nat) :=
  match f with
  | .u8 => deserializeU8
  | .u16le => deserializeU16Le
  | .u16be => deserializeU16Be
  | .u32le => deserializeU32Le
  | .u32be => deserializeU32Be
  | .u64le => deserializeU64Le
  | .u64be => deserializeU64Be

/-- The signed deserializer of a format. -/
def deserializeS (gnu : Bool) (f : Format) : Mem → Nat → Res (BitVec f.width × Nat) :=
  match f with
  | .u8 => deserializeI8
  | .u16le => deserializeI16Le gnu
  | .u16be => deserializeI16Be gnu
  | .u32le => deserializeI32Le gnu
  | .u32be => deserializeI32Be gnu
  | .u64le => deserializeI64Le gnu
  | .u64be => deserializeI64Be gnu

/-- A field of a packet: its format and value. -/
abbrev Field := (f : Format) × BitVec f.width

/-- Client code that writes fields one after the other, advancing by the returned sizes. -/
def writeAll (buf : Mem) (off : Nat) : List Field → Res (Mem × Nat)
  | [] => .ok (buf, off)
  | x :: l => do
    let (buf, n) ← serialize x.1 buf off x.2
    writeAll buf (off + n) l

/-- Client code that reads fields of the given formats one after the other, advancing by the returned sizes. -/
def readAll (buf : Mem) (off : Nat) : List Format → Res (List Field × Nat)
  | [] => .ok ([], off)
  | f :: l => do
    let (v, n) ← deserialize f buf off
    let (vs, off) ← readAll buf (off + n) l
    pure (⟨f, v⟩ :: vs, off)

end Gel.Serial
