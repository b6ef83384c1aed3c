import Verif.C

/-!
# Serializer: model of gel/serializer/serializer.h

A pointer into a buffer is the buffer and an offset. A signed object is the `BitVec` of its two's complement
representation, its value is `BitVec.toInt`. `int` has 32 bits. The statements that write or read several bytes do so in
the order of the indices (the order of evaluation of `|` operands is irrelevant: they only read).
-/
namespace Gel.Serial

/-- A byte buffer. -/
abbrev Mem := List (BitVec 8)

/-- `serialize_uint8`, serializer.h:57-60. -/
def serializeU8 (buf : Mem) (off : Nat) (val : BitVec 8) : Res (Mem × Nat) := do
  let buf ← wr buf (off + 0) val
  pure (buf, 1)

/-- `serialize_uint16_le`, serializer.h:63-67. -/
def serializeU16Le (buf : Mem) (off : Nat) (val : BitVec 16) : Res (Mem × Nat) := do
  let buf ← wr buf (off + 0) ((val &&& 0xFF).setWidth 8)
  let buf ← wr buf (off + 1) (((val >>> 8) &&& 0xFF).setWidth 8)
  pure (buf, 2)

/-- `serialize_uint32_le`, serializer.h:70-76. -/
def serializeU32Le (buf : Mem) (off : Nat) (val : BitVec 32) : Res (Mem × Nat) := do
  let buf ← wr buf (off + 0) ((val &&& 0xFF).setWidth 8)
  let buf ← wr buf (off + 1) (((val >>> 8) &&& 0xFF).setWidth 8)
  let buf ← wr buf (off + 2) (((val >>> 16) &&& 0xFF).setWidth 8)
  let buf ← wr buf (off + 3) (((val >>> 24) &&& 0xFF).setWidth 8)
  pure (buf, 4)

/-- `serialize_uint64_le`, serializer.h:79-89. -/
def serializeU64Le (buf : Mem) (off : Nat) (val : BitVec 64) : Res (Mem × Nat) := do
  let buf ← wr buf (off + 0) ((val &&& 0xFF).setWidth 8)
  let buf ← wr buf (off + 1) (((val >>> 8) &&& 0xFF).setWidth 8)
  let buf ← wr buf (off + 2) (((val >>> 16) &&& 0xFF).setWidth 8)
  let buf ← wr buf (off + 3) (((val >>> 24) &&& 0xFF).setWidth 8)
  let buf ← wr buf (off + 4) (((val >>> 32) &&& 0xFF).setWidth 8)
  let buf ← wr buf (off + 5) (((val >>> 40) &&& 0xFF).setWidth 8)
  let buf ← wr buf (off + 6) (((val >>> 48) &&& 0xFF).setWidth 8)
  let buf ← wr buf (off + 7) (((val >>> 56) &&& 0xFF).setWidth 8)
  pure (buf, 8)

/-- `serialize_uint16_be`, serializer.h:92-96. -/
def serializeU16Be (buf : Mem) (off : Nat) (val : BitVec 16) : Res (Mem × Nat) := do
  let buf ← wr buf (off + 0) (((val >>> 8) &&& 0xFF).setWidth 8)
  let buf ← wr buf (off + 1) ((val &&& 0xFF).setWidth 8)
  pure (buf, 2)

/-- `serialize_uint32_be`, serializer.h:99-105. -/
def serializeU32Be (buf : Mem) (off : Nat) (val : BitVec 32) : Res (Mem × Nat) := do
  let buf ← wr buf (off + 0) (((val >>> 24) &&& 0xFF).setWidth 8)
  let buf ← wr buf (off + 1) (((val >>> 16) &&& 0xFF).setWidth 8)
  let buf ← wr buf (off + 2) (((val >>> 8) &&& 0xFF).setWidth 8)
  let buf ← wr buf (off + 3) ((val &&& 0xFF).setWidth 8)
  pure (buf, 4)

/-- `serialize_uint64_be`, serializer.h:108-118. -/
def serializeU64Be (buf : Mem) (off : Nat) (val : BitVec 64) : Res (Mem × Nat) := do
  let buf ← wr buf (off + 0) (((val >>> 56) &&& 0xFF).setWidth 8)
  let buf ← wr buf (off + 1) (((val >>> 48) &&& 0xFF).setWidth 8)
  let buf ← wr buf (off + 2) (((val >>> 40) &&& 0xFF).setWidth 8)
  let buf ← wr buf (off + 3) (((val >>> 32) &&& 0xFF).setWidth 8)
  let buf ← wr buf (off + 4) (((val >>> 24) &&& 0xFF).setWidth 8)
  let buf ← wr buf (off + 5) (((val >>> 16) &&& 0xFF).setWidth 8)
  let buf ← wr buf (off + 6) (((val >>> 8) &&& 0xFF).setWidth 8)
  let buf ← wr buf (off + 7) ((val &&& 0xFF).setWidth 8)
  pure (buf, 8)

/-- `deserialize_uint8`, serializer.h:121-124. -/
def deserializeU8 (buf : Mem) (off : Nat) : Res (BitVec 8 × Nat) := do
  let b0 ← rd buf (off + 0)
  pure (b0, 1)

/-- `deserialize_int8`, serializer.h:127-130. -/
def deserializeI8 (buf : Mem) (off : Nat) : Res (BitVec 8 × Nat) := do
  let b0 ← rd buf (off + 0)
  pure (b0, 1)

/-- `deserialize_uint16_le`, serializer.h:133-136. The shift and the `|` are done in `int`; the result is converted back to 16 bits. -/
def deserializeU16Le (buf : Mem) (off : Nat) : Res (BitVec 16 × Nat) := do
  let b0 ← rd buf (off + 0)
  let b1 ← rd buf (off + 1)
  pure ((b0.setWidth 32 ||| b1.setWidth 32 <<< 8).setWidth 16, 2)

/-- `deserialize_int16_le`, serializer.h:139-142. The shift and the `|` are done in `int`; the result is converted back to 16 bits. -/
def deserializeI16Le (gnu : Bool) (buf : Mem) (off : Nat) : Res (BitVec 16 × Nat) := do
  let b0 ← rd buf (off + 0)
  let b1 ← rd buf (off + 1)
  let s1 ← shlS gnu (b1.setWidth 32) 8
  pure ((b0.setWidth 32 ||| s1).setWidth 16, 2)

/-- `deserialize_uint32_le`, serializer.h:145-148. -/
def deserializeU32Le (buf : Mem) (off : Nat) : Res (BitVec 32 × Nat) := do
  let b0 ← rd buf (off + 0)
  let b1 ← rd buf (off + 1)
  let b2 ← rd buf (off + 2)
  let b3 ← rd buf (off + 3)
  pure (b0.setWidth 32 ||| b1.setWidth 32 <<< 8 ||| b2.setWidth 32 <<< 16 ||| b3.setWidth 32 <<< 24, 4)

/-- `deserialize_int32_le`, serializer.h:151-154. -/
def deserializeI32Le (gnu : Bool) (buf : Mem) (off : Nat) : Res (BitVec 32 × Nat) := do
  let b0 ← rd buf (off + 0)
  let b1 ← rd buf (off + 1)
  let b2 ← rd buf (off + 2)
  let b3 ← rd buf (off + 3)
  let s1 ← shlS gnu (b1.setWidth 32) 8
  let s2 ← shlS gnu (b2.setWidth 32) 16
  let s3 ← shlS gnu (b3.setWidth 32) 24
  pure (b0.setWidth 32 ||| s1 ||| s2 ||| s3, 4)

/-- `deserialize_uint64_le`, serializer.h:157-161. -/
def deserializeU64Le (buf : Mem) (off : Nat) : Res (BitVec 64 × Nat) := do
  let b0 ← rd buf (off + 0)
  let b1 ← rd buf (off + 1)
  let b2 ← rd buf (off + 2)
  let b3 ← rd buf (off + 3)
  let b4 ← rd buf (off + 4)
  let b5 ← rd buf (off + 5)
  let b6 ← rd buf (off + 6)
  let b7 ← rd buf (off + 7)
  pure (b0.setWidth 64 ||| b1.setWidth 64 <<< 8 ||| b2.setWidth 64 <<< 16 ||| b3.setWidth 64 <<< 24 ||| b4.setWidth 64 <<< 32 ||| b5.setWidth 64 <<< 40 ||| b6.setWidth 64 <<< 48 ||| b7.setWidth 64 <<< 56, 8)

/-- `deserialize_int64_le`, serializer.h:164-168. -/
def deserializeI64Le (gnu : Bool) (buf : Mem) (off : Nat) : Res (BitVec 64 × Nat) := do
  let b0 ← rd buf (off + 0)
  let b1 ← rd buf (off + 1)
  let b2 ← rd buf (off + 2)
  let b3 ← rd buf (off + 3)
  let b4 ← rd buf (off + 4)
  let b5 ← rd buf (off + 5)
  let b6 ← rd buf (off + 6)
  let b7 ← rd buf (off + 7)
  let s1 ← shlS gnu (b1.setWidth 64) 8
  let s2 ← shlS gnu (b2.setWidth 64) 16
  let s3 ← shlS gnu (b3.setWidth 64) 24
  let s4 ← shlS gnu (b4.setWidth 64) 32
  let s5 ← shlS gnu (b5.setWidth 64) 40
  let s6 ← shlS gnu (b6.setWidth 64) 48
  let s7 ← shlS gnu (b7.setWidth 64) 56
  pure (b0.setWidth 64 ||| s1 ||| s2 ||| s3 ||| s4 ||| s5 ||| s6 ||| s7, 8)

/-- `deserialize_uint16_be`, serializer.h:171-174. The shift and the `|` are done in `int`; the result is converted back to 16 bits. -/
def deserializeU16Be (buf : Mem) (off : Nat) : Res (BitVec 16 × Nat) := do
  let b0 ← rd buf (off + 0)
  let b1 ← rd buf (off + 1)
  pure ((b1.setWidth 32 ||| b0.setWidth 32 <<< 8).setWidth 16, 2)

/-- `deserialize_int16_be`, serializer.h:177-180. The shift and the `|` are done in `int`; the result is converted back to 16 bits. -/
def deserializeI16Be (gnu : Bool) (buf : Mem) (off : Nat) : Res (BitVec 16 × Nat) := do
  let b0 ← rd buf (off + 0)
  let b1 ← rd buf (off + 1)
  let s1 ← shlS gnu (b0.setWidth 32) 8
  pure ((b1.setWidth 32 ||| s1).setWidth 16, 2)

/-- `deserialize_uint32_be`, serializer.h:183-186. -/
def deserializeU32Be (buf : Mem) (off : Nat) : Res (BitVec 32 × Nat) := do
  let b0 ← rd buf (off + 0)
  let b1 ← rd buf (off + 1)
  let b2 ← rd buf (off + 2)
  let b3 ← rd buf (off + 3)
  pure (b3.setWidth 32 ||| b2.setWidth 32 <<< 8 ||| b1.setWidth 32 <<< 16 ||| b0.setWidth 32 <<< 24, 4)

/-- `deserialize_int32_be`, serializer.h:189-192. -/
def deserializeI32Be (gnu : Bool) (buf : Mem) (off : Nat) : Res (BitVec 32 × Nat) := do
  let b0 ← rd buf (off + 0)
  let b1 ← rd buf (off + 1)
  let b2 ← rd buf (off + 2)
  let b3 ← rd buf (off + 3)
  let s1 ← shlS gnu (b2.setWidth 32) 8
  let s2 ← shlS gnu (b1.setWidth 32) 16
  let s3 ← shlS gnu (b0.setWidth 32) 24
  pure (b3.setWidth 32 ||| s1 ||| s2 ||| s3, 4)

/-- `deserialize_uint64_be`, serializer.h:195-199. -/
def deserializeU64Be (buf : Mem) (off : Nat) : Res (BitVec 64 × Nat) := do
  let b0 ← rd buf (off + 0)
  let b1 ← rd buf (off + 1)
  let b2 ← rd buf (off + 2)
  let b3 ← rd buf (off + 3)
  let b4 ← rd buf (off + 4)
  let b5 ← rd buf (off + 5)
  let b6 ← rd buf (off + 6)
  let b7 ← rd buf (off + 7)
  pure (b7.setWidth 64 ||| b6.setWidth 64 <<< 8 ||| b5.setWidth 64 <<< 16 ||| b4.setWidth 64 <<< 24 ||| b3.setWidth 64 <<< 32 ||| b2.setWidth 64 <<< 40 ||| b1.setWidth 64 <<< 48 ||| b0.setWidth 64 <<< 56, 8)

/-- `deserialize_int64_be`, serializer.h:202-206. -/
def deserializeI64Be (gnu : Bool) (buf : Mem) (off : Nat) : Res (BitVec 64 × Nat) := do
  let b0 ← rd buf (off + 0)
  let b1 ← rd buf (off + 1)
  let b2 ← rd buf (off + 2)
  let b3 ← rd buf (off + 3)
  let b4 ← rd buf (off + 4)
  let b5 ← rd buf (off + 5)
  let b6 ← rd buf (off + 6)
  let b7 ← rd buf (off + 7)
  let s1 ← shlS gnu (b6.setWidth 64) 8
  let s2 ← shlS gnu (b5.setWidth 64) 16
  let s3 ← shlS gnu (b4.setWidth 64) 24
  let s4 ← shlS gnu (b3.setWidth 64) 32
  let s5 ← shlS gnu (b2.setWidth 64) 40
  let s6 ← shlS gnu (b1.setWidth 64) 48
  let s7 ← shlS gnu (b0.setWidth 64) 56
  pure (b7.setWidth 64 ||| s1 ||| s2 ||| s3 ||| s4 ||| s5 ||| s6 ||| s7, 8)

/-- `PACK_UINT16_BE`, serializer.h:42-47, for an unsigned or two's complement variable of `w` bits. -/
def packU16 (buf : Mem) (off : Nat) (var : BitVec w) : Res (Mem × Nat) := serializeU16Be buf off (var.setWidth 16)

/-- `PACK_UINT8`, serializer.h:49-54. -/
def packU8 (buf : Mem) (off : Nat) (var : BitVec w) : Res (Mem × Nat) := serializeU8 buf off (var.setWidth 8)

/-- `UNPACK_UINT16_BE`, serializer.h:17-23, into a variable of `w` bits. -/
def unpackU16 (w : Nat) (buf : Mem) (off : Nat) : Res (BitVec w × Nat) := do
  let (tmp, size) ← deserializeU16Be buf off
  pure (tmp.setWidth w, size)

/-- `UNPACK_UINT32_BE`, serializer.h:25-31, into a variable of `w` bits. -/
def unpackU32 (w : Nat) (buf : Mem) (off : Nat) : Res (BitVec w × Nat) := do
  let (tmp, size) ← deserializeU32Be buf off
  pure (tmp.setWidth w, size)

/-- `UNPACK_UINT8`, serializer.h:33-39, into a variable of `w` bits. -/
def unpackU8 (w : Nat) (buf : Mem) (off : Nat) : Res (BitVec w × Nat) := do
  let (tmp, size) ← deserializeU8 buf off
  pure (tmp.setWidth w, size)

end Gel.Serial
