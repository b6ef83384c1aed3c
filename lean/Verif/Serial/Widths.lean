import Verif.Serial.Lemmas

/-!
# Serializer: property C151, the width of `int`

The 16-bit functions calculate in `int` (or `unsigned int`, if `int` has 16 bits and cannot hold all values of `uint16_t`); here
`int` has `w` bits. The functions for wider types calculate in `int32_t`, `uint32_t`, `int64_t` and `uint64_t`, whatever `int` is.
-/
namespace Gel.Serial

/-- `deserialize_uint16_le`, serializer.h:133-136. With 16 bits the type is unsigned; with more the shift cannot overflow. -/
def deserializeU16LeW (w : Nat) (buf : Mem) (off : Nat) : Res (BitVec 16 × Nat) := do
  let b0 ← rd buf (off + 0)
  let b1 ← rd buf (off + 1)
  pure ((b0.setWidth w ||| b1.setWidth w <<< 8).setWidth 16, 2)

/-- `deserialize_uint16_be`, serializer.h:171-174. -/
def deserializeU16BeW (w : Nat) (buf : Mem) (off : Nat) : Res (BitVec 16 × Nat) := do
  let b0 ← rd buf (off + 0)
  let b1 ← rd buf (off + 1)
  pure ((b1.setWidth w ||| b0.setWidth w <<< 8).setWidth 16, 2)

/-- `deserialize_int16_le`, serializer.h:139-142. -/
def deserializeI16LeW (w : Nat) (gnu : Bool) (buf : Mem) (off : Nat) : Res (BitVec 16 × Nat) := do
  let b0 ← rd buf (off + 0)
  let b1 ← rd buf (off + 1)
  let s1 ← shlS gnu (b1.setWidth w) 8
  pure ((b0.setWidth w ||| s1).setWidth 16, 2)

/-- `deserialize_int16_be`, serializer.h:177-180. -/
def deserializeI16BeW (w : Nat) (gnu : Bool) (buf : Mem) (off : Nat) : Res (BitVec 16 × Nat) := do
  let b0 ← rd buf (off + 0)
  let b1 ← rd buf (off + 1)
  let s1 ← shlS gnu (b0.setWidth w) 8
  pure ((b1.setWidth w ||| s1).setWidth 16, 2)

/-- Only the lower 16 bits count. -/
theorem low16 {w : Nat} (hw : 16 ≤ w) (a b : BitVec 8) :
    (a.setWidth w ||| b.setWidth w <<< 8).setWidth 16 = (a.setWidth 16 ||| b.setWidth 16 <<< 8 : BitVec 16) := by
  apply BitVec.eq_of_getLsbD_eq
  intro i hi
  have h1 : i < w := by omega
  have h2 : i - 8 < w := by omega
  simp [hi, h1, h2]

/-- The left shift of the upper byte: undefined exactly if `int` has 16 bits, the byte is at least 128, and the compiler does not
define it. -/
theorem shl_upper {w : Nat} (hw : 16 ≤ w) (gnu : Bool) (b : BitVec 8) :
    shlS gnu (b.setWidth w) 8 = if gnu = true ∨ 16 < w ∨ b.toNat < 128 then .ok (b.setWidth w <<< 8) else .ub := by
  by_cases h16 : 16 < w
  · rw [shlS_low gnu b 8 (by omega), if_pos (.inr (.inl h16))]
  · obtain rfl : w = 16 := by omega
    rw [shlS, toInt_setWidth b (by omega)]
    have : ((b.toNat : Int) * 2 ^ 8 < 2 ^ (16 - 1)) ↔ b.toNat < 128 := by
      norm_num
      omega
    simp only [this]
    simp

/-- **C151.** Unsigned 16-bit values: the result is the same whatever the width of `int`. -/
theorem C151_unsigned (w : Nat) (hw : 16 ≤ w) (buf : Mem) (off : Nat) :
    deserializeU16LeW w buf off = deserializeU16Le buf off ∧ deserializeU16BeW w buf off = deserializeU16Be buf off := by
  constructor
  · rw [deserializeU16LeW, deserializeU16Le]
    simp only [low16 hw, low16 (show 16 ≤ 32 by omega)]
  · rw [deserializeU16BeW, deserializeU16Be]
    simp only [low16 hw, low16 (show 16 ≤ 32 by omega)]

/-- **C151** (partial). Signed 16-bit values: the same result as with 32 bits if `int` has more than 16 bits or the compiler defines
the shift. Missing: 16 bits and a compiler that does not (`C151_wrong`). -/
theorem C151_signed_partial (w : Nat) (hw : 16 ≤ w) (gnu : Bool) (h : gnu = true ∨ 16 < w) (buf : Mem) (off : Nat) :
    deserializeI16LeW w gnu buf off = deserializeI16Le gnu buf off ∧
    deserializeI16BeW w gnu buf off = deserializeI16Be gnu buf off := by
  have h1 : ∀ b : BitVec 8, shlS gnu (b.setWidth w) 8 = .ok (b.setWidth w <<< 8) := fun b => by
    rw [shl_upper hw, if_pos (by tauto)]
  have h2 : ∀ b : BitVec 8, shlS gnu (b.setWidth 32) 8 = .ok (b.setWidth 32 <<< 8) := fun b => by
    rw [shl_upper (by omega), if_pos (by omega)]
  constructor
  · rw [deserializeI16LeW, deserializeI16Le]
    simp only [h1, h2, Res.ok_bind, low16 hw, low16 (show 16 ≤ 32 by omega)]
  · rw [deserializeI16BeW, deserializeI16Be]
    simp only [h1, h2, Res.ok_bind, low16 hw, low16 (show 16 ≤ 32 by omega)]

/-- **C151**, where it fails: `int` of 16 bits and a compiler that does not define the shift: reading is undefined exactly for the
negative values (and outside the buffer). -/
theorem C151_wrong (buf : Mem) (off : Nat) (v : BitVec 16) :
    (deserializeI16Le false buf off = .ok (v, 2) →
      deserializeI16LeW 16 false buf off = if v.toInt < 0 then .ub else .ok (v, 2)) ∧
    (deserializeI16Be false buf off = .ok (v, 2) →
      deserializeI16BeW 16 false buf off = if v.toInt < 0 then .ub else .ok (v, 2)) := by
  have key : ∀ a b : BitVec 8, v = (a.setWidth 16 ||| b.setWidth 16 <<< 8 : BitVec 16) → (v.toInt < 0 ↔ 128 ≤ b.toNat) := by
    intro a b h
    have h1 : v.toNat = a.toNat + 256 * b.toNat := by
      rw [h, or_shift (a.setWidth 16) b 8 (by simp; omega) (by omega)]
      simp
      omega
    have := a.isLt
    have := b.isLt
    rw [BitVec.toInt_eq_toNat_cond]
    split_ifs <;> omega
  have h2 : ∀ b : BitVec 8, shlS false (b.setWidth 32) 8 = .ok (b.setWidth 32 <<< 8) := fun b => by
    rw [shl_upper (by omega), if_pos (by omega)]
  have main : ∀ a b : BitVec 8, ((a.setWidth 32 ||| b.setWidth 32 <<< 8).setWidth 16, 2) = (v, 2) →
      (do let s1 ← shlS false (b.setWidth 16) 8; pure ((a.setWidth 16 ||| s1).setWidth 16, 2) : Res (BitVec 16 × Nat)) =
        if v.toInt < 0 then .ub else .ok (v, 2) := by
    intro a b h
    rw [low16 (by omega)] at h
    injection h with h _
    have hk := key a b h.symm
    rw [shl_upper (by omega)]
    by_cases hb : 128 ≤ b.toNat
    · rw [if_neg (by simp; omega), if_pos (hk.2 hb)]
      rfl
    · rw [if_pos (by simp; omega), if_neg (fun h => hb (hk.1 h)), Res.ok_bind, ← h]
      simp
  constructor
  · intro h
    rw [deserializeI16Le, Res.bind_eq_ok] at h
    obtain ⟨b0, e0, h⟩ := h
    rw [Res.bind_eq_ok] at h
    obtain ⟨b1, e1, h⟩ := h
    rw [h2, Res.ok_bind] at h
    injection h with h
    rw [deserializeI16LeW, e0, Res.ok_bind, e1, Res.ok_bind]
    exact main b0 b1 h
  · intro h
    rw [deserializeI16Be, Res.bind_eq_ok] at h
    obtain ⟨b0, e0, h⟩ := h
    rw [Res.bind_eq_ok] at h
    obtain ⟨b1, e1, h⟩ := h
    rw [h2, Res.ok_bind] at h
    injection h with h
    rw [deserializeI16BeW, e0, Res.ok_bind, e1, Res.ok_bind]
    exact main b1 b0 h

example : deserializeI16LeW 16 false [0xFE, 0xFF] 0 = .ub ∧ deserializeI16LeW 16 true [0xFE, 0xFF] 0 = .ok (0xFFFE, 2) ∧
    deserializeI16BeW 24 false [0xFF, 0xFE] 0 = .ok (0xFFFE, 2) ∧ deserializeI16LeW 16 false [0xFE, 0x7F] 0 = .ok (0x7FFE, 2) ∧
    deserializeU16LeW 16 [0xFE, 0xFF] 0 = .ok (0xFFFE, 2) := by
  decide

end Gel.Serial
