import Verif.Serial.Api
import Mathlib.Tactic.SplitIfs
import Mathlib.Tactic.Ring
import Mathlib.Tactic.NormNum

/-!
# Serializer: lemmas
-/
namespace Gel.Serial

open Spec

/-! ## Writing -/

/-- Consecutive byte writes. -/
def wrs (buf : Mem) (off : Nat) : List (BitVec 8) → Res Mem
  | [] => .ok buf
  | b :: l => do
    let buf ← wr buf off b
    wrs buf (off + 1) l

theorem overwrite_append (p q l : Mem) (off : Nat) (h : p.length = off) :
    overwrite (p ++ q) off l = p ++ l ++ q.drop l.length := by
  subst h; simp [overwrite, List.drop_append]

theorem length_overwrite (buf l : Mem) (off : Nat) (h : off + l.length ≤ buf.length) :
    (overwrite buf off l).length = buf.length := by simp [overwrite]; omega

theorem overwrite_overwrite (buf l m : Mem) (off : Nat) (h : off + l.length ≤ buf.length) :
    overwrite (overwrite buf off l) (off + l.length) m = overwrite buf off (l ++ m) := by
  rw [overwrite.eq_def buf off l, overwrite_append _ _ _ _ (by simp; omega), overwrite]
  simp [Nat.add_assoc]

theorem wrs_eq (buf : Mem) (off : Nat) (l : List (BitVec 8)) (h : off + l.length ≤ buf.length) :
    wrs buf off l = .ok (overwrite buf off l) := by
  induction l generalizing buf off with
  | nil => simp [wrs, overwrite]
  | cons b l ih =>
    simp only [List.length_cons] at h
    have e : buf.set off b = overwrite buf off [b] := by
      rw [List.set_eq_take_append_cons_drop, if_pos (by omega)]; simp [overwrite]
    rw [wrs, wr, if_pos (by omega), Res.ok_bind, ih _ _ (by simp; omega), e]
    have := overwrite_overwrite buf [b] l off (by simp; omega)
    simpa using this

theorem wrs_ub (buf : Mem) (off : Nat) (l : List (BitVec 8)) (hl : l ≠ []) (h : buf.length < off + l.length) :
    wrs buf off l = .ub := by
  induction l generalizing buf off with
  | nil => simp at hl
  | cons b l ih =>
    rw [wrs, wr]
    split_ifs with h1
    · simp only [List.length_cons] at h
      rw [Res.ok_bind]
      apply ih
      · rintro rfl; simp at h; omega
      · simp; omega
    · rfl

theorem byte (v : BitVec w) (s : Nat) (hw : 8 ≤ w) :
    ((v >>> s) &&& 0xFF).setWidth 8 = BitVec.ofNat 8 (v.toNat / 2 ^ s) := by
  have h255 : (255#w).toNat = 2 ^ 8 - 1 := by
    rw [BitVec.toNat_ofNat]
    apply Nat.mod_eq_of_lt
    calc 255 < 2 ^ 8 := by norm_num
      _ ≤ 2 ^ w := Nat.pow_le_pow_right (by norm_num) hw
  apply BitVec.eq_of_toNat_eq
  rw [BitVec.toNat_setWidth, BitVec.toNat_and, show (0xFF : BitVec w) = 255#w from rfl, h255,
    Nat.and_two_pow_sub_one_eq_mod, BitVec.toNat_ushiftRight, Nat.shiftRight_eq_div_pow]
  simp

theorem byte0 (v : BitVec w) (hw : 8 ≤ w) : (v &&& 0xFF).setWidth 8 = BitVec.ofNat 8 v.toNat := by
  simpa using byte v 0 hw

/-- Every serializer writes the image of its value and returns its size. -/
theorem serialize_eq (f : Format) (buf : Mem) (off : Nat) (v : BitVec f.width) :
    serialize f buf off v = (do let buf ← wrs buf off (image f v); pure (buf, f.size)) := by
  cases f
  · change BitVec 8 at v
    have : BitVec.ofNat 8 v.toNat = v := by simp
    simp [serialize, serializeU8, image, leBytes, List.range_succ, Format.big, Format.size, wrs, -BitVec.ofNat_toNat]
    change _ = wr buf off (BitVec.ofNat 8 v.toNat) >>= _
    rw [this]
  · change BitVec 16 at v
    simp only [serialize, serializeU16Le, byte v _ (show 8 ≤ 16 by decide), byte0 v (show 8 ≤ 16 by decide)]
    simp [image, leBytes, beBytes, List.range_succ, Format.big, Format.size, wrs, Nat.add_assoc, -BitVec.ofNat_toNat]
    rfl
  · change BitVec 16 at v
    simp only [serialize, serializeU16Be, byte v _ (show 8 ≤ 16 by decide), byte0 v (show 8 ≤ 16 by decide)]
    simp [image, leBytes, beBytes, List.range_succ, Format.big, Format.size, wrs, Nat.add_assoc, -BitVec.ofNat_toNat]
    rfl
  · change BitVec 32 at v
    simp only [serialize, serializeU32Le, byte v _ (show 8 ≤ 32 by decide), byte0 v (show 8 ≤ 32 by decide)]
    simp [image, leBytes, beBytes, List.range_succ, Format.big, Format.size, wrs, Nat.add_assoc, -BitVec.ofNat_toNat]
    rfl
  · change BitVec 32 at v
    simp only [serialize, serializeU32Be, byte v _ (show 8 ≤ 32 by decide), byte0 v (show 8 ≤ 32 by decide)]
    simp [image, leBytes, beBytes, List.range_succ, Format.big, Format.size, wrs, Nat.add_assoc, -BitVec.ofNat_toNat]
    rfl
  · change BitVec 64 at v
    simp only [serialize, serializeU64Le, byte v _ (show 8 ≤ 64 by decide), byte0 v (show 8 ≤ 64 by decide)]
    simp [image, leBytes, beBytes, List.range_succ, Format.big, Format.size, wrs, Nat.add_assoc, -BitVec.ofNat_toNat]
    rfl
  · change BitVec 64 at v
    simp only [serialize, serializeU64Be, byte v _ (show 8 ≤ 64 by decide), byte0 v (show 8 ≤ 64 by decide)]
    simp [image, leBytes, beBytes, List.range_succ, Format.big, Format.size, wrs, Nat.add_assoc, -BitVec.ofNat_toNat]
    rfl

theorem length_image (f : Format) (v : BitVec f.width) : (image f v).length = f.size := by
  simp only [image, leBytes, beBytes]; split_ifs <;> simp

/-! ## Reading -/

/-- The number with the given digits, least significant first. -/
def val : List (BitVec 8) → Nat
  | [] => 0
  | b :: l => b.toNat + 256 * val l

theorem leBytes_succ (n v : Nat) : leBytes (n + 1) v = BitVec.ofNat 8 v :: leBytes n (v / 256) := by
  simp only [leBytes, List.range_succ_eq_map, List.map_cons, List.map_map, pow_zero, Nat.div_one]
  congr 1
  apply List.map_congr_left
  intro k _
  simp [pow_succ, Nat.div_div_eq_div_mul, mul_comm]

theorem val_leBytes (n v : Nat) : val (leBytes n v) = v % 256 ^ n := by
  induction n generalizing v with
  | zero => simp [leBytes, val, Nat.mod_one]
  | succ n ih =>
    rw [leBytes_succ, val, ih, BitVec.toNat_ofNat, pow_succ 256, mul_comm _ 256, Nat.mod_mul]

theorem leBytes_val (l : List (BitVec 8)) : leBytes l.length (val l) = l := by
  induction l with
  | nil => rfl
  | cons b l ih =>
    rw [List.length_cons, leBytes_succ, val]
    have : (b.toNat + 256 * val l) / 256 = val l := by have := b.isLt; omega
    rw [this, ih]
    congr 1
    apply BitVec.eq_of_toNat_eq
    rw [BitVec.toNat_ofNat]; have := b.isLt; omega

theorem or_shift (x : BitVec w) (b : BitVec 8) (k : Nat) (hx : x.toNat < 2 ^ k) (hk : k + 8 ≤ w) :
    (x ||| b.setWidth w <<< k).toNat = x.toNat + b.toNat * 2 ^ k := by
  have hb := b.isLt
  have h1 : b.toNat < 2 ^ w := lt_of_lt_of_le hb (Nat.pow_le_pow_right (by norm_num) (by omega))
  have h2 : b.toNat <<< k < 2 ^ w := by
    rw [Nat.shiftLeft_eq]
    calc b.toNat * 2 ^ k < 2 ^ 8 * 2 ^ k := Nat.mul_lt_mul_of_pos_right hb (by positivity)
      _ = 2 ^ (k + 8) := by ring
      _ ≤ 2 ^ w := Nat.pow_le_pow_right (by norm_num) hk
  rw [BitVec.toNat_or, BitVec.toNat_shiftLeft, BitVec.toNat_setWidth, Nat.mod_eq_of_lt h1, Nat.mod_eq_of_lt h2,
    Nat.or_comm, ← Nat.shiftLeft_add_eq_or_of_lt hx, Nat.shiftLeft_eq, add_comm]

theorem rd_eq (buf : Mem) (off i : Nat) (bytes : List (BitVec 8)) (h : (buf.drop off).take bytes.length = bytes)
    (b : BitVec 8) (hi : bytes[i]? = some b) : rd buf (off + i) = .ok b := by
  have hl : i < bytes.length := by
    by_contra hc
    rw [List.getElem?_eq_none (by omega)] at hi; simp at hi
  have : buf[off + i]? = some b := by
    rw [← hi, ← List.getElem?_drop, ← List.getElem?_take_of_lt hl, h]
  rw [rd, this]

/-- The bytes in little-endian order. -/
def Spec.Format.ordered (f : Format) (bytes : List (BitVec 8)) : List (BitVec 8) := if f.big then bytes.reverse else bytes

theorem or16 (b0 b1 : BitVec 8) :
    ((b0.setWidth 32 ||| b1.setWidth 32 <<< 8).setWidth 16).toNat = val [b0, b1] := by
  have l0 := b0.isLt
  have l1 := b1.isLt
  have e0 : (b0.setWidth 32).toNat = b0.toNat := by rw [BitVec.toNat_setWidth]; omega
  have e1 := or_shift (b0.setWidth 32) b1 8 (by omega) (by decide)
  rw [BitVec.toNat_setWidth]
  simp only [val]
  omega

theorem or32 (b0 b1 b2 b3 : BitVec 8) :
    (b0.setWidth 32 ||| b1.setWidth 32 <<< 8 ||| b2.setWidth 32 <<< 16 ||| b3.setWidth 32 <<< 24).toNat = val [b0, b1, b2, b3] := by
  have l0 := b0.isLt
  have l1 := b1.isLt
  have l2 := b2.isLt
  have l3 := b3.isLt
  have e0 : (b0.setWidth 32).toNat = b0.toNat := by rw [BitVec.toNat_setWidth]; omega
  have e1 := or_shift (b0.setWidth 32) b1 8 (by omega) (by decide)
  have e2 := or_shift (b0.setWidth 32 ||| b1.setWidth 32 <<< 8) b2 16 (by omega) (by decide)
  have e3 := or_shift (b0.setWidth 32 ||| b1.setWidth 32 <<< 8 ||| b2.setWidth 32 <<< 16) b3 24 (by omega) (by decide)
  simp only [val]
  omega

theorem or64 (b0 b1 b2 b3 b4 b5 b6 b7 : BitVec 8) :
    (b0.setWidth 64 ||| b1.setWidth 64 <<< 8 ||| b2.setWidth 64 <<< 16 ||| b3.setWidth 64 <<< 24 ||| b4.setWidth 64 <<< 32 ||| b5.setWidth 64 <<< 40 ||| b6.setWidth 64 <<< 48 ||| b7.setWidth 64 <<< 56).toNat = val [b0, b1, b2, b3, b4, b5, b6, b7] := by
  have l0 := b0.isLt
  have l1 := b1.isLt
  have l2 := b2.isLt
  have l3 := b3.isLt
  have l4 := b4.isLt
  have l5 := b5.isLt
  have l6 := b6.isLt
  have l7 := b7.isLt
  have e0 : (b0.setWidth 64).toNat = b0.toNat := by rw [BitVec.toNat_setWidth]; omega
  have e1 := or_shift (b0.setWidth 64) b1 8 (by omega) (by decide)
  have e2 := or_shift (b0.setWidth 64 ||| b1.setWidth 64 <<< 8) b2 16 (by omega) (by decide)
  have e3 := or_shift (b0.setWidth 64 ||| b1.setWidth 64 <<< 8 ||| b2.setWidth 64 <<< 16) b3 24 (by omega) (by decide)
  have e4 := or_shift (b0.setWidth 64 ||| b1.setWidth 64 <<< 8 ||| b2.setWidth 64 <<< 16 ||| b3.setWidth 64 <<< 24) b4 32 (by omega) (by decide)
  have e5 := or_shift (b0.setWidth 64 ||| b1.setWidth 64 <<< 8 ||| b2.setWidth 64 <<< 16 ||| b3.setWidth 64 <<< 24 ||| b4.setWidth 64 <<< 32) b5 40 (by omega) (by decide)
  have e6 := or_shift (b0.setWidth 64 ||| b1.setWidth 64 <<< 8 ||| b2.setWidth 64 <<< 16 ||| b3.setWidth 64 <<< 24 ||| b4.setWidth 64 <<< 32 ||| b5.setWidth 64 <<< 40) b6 48 (by omega) (by decide)
  have e7 := or_shift (b0.setWidth 64 ||| b1.setWidth 64 <<< 8 ||| b2.setWidth 64 <<< 16 ||| b3.setWidth 64 <<< 24 ||| b4.setWidth 64 <<< 32 ||| b5.setWidth 64 <<< 40 ||| b6.setWidth 64 <<< 48) b7 56 (by omega) (by decide)
  simp only [val]
  omega

theorem deserialize_eq (f : Format) (buf : Mem) (off : Nat) (bytes : List (BitVec 8)) (hl : bytes.length = f.size)
    (h : (buf.drop off).take f.size = bytes) :
    ∃ v, deserialize f buf off = .ok (v, f.size) ∧ v.toNat = val (f.ordered bytes) := by
  rw [← hl] at h
  have hr := fun i b hi => rd_eq buf off i bytes h b hi
  clear h
  cases f
  · match bytes, hl with
    | [b0], _ =>
      have h0 := hr 0 b0 rfl
      exact ⟨_, by simp only [deserialize, deserializeU8, h0, Res.ok_bind]; rfl, by change b0.toNat = b0.toNat + 256 * 0; omega⟩
  · match bytes, hl with
    | [b0, b1], _ =>
      have h0 := hr 0 b0 rfl
      have h1 := hr 1 b1 rfl
      exact ⟨_, by simp only [deserialize, deserializeU16Le, h0, h1, Res.ok_bind]; rfl, or16 b0 b1⟩
  · match bytes, hl with
    | [b0, b1], _ =>
      have h0 := hr 0 b0 rfl
      have h1 := hr 1 b1 rfl
      exact ⟨_, by simp only [deserialize, deserializeU16Be, h0, h1, Res.ok_bind]; rfl, or16 b1 b0⟩
  · match bytes, hl with
    | [b0, b1, b2, b3], _ =>
      have h0 := hr 0 b0 rfl
      have h1 := hr 1 b1 rfl
      have h2 := hr 2 b2 rfl
      have h3 := hr 3 b3 rfl
      exact ⟨_, by simp only [deserialize, deserializeU32Le, h0, h1, h2, h3, Res.ok_bind]; rfl, or32 b0 b1 b2 b3⟩
  · match bytes, hl with
    | [b0, b1, b2, b3], _ =>
      have h0 := hr 0 b0 rfl
      have h1 := hr 1 b1 rfl
      have h2 := hr 2 b2 rfl
      have h3 := hr 3 b3 rfl
      exact ⟨_, by simp only [deserialize, deserializeU32Be, h0, h1, h2, h3, Res.ok_bind]; rfl, or32 b3 b2 b1 b0⟩
  · match bytes, hl with
    | [b0, b1, b2, b3, b4, b5, b6, b7], _ =>
      have h0 := hr 0 b0 rfl
      have h1 := hr 1 b1 rfl
      have h2 := hr 2 b2 rfl
      have h3 := hr 3 b3 rfl
      have h4 := hr 4 b4 rfl
      have h5 := hr 5 b5 rfl
      have h6 := hr 6 b6 rfl
      have h7 := hr 7 b7 rfl
      exact ⟨_, by simp only [deserialize, deserializeU64Le, h0, h1, h2, h3, h4, h5, h6, h7, Res.ok_bind]; rfl, or64 b0 b1 b2 b3 b4 b5 b6 b7⟩
  · match bytes, hl with
    | [b0, b1, b2, b3, b4, b5, b6, b7], _ =>
      have h0 := hr 0 b0 rfl
      have h1 := hr 1 b1 rfl
      have h2 := hr 2 b2 rfl
      have h3 := hr 3 b3 rfl
      have h4 := hr 4 b4 rfl
      have h5 := hr 5 b5 rfl
      have h6 := hr 6 b6 rfl
      have h7 := hr 7 b7 rfl
      exact ⟨_, by simp only [deserialize, deserializeU64Be, h0, h1, h2, h3, h4, h5, h6, h7, Res.ok_bind]; rfl, or64 b7 b6 b5 b4 b3 b2 b1 b0⟩

theorem deserializeS_gnu (f : Format) (buf : Mem) (off : Nat) : deserializeS true f buf off = deserialize f buf off := by
  cases f <;> simp [deserializeS, deserialize, deserializeI8, deserializeU8, deserializeI16Le, deserializeU16Le,
    deserializeI16Be, deserializeU16Be, deserializeI32Le, deserializeU32Le, deserializeI32Be, deserializeU32Be,
    deserializeI64Le, deserializeU64Le, deserializeI64Be, deserializeU64Be, shlS] <;> rfl

theorem toInt_setWidth (b : BitVec 8) (hw : 8 < w) : (b.setWidth w).toInt = b.toNat := by
  have h := b.isLt
  have h1 : (2 : Nat) ^ 9 ≤ 2 ^ w := Nat.pow_le_pow_right (by norm_num) hw
  rw [BitVec.toInt_eq_toNat_cond, BitVec.toNat_setWidth, Nat.mod_eq_of_lt (by omega), if_pos (by omega)]

theorem shlS_low (gnu : Bool) (b : BitVec 8) (k : Nat) (hk : k + 8 < w) :
    shlS gnu (b.setWidth w) k = .ok (b.setWidth w <<< k) := by
  have h := b.isLt
  rw [shlS, if_pos]
  refine ⟨by omega, Or.inr ?_⟩
  rw [toInt_setWidth b (by omega)]
  refine ⟨by omega, ?_⟩
  have : b.toNat * 2 ^ k < 2 ^ (w - 1) := by
    calc b.toNat * 2 ^ k < 2 ^ 8 * 2 ^ k := Nat.mul_lt_mul_of_pos_right h (by positivity)
      _ = 2 ^ (k + 8) := by ring
      _ ≤ 2 ^ (w - 1) := Nat.pow_le_pow_right (by norm_num) (by omega)
  exact_mod_cast this

theorem shlS_top32 (b : BitVec 8) :
    shlS false (b.setWidth 32) 24 = if b.toNat < 128 then .ok (b.setWidth 32 <<< 24) else .ub := by
  rw [shlS, toInt_setWidth b (by decide)]
  by_cases h : b.toNat < 128
  · rw [if_pos ⟨by decide, Or.inr ⟨by omega, by norm_num; omega⟩⟩, if_pos h]
  · rw [if_neg (by simp; omega), if_neg h]

theorem shlS_top64 (b : BitVec 8) :
    shlS false (b.setWidth 64) 56 = if b.toNat < 128 then .ok (b.setWidth 64 <<< 56) else .ub := by
  rw [shlS, toInt_setWidth b (by decide)]
  by_cases h : b.toNat < 128
  · rw [if_pos ⟨by decide, Or.inr ⟨by omega, by norm_num; omega⟩⟩, if_pos h]
  · rw [if_neg (by simp; omega), if_neg h]

theorem deserializeS_eq (f : Format) (buf : Mem) (off : Nat) (bytes : List (BitVec 8)) (hl : bytes.length = f.size)
    (h : (buf.drop off).take f.size = bytes) :
    deserializeS false f buf off =
      if f.size ≤ 2 ∨ val (f.ordered bytes) < 2 ^ (f.width - 1) then deserialize f buf off else .ub := by
  rw [← hl] at h
  have hr := fun i b hi => rd_eq buf off i bytes h b hi
  clear h
  cases f
  · rw [if_pos (Or.inl (by decide))]
    simp [deserializeS, deserializeI8, deserialize, deserializeU8]
    rfl
  · rw [if_pos (Or.inl (by decide))]
    simp [deserializeS, deserializeI16Le, deserialize, deserializeU16Le, shlS_low false _ 8 (show 8 + 8 < 32 by decide)]
    rfl
  · rw [if_pos (Or.inl (by decide))]
    simp [deserializeS, deserializeI16Be, deserialize, deserializeU16Be, shlS_low false _ 8 (show 8 + 8 < 32 by decide)]
    rfl
  · match bytes, hl with
    | [b0, b1, b2, b3], _ =>
      have h0 := hr 0 b0 rfl
      have l0 := b0.isLt
      have h1 := hr 1 b1 rfl
      have l1 := b1.isLt
      have h2 := hr 2 b2 rfl
      have l2 := b2.isLt
      have h3 := hr 3 b3 rfl
      have l3 := b3.isLt
      have hv : val [b0, b1, b2, b3] < 2 ^ 31 ↔ b3.toNat < 128 := by simp only [val]; omega
      simp only [deserializeS, deserializeI32Le, deserialize, deserializeU32Le, h0, h1, h2, h3, Res.ok_bind, shlS_low false _ 8 (show 8 + 8 < 32 by decide), shlS_low false _ 16 (show 16 + 8 < 32 by decide),
        shlS_top32]
      by_cases ht : b3.toNat < 128
      · rw [if_pos ht]; exact (if_pos (Or.inr (hv.2 ht))).symm
      · rw [if_neg ht]
        refine (if_neg ?_).symm
        rintro (hc | hc)
        · exact absurd hc (by decide)
        · exact ht (hv.1 hc)
  · match bytes, hl with
    | [b0, b1, b2, b3], _ =>
      have h0 := hr 0 b0 rfl
      have l0 := b0.isLt
      have h1 := hr 1 b1 rfl
      have l1 := b1.isLt
      have h2 := hr 2 b2 rfl
      have l2 := b2.isLt
      have h3 := hr 3 b3 rfl
      have l3 := b3.isLt
      have hv : val [b3, b2, b1, b0] < 2 ^ 31 ↔ b0.toNat < 128 := by simp only [val]; omega
      simp only [deserializeS, deserializeI32Be, deserialize, deserializeU32Be, h0, h1, h2, h3, Res.ok_bind, shlS_low false _ 8 (show 8 + 8 < 32 by decide), shlS_low false _ 16 (show 16 + 8 < 32 by decide),
        shlS_top32]
      by_cases ht : b0.toNat < 128
      · rw [if_pos ht]; exact (if_pos (Or.inr (hv.2 ht))).symm
      · rw [if_neg ht]
        refine (if_neg ?_).symm
        rintro (hc | hc)
        · exact absurd hc (by decide)
        · exact ht (hv.1 hc)
  · match bytes, hl with
    | [b0, b1, b2, b3, b4, b5, b6, b7], _ =>
      have h0 := hr 0 b0 rfl
      have l0 := b0.isLt
      have h1 := hr 1 b1 rfl
      have l1 := b1.isLt
      have h2 := hr 2 b2 rfl
      have l2 := b2.isLt
      have h3 := hr 3 b3 rfl
      have l3 := b3.isLt
      have h4 := hr 4 b4 rfl
      have l4 := b4.isLt
      have h5 := hr 5 b5 rfl
      have l5 := b5.isLt
      have h6 := hr 6 b6 rfl
      have l6 := b6.isLt
      have h7 := hr 7 b7 rfl
      have l7 := b7.isLt
      have hv : val [b0, b1, b2, b3, b4, b5, b6, b7] < 2 ^ 63 ↔ b7.toNat < 128 := by simp only [val]; omega
      simp only [deserializeS, deserializeI64Le, deserialize, deserializeU64Le, h0, h1, h2, h3, h4, h5, h6, h7, Res.ok_bind, shlS_low false _ 8 (show 8 + 8 < 64 by decide), shlS_low false _ 16 (show 16 + 8 < 64 by decide), shlS_low false _ 24 (show 24 + 8 < 64 by decide), shlS_low false _ 32 (show 32 + 8 < 64 by decide), shlS_low false _ 40 (show 40 + 8 < 64 by decide), shlS_low false _ 48 (show 48 + 8 < 64 by decide),
        shlS_top64]
      by_cases ht : b7.toNat < 128
      · rw [if_pos ht]; exact (if_pos (Or.inr (hv.2 ht))).symm
      · rw [if_neg ht]
        refine (if_neg ?_).symm
        rintro (hc | hc)
        · exact absurd hc (by decide)
        · exact ht (hv.1 hc)
  · match bytes, hl with
    | [b0, b1, b2, b3, b4, b5, b6, b7], _ =>
      have h0 := hr 0 b0 rfl
      have l0 := b0.isLt
      have h1 := hr 1 b1 rfl
      have l1 := b1.isLt
      have h2 := hr 2 b2 rfl
      have l2 := b2.isLt
      have h3 := hr 3 b3 rfl
      have l3 := b3.isLt
      have h4 := hr 4 b4 rfl
      have l4 := b4.isLt
      have h5 := hr 5 b5 rfl
      have l5 := b5.isLt
      have h6 := hr 6 b6 rfl
      have l6 := b6.isLt
      have h7 := hr 7 b7 rfl
      have l7 := b7.isLt
      have hv : val [b7, b6, b5, b4, b3, b2, b1, b0] < 2 ^ 63 ↔ b0.toNat < 128 := by simp only [val]; omega
      simp only [deserializeS, deserializeI64Be, deserialize, deserializeU64Be, h0, h1, h2, h3, h4, h5, h6, h7, Res.ok_bind, shlS_low false _ 8 (show 8 + 8 < 64 by decide), shlS_low false _ 16 (show 16 + 8 < 64 by decide), shlS_low false _ 24 (show 24 + 8 < 64 by decide), shlS_low false _ 32 (show 32 + 8 < 64 by decide), shlS_low false _ 40 (show 40 + 8 < 64 by decide), shlS_low false _ 48 (show 48 + 8 < 64 by decide),
        shlS_top64]
      by_cases ht : b0.toNat < 128
      · rw [if_pos ht]; exact (if_pos (Or.inr (hv.2 ht))).symm
      · rw [if_neg ht]
        refine (if_neg ?_).symm
        rintro (hc | hc)
        · exact absurd hc (by decide)
        · exact ht (hv.1 hc)

theorem val_image (f : Format) (v : BitVec f.width) : val (f.ordered (image f v)) = v.toNat := by
  have h : f.ordered (image f v) = leBytes f.size v.toNat := by
    simp only [Format.ordered, image, beBytes]; split_ifs <;> simp
  rw [h, val_leBytes, Nat.mod_eq_of_lt]
  have h2 : v.toNat < 2 ^ (8 * f.size) := v.isLt
  rwa [pow_mul] at h2

theorem image_val (f : Format) (v : BitVec f.width) (bytes : List (BitVec 8)) (hl : bytes.length = f.size)
    (h : v.toNat = val (f.ordered bytes)) : image f v = bytes := by
  rw [image, h]
  simp only [Format.ordered, beBytes]
  split_ifs
  · rw [← hl, ← List.length_reverse, leBytes_val, List.reverse_reverse]
  · rw [← hl, leBytes_val]

theorem read_overwrite (buf l : Mem) (off : Nat) (h : off + l.length ≤ buf.length) :
    ((overwrite buf off l).drop off).take l.length = l := by
  have : off = (buf.take off).length := by simp; omega
  rw [overwrite, List.append_assoc]
  conv_lhs => enter [2, 1]; rw [this]
  simp

end Gel.Serial
