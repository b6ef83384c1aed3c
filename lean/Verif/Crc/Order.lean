import Verif.Crc.Lemmas
import Mathlib.GroupTheory.OrderOfElement
import Mathlib.Tactic.NormNum.Prime

/-!
# Checksums: the two generators

The tables are correct, the generators are the standard polynomials and the order of X modulo each of them.
-/
namespace Gel.Crc

open Polynomial Spec

/-- The lower coefficients of the CCITT polynomial. -/
def p16 : BitVec 16 := 0x1021
/-- The lower coefficients of the IEEE 802.3 polynomial. -/
def p32 : BitVec 32 := 0x04c11db7

theorem gen16 : gen p16 = P16 := by
  have : bits p16 = [false, false, false, true, false, false, false, false, false, false, true, false, false, false, false,
    true] := by decide
  rw [gen, this]
  simp [poly, P16]; ring

theorem gen32 : gen p32 = P32 := by
  have : bits p32 = [false, false, false, false, false, true, false, false, true, true, false, false, false, false, false,
    true, false, false, false, true, true, true, false, true, true, false, true, true, false, true, true, true] := by
    decide
  rw [gen, this]
  simp [poly, P32]; ring

theorem coprime16 : IsCoprime (gen p16) X := by
  rw [gen16]
  exact ⟨1, -(X ^ 15 + X ^ 11 + X ^ 4), by rw [P16]; ring⟩

theorem coprime32 : IsCoprime (gen p32) X := by
  rw [gen32]
  exact ⟨1, -(X ^ 31 + X ^ 25 + X ^ 22 + X ^ 21 + X ^ 15 + X ^ 11 + X ^ 10 + X ^ 9 + X ^ 7 + X ^ 6 + X ^ 4 + X ^ 3 +
    X + 1), by rw [P32]; ring⟩

theorem table16_ok : TableOk p16 crc16Table := by
  have h : crc16Table = (List.range 256).map
      fun i => (step1 p16)^[8] ((BitVec.ofNat 8 i).setWidth 16 <<< (16 - 8)) := by decide +kernel
  intro b
  rw [h, List.getElem?_map, List.getElem?_range b.isLt]
  simp

theorem table32_ok : TableOk p32 crc32Table := by
  have h : crc32Table = (List.range 256).map
      fun i => (step1 p32)^[8] ((BitVec.ofNat 8 i).setWidth 32 <<< (32 - 8)) := by decide +kernel
  intro b
  rw [h, List.getElem?_map, List.getElem?_range b.isLt]
  simp

/-- What the loop body of `crc16_ccitt` computes. -/
def upd16 (c : BitVec 16) (b : BitVec 8) : BitVec 16 :=
  (c <<< 8) ^^^ (crc16Table[(c.extractLsb' 8 8 ^^^ b).toNat]?).getD 0

/-- What the loop body of `crc32` computes. -/
def upd32 (c : BitVec 32) (b : BitVec 8) : BitVec 32 :=
  (c <<< 8) ^^^ (crc32Table[(c.extractLsb' 24 8 ^^^ b).toNat]?).getD 0

theorem upd16_ok : UpdOk p16 upd16 := by
  intro c b
  obtain ⟨t, h1, h2⟩ := φ_update p16 (by decide) crc16Table table16_ok c b
  rw [upd16, h1]; exact h2

theorem upd32_ok : UpdOk p32 upd32 := by
  intro c b
  obtain ⟨t, h1, h2⟩ := φ_update p32 (by decide) crc32Table table32_ok c b
  rw [upd32, h1]; exact h2

theorem crc16Step_eq (c : BitVec 16) (b : BitVec 8) : crc16Step c b = .ok (upd16 c b) := by
  have hi : ((c >>> 8) ^^^ b.setWidth 16).toNat = (c.extractLsb' 8 8 ^^^ b).toNat := by
    have : (c >>> 8) ^^^ b.setWidth 16 = (c.extractLsb' 8 8 ^^^ b).setWidth 16 := by
      ext i hi
      simp [BitVec.getLsbD_setWidth, BitVec.getLsbD_extractLsb']
      by_cases h8 : i < 8
      · simp [h8]
      · simp [h8, BitVec.getLsbD_of_ge _ _ (show 16 ≤ 8 + i by omega), BitVec.getLsbD_of_ge b i (by omega)]
    rw [this, BitVec.toNat_setWidth, Nat.mod_eq_of_lt]
    have := (c.extractLsb' 8 8 ^^^ b).isLt
    omega
  obtain ⟨t, h1, -⟩ := φ_update p16 (by decide) crc16Table table16_ok c b
  simp only [crc16Step, rd, hi, upd16]
  rw [show (16 - 8) = 8 from rfl] at h1
  rw [h1]; rfl

theorem crc32Step_eq (c : BitVec 32) (b : BitVec 8) : crc32Step c b = .ok (upd32 c b) := by
  have hi : (((c >>> 24) ^^^ b.setWidth 32) &&& 255).toNat = (c.extractLsb' 24 8 ^^^ b).toNat := by
    have : ((c >>> 24) ^^^ b.setWidth 32) &&& 255 = (c.extractLsb' 24 8 ^^^ b).setWidth 32 := by
      have h255 : ∀ i (_ : i < 32), (255#32)[i] = decide (i < 8) := by decide
      ext i hi
      have := h255 i hi
      simp [BitVec.getLsbD_setWidth, BitVec.getLsbD_extractLsb']
      by_cases h8 : i < 8
      · simp [h8, this]
      · simp [h8, this, BitVec.getLsbD_of_ge b i (by omega)]
    rw [this, BitVec.toNat_setWidth, Nat.mod_eq_of_lt]
    have := (c.extractLsb' 24 8 ^^^ b).isLt
    omega
  obtain ⟨t, h1, -⟩ := φ_update p32 (by decide) crc32Table table32_ok c b
  simp only [crc32Step, rd, hi, upd32]
  rw [show (32 - 8) = 24 from rfl] at h1
  rw [h1]; rfl

theorem crc16_eq (block : List (BitVec 8)) (len : Nat) (c : BitVec 16) (h : len ≤ block.length) :
    crc16 block len c = .ok (fold upd16 (block.take len) c) := by
  have key : ∀ cnt i c, i + cnt ≤ block.length →
      crc16Loop block i cnt c = .ok (fold upd16 ((block.drop i).take cnt) c) := by
    intro cnt
    induction cnt with
    | zero => intro i c _; simp [crc16Loop, fold]
    | succ cnt ih =>
      intro i c hi
      have hb : block[i]? = some block[i] := List.getElem?_eq_getElem (by omega)
      simp only [crc16Loop, rd, hb, Res.ok_bind, crc16Step_eq]
      rw [ih (i + 1) _ (by omega), List.drop_eq_getElem_cons (show i < block.length by omega), List.take_succ_cons, fold]
  rw [crc16]
  simpa using key len 0 c (by omega)

theorem crc32_eq (buf : List (BitVec 8)) (len : Nat) (c : BitVec 32) (h : len ≤ buf.length) :
    crc32 buf len c = .ok (fold upd32 (buf.take len) c) := by
  have key : ∀ cnt i c, i + cnt ≤ buf.length →
      crc32Loop buf i cnt c = .ok (fold upd32 ((buf.drop i).take cnt) c) := by
    intro cnt
    induction cnt with
    | zero => intro i c _; simp [crc32Loop, fold]
    | succ cnt ih =>
      intro i c hi
      have hb : buf[i]? = some buf[i] := List.getElem?_eq_getElem (by omega)
      simp only [crc32Loop, rd, hb, Res.ok_bind, crc32Step_eq]
      rw [ih (i + 1) _ (by omega), List.drop_eq_getElem_cons (show i < buf.length by omega), List.take_succ_cons, fold]
  rw [crc32]
  simpa using key len 0 c (by omega)

/-! ## Powers of X -/

variable {w : Nat} (p : BitVec w)

/-- Multiplication modulo the generator, on registers. -/
def mulmod (u v : BitVec w) : BitVec w :=
  (bits v).foldl (fun acc b => step1 p acc ^^^ (if b then u else 0#w)) 0#w

theorem φ_mulmod (hw : 0 < w) (u v : BitVec w) :
    φ p (poly (bits (mulmod p u v))) = φ p (poly (bits u)) * φ p (poly (bits v)) := by
  have key : ∀ (l : List Bool) (acc : BitVec w),
      φ p (poly (bits (l.foldl (fun acc b => step1 p acc ^^^ (if b then u else 0#w)) acc))) =
        φ p (poly (bits acc)) * φ p (X ^ l.length) + φ p (poly (bits u)) * φ p (poly l) := by
    intro l
    induction l with
    | nil => intro acc; simp [poly]
    | cons b l ih =>
      intro acc
      rw [List.foldl_cons, ih, poly_bits_xor, map_add, φ_step1 p hw]
      simp only [List.length_cons, poly, map_add, map_mul, pow_succ]
      cases b
      · simp [poly_bits_zero]; ring
      · simp; ring
  rw [mulmod, key, poly_bits_zero]
  simp

/-- X to the power with binary digits `l` (most significant first), on registers. -/
def pw (l : List Bool) (acc : BitVec w) : BitVec w :=
  l.foldl (fun acc b => if b then step1 p (mulmod p acc acc) else mulmod p acc acc) acc

/-- The number with binary digits `l` appended to `n`. -/
def natOf (l : List Bool) (n : Nat) : Nat := l.foldl (fun n b => 2 * n + b.toNat) n

theorem φ_pw (hw : 0 < w) (l : List Bool) (acc : BitVec w) (n : Nat) (h : φ p (poly (bits acc)) = φ p X ^ n) :
    φ p (poly (bits (pw p l acc))) = φ p X ^ natOf l n := by
  induction l generalizing acc n with
  | nil => exact h
  | cons b l ih =>
    rw [pw, List.foldl_cons, natOf, List.foldl_cons]
    apply ih
    cases b
    · simp only [Bool.false_eq_true, if_false, Bool.toNat_false, φ_mulmod p hw, h]; ring
    · simp only [if_true, Bool.toNat_true, φ_step1 p hw, map_mul, φ_mulmod p hw, h]; ring

theorem poly_bits_one (hw : 0 < w) : poly (bits (1#w)) = 1 := by
  have : bits (1#w) = List.replicate (w - 1) false ++ [true] := by
    apply List.ext_getElem?
    intro i
    rw [List.getElem?_append, bits_getElem?, List.getElem?_replicate, List.length_replicate]
    split_ifs <;> try omega
    · simp [BitVec.getMsbD]; omega
    · have : i = w - 1 := by omega
      subst this
      simp [BitVec.getMsbD, hw]
    · symm; simp; omega
  rw [this, poly_append, poly_replicate_false]
  simp [poly]

theorem φ_pow_eq_one (hw : 0 < w) (l : List Bool) : φ p X ^ natOf l 0 = 1 ↔ pw p l 1#w = 1#w := by
  have h := φ_pw p hw l 1#w 0 (by simp [poly_bits_one hw])
  constructor
  · intro h1
    have h2 : φ p (poly (bits (pw p l 1#w))) = φ p (poly (bits (1#w))) := by rw [h, h1, poly_bits_one hw, map_one]
    apply bits_inj
    apply poly_inj (by simp)
    rw [eq_mod p h2, modByMonic_eq_self_iff (gen_monic p), gen_degree]
    simpa using degree_poly (bits (1#w))
  · intro h1
    rw [← h, h1, poly_bits_one hw, map_one]

/-- The binary digits of `n`, most significant first. -/
def digits (k n : Nat) : List Bool := ((List.range k).map fun i => n.testBit i).reverse

theorem order16 : orderOf (φ p16 X) = 32767 := by
  apply orderOf_eq_of_pow_and_pow_div_prime (by decide)
  · have h := (φ_pow_eq_one p16 (by decide) (digits 15 32767)).2 (by decide +kernel)
    rwa [show natOf (digits 15 32767) 0 = 32767 by decide +kernel] at h
  · intro q hq hd
    have h7 : (32767 : ℕ) = 7 * (31 * 151) := by norm_num
    rw [h7, hq.dvd_mul, hq.dvd_mul] at hd
    rcases hd with hd | hd | hd
    · have : q = 7 := (Nat.prime_dvd_prime_iff_eq hq (by norm_num)).1 hd
      subst this
      have h := (φ_pow_eq_one p16 (by decide) (digits 15 4681)).not.2 (by decide +kernel)
      rwa [show natOf (digits 15 4681) 0 = 32767 / 7 by decide +kernel] at h
    · have : q = 31 := (Nat.prime_dvd_prime_iff_eq hq (by norm_num)).1 hd
      subst this
      have h := (φ_pow_eq_one p16 (by decide) (digits 15 1057)).not.2 (by decide +kernel)
      rwa [show natOf (digits 15 1057) 0 = 32767 / 31 by decide +kernel] at h
    · have : q = 151 := (Nat.prime_dvd_prime_iff_eq hq (by norm_num)).1 hd
      subst this
      have h := (φ_pow_eq_one p16 (by decide) (digits 15 217)).not.2 (by decide +kernel)
      rwa [show natOf (digits 15 217) 0 = 32767 / 151 by decide +kernel] at h

theorem order32 : orderOf (φ p32 X) = 4294967295 := by
  apply orderOf_eq_of_pow_and_pow_div_prime (by decide)
  · have h := (φ_pow_eq_one p32 (by decide) (digits 32 4294967295)).2 (by decide +kernel)
    rwa [show natOf (digits 32 4294967295) 0 = 4294967295 by decide +kernel] at h
  · intro q hq hd
    have h7 : (4294967295 : ℕ) = 3 * (5 * (17 * (257 * 65537))) := by norm_num
    rw [h7, hq.dvd_mul, hq.dvd_mul, hq.dvd_mul, hq.dvd_mul] at hd
    rcases hd with hd | hd | hd | hd | hd
    · have : q = 3 := (Nat.prime_dvd_prime_iff_eq hq (by norm_num)).1 hd
      subst this
      have h := (φ_pow_eq_one p32 (by decide) (digits 32 1431655765)).not.2 (by decide +kernel)
      rwa [show natOf (digits 32 1431655765) 0 = 4294967295 / 3 by decide +kernel] at h
    · have : q = 5 := (Nat.prime_dvd_prime_iff_eq hq (by norm_num)).1 hd
      subst this
      have h := (φ_pow_eq_one p32 (by decide) (digits 32 858993459)).not.2 (by decide +kernel)
      rwa [show natOf (digits 32 858993459) 0 = 4294967295 / 5 by decide +kernel] at h
    · have : q = 17 := (Nat.prime_dvd_prime_iff_eq hq (by norm_num)).1 hd
      subst this
      have h := (φ_pow_eq_one p32 (by decide) (digits 32 252645135)).not.2 (by decide +kernel)
      rwa [show natOf (digits 32 252645135) 0 = 4294967295 / 17 by decide +kernel] at h
    · have : q = 257 := (Nat.prime_dvd_prime_iff_eq hq (by norm_num)).1 hd
      subst this
      have h := (φ_pow_eq_one p32 (by decide) (digits 32 16711935)).not.2 (by decide +kernel)
      rwa [show natOf (digits 32 16711935) 0 = 4294967295 / 257 by decide +kernel] at h
    · have : q = 65537 := (Nat.prime_dvd_prime_iff_eq hq (by norm_num)).1 hd
      subst this
      have h := (φ_pow_eq_one p32 (by decide) (digits 32 65535)).not.2 (by decide +kernel)
      rwa [show natOf (digits 32 65535) 0 = 4294967295 / 65537 by decide +kernel] at h

end Gel.Crc
