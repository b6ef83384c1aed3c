import Verif.Crc.Model
import Verif.Crc.Spec
import Mathlib.Algebra.CharP.Two
import Mathlib.Algebra.Polynomial.Coeff
import Mathlib.RingTheory.Ideal.Quotient.Defs
import Mathlib.RingTheory.Ideal.Span
import Mathlib.RingTheory.Coprime.Lemmas
import Mathlib.Algebra.Field.ZMod
import Mathlib.Tactic.Ring
import Mathlib.Tactic.LinearCombination
import Mathlib.Tactic.ComputeDegree

/-!
# Checksums: lemmas
-/
namespace Gel.Crc

open Polynomial Spec

/-! ## Bit sequences and polynomials -/

theorem add_self (p : (ZMod 2)[X]) : p + p = 0 := CharTwo.add_self_eq_zero p

theorem poly_append (a b : List Bool) : poly (a ++ b) = poly a * X ^ b.length + poly b := by
  induction a with
  | nil => simp [poly]
  | cons c a ih =>
    simp only [List.cons_append, poly, ih, List.length_append, pow_add]
    split_ifs <;> ring

theorem poly_xor (a b : List Bool) (h : a.length = b.length) : poly (List.zipWith xor a b) = poly a + poly b := by
  induction a generalizing b with
  | nil => cases b <;> simp_all [poly]
  | cons c a ih =>
    cases b with
    | nil => simp at h
    | cons d b =>
      simp only [List.length_cons, Nat.add_right_cancel_iff] at h
      simp only [List.zipWith_cons_cons, poly, ih b h, List.length_zipWith, h, Nat.min_self]
      cases c <;> cases d <;> simp
      · ring
      · ring
      · have := add_self (X ^ b.length)
        linear_combination (-1 : (ZMod 2)[X]) * this

theorem degree_poly (l : List Bool) : (poly l).degree < l.length := by
  induction l with
  | nil => simp [poly]
  | cons b l ih =>
    refine lt_of_le_of_lt (degree_add_le _ _) (max_lt ?_ ?_)
    · split_ifs
      · rw [degree_X_pow]; exact_mod_cast Nat.lt_succ_self _
      · simp
    · exact lt_trans ih (by exact_mod_cast Nat.lt_succ_self _)

theorem poly_eq_zero {l : List Bool} (h : poly l = 0) : l = List.replicate l.length false := by
  induction l with
  | nil => rfl
  | cons b l ih =>
    have hb : b = false := by
      cases b with
      | false => rfl
      | true =>
        simp only [poly, if_true] at h
        have h1 : (X ^ l.length : (ZMod 2)[X]) = - poly l := eq_neg_of_add_eq_zero_left h
        have h2 := degree_poly l
        rw [← degree_neg, ← h1, degree_X_pow] at h2
        exact absurd h2 (lt_irrefl _)
    subst hb
    simp only [poly, Bool.false_eq_true, if_false, zero_add] at h
    rw [List.length_cons, List.replicate_succ, ← ih h]

theorem poly_inj {a b : List Bool} (hl : a.length = b.length) (h : poly a = poly b) : a = b := by
  have h1 : poly (List.zipWith xor a b) = 0 := by rw [poly_xor a b hl, h, add_self]
  have h2 := poly_eq_zero h1
  apply List.ext_getElem hl
  intro i hi hi'
  have h3 : (List.zipWith xor a b)[i]? = (List.replicate (List.zipWith xor a b).length false)[i]? := by rw [← h2]
  rw [List.getElem?_eq_getElem (by simp; omega), List.getElem_zipWith, List.getElem?_replicate,
    if_pos (by simp; omega)] at h3
  simp at h3
  exact h3

theorem poly_replicate_false (n : Nat) : poly (List.replicate n false) = 0 := by
  induction n with
  | zero => rfl
  | succ n ih => simp [List.replicate_succ, poly, ih]

@[simp] theorem length_bits {w : Nat} (v : BitVec w) : (bits v).length = w := by simp [bits]

theorem bits_getElem? {w : Nat} (v : BitVec w) (i : Nat) : (bits v)[i]? = if i < w then some (v.getMsbD i) else none := by
  simp only [bits, List.getElem?_map]
  split_ifs with h
  · rw [List.getElem?_range h]; rfl
  · rw [List.getElem?_eq_none (by simp; omega)]; rfl

theorem bits_inj {w : Nat} {u v : BitVec w} (h : bits u = bits v) : u = v := by
  apply BitVec.eq_of_getMsbD_eq
  intro i hi
  have : (bits u)[i]? = (bits v)[i]? := by rw [h]
  rw [bits_getElem?, bits_getElem?, if_pos hi, if_pos hi] at this
  simpa using this

theorem bits_xor {w : Nat} (u v : BitVec w) : bits (u ^^^ v) = List.zipWith xor (bits u) (bits v) := by
  apply List.ext_getElem?
  intro i
  rw [List.getElem?_zipWith, bits_getElem?, bits_getElem?, bits_getElem?]
  split_ifs <;> simp

theorem poly_bits_xor {w : Nat} (u v : BitVec w) : poly (bits (u ^^^ v)) = poly (bits u) + poly (bits v) := by
  rw [bits_xor, poly_xor _ _ (by simp)]

/-- The most significant `k` bits and the rest. -/
theorem bits_split {w : Nat} (v : BitVec w) (k : Nat) (hk : k ≤ w) :
    bits v = bits (v.extractLsb' (w - k) k) ++ bits (v.extractLsb' 0 (w - k)) := by
  apply List.ext_getElem?
  intro i
  rw [List.getElem?_append, bits_getElem?, bits_getElem?, bits_getElem?, length_bits]
  split_ifs <;> try omega
  · rename_i h1 h2
    simp only [BitVec.getMsbD, BitVec.getLsbD_extractLsb', Option.some.injEq]
    have e : w - k + (k - 1 - i) = w - 1 - i := by omega
    have e1 : k - 1 - i < k := by omega
    simp [h1, h2, e, e1]
  · rename_i h1 h2 h3
    simp only [BitVec.getMsbD, BitVec.getLsbD_extractLsb', Option.some.injEq]
    have e : 0 + (w - k - 1 - (i - k)) = w - 1 - i := by omega
    have e1 : w - k - 1 - (i - k) < w - k := by omega
    simp [h1, h3, e, e1]
  · rfl

theorem bits_shiftLeft {w : Nat} (v : BitVec w) (k : Nat) (hk : k ≤ w) :
    bits (v <<< k) = bits (v.extractLsb' 0 (w - k)) ++ List.replicate k false := by
  apply List.ext_getElem?
  intro i
  rw [List.getElem?_append, bits_getElem?, bits_getElem?, length_bits, List.getElem?_replicate]
  split_ifs <;> try omega
  · rename_i h1 h2
    rw [BitVec.getMsbD_shiftLeft]
    simp only [BitVec.getMsbD, BitVec.getLsbD_extractLsb', Option.some.injEq]
    have e : 0 + (w - k - 1 - i) = w - 1 - (i + k) := by omega
    have e1 : w - k - 1 - i < w - k := by omega
    have e2 : i + k < w := by omega
    simp [h1, h2, e, e1, e2]
  · rename_i h1 h2 h3
    rw [BitVec.getMsbD_shiftLeft]
    simp [BitVec.getMsbD_of_ge _ _ (show w ≤ i + k by omega)]
  · rfl

/-! ## One bit of the division -/

/-- Multiplication by X and reduction, on registers: the bitwise algorithm. -/
def step1 {w : Nat} (p r : BitVec w) : BitVec w := (r <<< 1) ^^^ (if r.msb then p else 0#w)

variable {w : Nat} (p : BitVec w)

/-- The polynomial of degree `w` with lower coefficients `p`. -/
noncomputable def gen : (ZMod 2)[X] := X ^ w + poly (bits p)

/-- Residues modulo the generator. -/
noncomputable abbrev φ : (ZMod 2)[X] →+* (ZMod 2)[X] ⧸ Ideal.span {gen p} := Ideal.Quotient.mk (Ideal.span {gen p})

theorem φ_eq {a b : (ZMod 2)[X]} : φ p a = φ p b ↔ gen p ∣ a - b := by
  rw [Ideal.Quotient.eq, Ideal.mem_span_singleton]

theorem φ_gen : φ p (gen p) = 0 := Ideal.Quotient.eq_zero_iff_mem.2 (Ideal.mem_span_singleton_self _)

theorem gen_monic : (gen p).Monic := monic_X_pow_add (by simpa using degree_poly (bits p))

theorem gen_degree : (gen p).degree = w := by
  rw [gen, degree_add_eq_left_of_degree_lt, degree_X_pow]
  rw [degree_X_pow]; simpa using degree_poly (bits p)

theorem poly_bits_zero : poly (bits (0#w)) = 0 := by
  have : bits (0#w) = List.replicate w false := by
    apply List.ext_getElem?
    intro i
    rw [bits_getElem?, List.getElem?_replicate]
    split_ifs <;> simp
  rw [this, poly_replicate_false]

theorem bits_msb (hw : 0 < w) (r : BitVec w) : bits r = r.msb :: bits (r.extractLsb' 0 (w - 1)) := by
  rw [bits_split r 1 hw, show bits (r.extractLsb' (w - 1) 1) = [r.msb] from ?_]
  · rfl
  · simp [bits, List.range_succ, BitVec.getMsbD, BitVec.msb, hw, BitVec.getLsbD_extractLsb']

theorem φ_step1 (hw : 0 < w) (r : BitVec w) : φ p (poly (bits (step1 p r))) = φ p (X * poly (bits r)) := by
  rw [step1, poly_bits_xor, bits_shiftLeft r 1 hw, poly_append, bits_msb hw r]
  simp only [poly, List.length_replicate, poly_replicate_false, length_bits, add_zero, pow_one]
  rw [φ_eq]
  cases r.msb with
  | false =>
    simp only [Bool.false_eq_true, if_false, poly_bits_zero]
    ring_nf; simp
  | true =>
    simp only [if_true]
    have hpow : (X : (ZMod 2)[X]) * X ^ (w - 1) = X ^ w := by rw [← pow_succ']; congr 1; omega
    refine ⟨1, ?_⟩
    rw [gen, mul_add, hpow]
    have h2 := add_self (X ^ w : (ZMod 2)[X])
    linear_combination (-1 : (ZMod 2)[X]) * h2

theorem φ_steps (hw : 0 < w) (k : Nat) (r : BitVec w) :
    φ p (poly (bits ((step1 p)^[k] r))) = φ p (X ^ k * poly (bits r)) := by
  induction k generalizing r with
  | zero => simp
  | succ k ih =>
    rw [Function.iterate_succ_apply, ih, map_mul, φ_step1 p hw, ← map_mul]
    exact congrArg (φ p) (by ring)

/-! ## Tables -/

/-- A correct table entry: the remainder of the index times X^w. -/
def TableOk (table : List (BitVec w)) : Prop :=
  ∀ b : BitVec 8, table[b.toNat]? = some ((step1 p)^[8] (b.setWidth w <<< (w - 8)))

theorem bits_setWidth_shift (hw : 8 ≤ w) (b : BitVec 8) :
    bits (b.setWidth w <<< (w - 8)) = bits b ++ List.replicate (w - 8) false := by
  rw [bits_shiftLeft _ _ (by omega)]
  congr 1
  rw [show w - (w - 8) = 8 by omega]
  congr 1
  ext i hi
  simp [BitVec.getElem_extractLsb', BitVec.getLsbD_setWidth]
  rw [BitVec.getLsbD_eq_getElem hi]
  simp; omega

/-- The update of the register by one byte, against the polynomials. -/
theorem φ_update (hw : 8 ≤ w) (table : List (BitVec w)) (ht : TableOk p table) (crc : BitVec w) (b : BitVec 8) :
    ∃ t, table[(crc.extractLsb' (w - 8) 8 ^^^ b).toNat]? = some t ∧
      φ p (poly (bits ((crc <<< 8) ^^^ t))) = φ p (X ^ 8 * poly (bits crc) + X ^ w * poly (bits b)) := by
  refine ⟨_, ht _, ?_⟩
  rw [poly_bits_xor, map_add, φ_steps p (by omega), bits_shiftLeft crc 8 hw, bits_setWidth_shift hw, bits_split crc 8 hw,
    poly_append, poly_append, poly_append, poly_bits_xor]
  simp only [List.length_replicate, poly_replicate_false, length_bits, add_zero, ← map_add]
  refine congrArg (φ p) ?_
  have : (X : (ZMod 2)[X]) ^ w = X ^ 8 * X ^ (w - 8) := by rw [← pow_add]; congr 1; omega
  rw [this]; ring

/-- Processing a message with a correct byte update. -/
def fold (upd : BitVec w → BitVec 8 → BitVec w) : List (BitVec 8) → BitVec w → BitVec w
  | [], c => c
  | b :: m, c => fold upd m (upd c b)

theorem fold_append (upd : BitVec w → BitVec 8 → BitVec w) (m n : List (BitVec 8)) (c : BitVec w) :
    fold upd (m ++ n) c = fold upd n (fold upd m c) := by
  induction m generalizing c with
  | nil => rfl
  | cons b m ih => exact ih _

/-- A byte update that acts on residues as it should. -/
def UpdOk (upd : BitVec w → BitVec 8 → BitVec w) : Prop :=
  ∀ c b, φ p (poly (bits (upd c b))) = φ p (X ^ 8 * poly (bits c) + X ^ w * poly (bits b))

@[simp] theorem length_msgBits (m : List (BitVec 8)) : (msgBits m).length = 8 * m.length := by
  induction m with
  | nil => rfl
  | cons b m ih => simp [msgBits] at ih ⊢; omega

theorem φ_fold {upd : BitVec w → BitVec 8 → BitVec w} (hu : UpdOk p upd) (m : List (BitVec 8)) (c : BitVec w) :
    φ p (poly (bits (fold upd m c))) = φ p (poly (bits c) * X ^ (8 * m.length) + poly (msgBits m) * X ^ w) := by
  induction m generalizing c with
  | nil => simp [fold, msgBits, poly]
  | cons b m ih =>
    rw [fold, ih, map_add, map_mul, hu c b, ← map_mul, ← map_add]
    refine congrArg (φ p) ?_
    have : msgBits (b :: m) = bits b ++ msgBits m := rfl
    rw [this, poly_append, length_msgBits, List.length_cons, Nat.mul_succ, pow_add]
    ring

/-- A register determined by its residue. -/
theorem eq_mod {f : (ZMod 2)[X]} {r : BitVec w} (h : φ p (poly (bits r)) = φ p f) : poly (bits r) = f %ₘ gen p := by
  obtain ⟨q, hq⟩ := (φ_eq p).1 h.symm
  have := (div_modByMonic_unique (f := f) q (poly (bits r)) (gen_monic p)
    ⟨by linear_combination (-1 : (ZMod 2)[X]) * hq, by rw [gen_degree]; simpa using degree_poly (bits r)⟩).2
  exact this.symm

theorem fold_mod {upd : BitVec w → BitVec 8 → BitVec w} (hu : UpdOk p upd) (m : List (BitVec 8)) (c : BitVec w) :
    poly (bits (fold upd m c)) = (poly (bits c) * X ^ (8 * m.length) + poly (msgBits m) * X ^ w) %ₘ gen p :=
  eq_mod p (φ_fold p hu m c)

/-! ## Detection of errors -/

/-- Two equally long messages with the same checksum differ by a multiple of the generator. -/
theorem same_crc {upd : BitVec w → BitVec 8 → BitVec w} (hu : UpdOk p upd) (hc : IsCoprime (gen p) X)
    {m n : List (BitVec 8)} (hl : m.length = n.length) (c : BitVec w) :
    fold upd m c = fold upd n c ↔ gen p ∣ poly (List.zipWith xor (msgBits m) (msgBits n)) := by
  have hlen : (msgBits m).length = (msgBits n).length := by simp [hl]
  rw [poly_xor _ _ hlen]
  have key : gen p ∣ poly (msgBits m) + poly (msgBits n) ↔
      φ p (poly (bits (fold upd m c))) = φ p (poly (bits (fold upd n c))) := by
    rw [φ_fold p hu, φ_fold p hu, φ_eq, hl]
    have e : poly (bits c) * X ^ (8 * n.length) + poly (msgBits m) * X ^ w -
        (poly (bits c) * X ^ (8 * n.length) + poly (msgBits n) * X ^ w) =
        (poly (msgBits m) + poly (msgBits n)) * X ^ w := by
      have := add_self (poly (msgBits n))
      linear_combination (-(X : (ZMod 2)[X]) ^ w) * this
    rw [e]
    exact ⟨fun h => h.mul_right _, fun h => (hc.pow_right (n := w)).dvd_of_dvd_mul_right h⟩
  rw [key]
  constructor
  · intro h; rw [h]
  · intro h
    apply bits_inj
    apply poly_inj (by simp)
    have h1 := eq_mod p h
    rw [h1, modByMonic_eq_self_iff (gen_monic p), gen_degree]
    simpa using degree_poly (bits (fold upd n c))

theorem not_dvd_small {l : List Bool} (hl : l.length ≤ w) (h : poly l ≠ 0) : ¬ gen p ∣ poly l := by
  intro hd
  have h1 := degree_le_of_dvd hd h
  rw [gen_degree] at h1
  have h2 := degree_poly l
  have h3 : (l.length : WithBot ℕ) ≤ w := by exact_mod_cast hl
  exact absurd (lt_of_lt_of_le h2 h3) (not_lt_of_ge h1)

end Gel.Crc
