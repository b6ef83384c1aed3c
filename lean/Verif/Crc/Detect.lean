import Verif.Crc.Order

/-!
# Checksums: lemmas on error patterns
-/
namespace Gel.Crc

open Polynomial Spec

theorem diff_getElem? {a b : List Bool} (h : a.length = b.length) (i : Nat) :
    (List.zipWith xor a b)[i]? = some true ↔ a[i]? ≠ b[i]? := by
  rw [List.getElem?_zipWith]
  by_cases hi : i < a.length
  · rw [List.getElem?_eq_getElem hi, List.getElem?_eq_getElem (h ▸ hi)]; simp
  · rw [List.getElem?_eq_none (by omega), List.getElem?_eq_none (by omega)]; simp

theorem msgBits_inj {m n : List (BitVec 8)} (h : msgBits m = msgBits n) : m = n := by
  induction m generalizing n with
  | nil =>
    cases n with
    | nil => rfl
    | cons b n => have := congrArg List.length h; simp at this
  | cons a m ih =>
    cases n with
    | nil => have := congrArg List.length h; simp at this
    | cons b n =>
      simp only [msgBits, List.flatMap_cons] at h
      obtain ⟨h1, h2⟩ := List.append_inj h (by simp)
      rw [bits_inj h1, ih h2]

theorem poly_no_true {l : List Bool} (h : ∀ i : Nat, l[i]? ≠ some true) : poly l = 0 := by
  have : l = List.replicate l.length false := by
    apply List.eq_replicate_iff.2 ⟨rfl, ?_⟩
    intro b hb
    obtain ⟨i, hi⟩ := List.mem_iff_getElem?.1 hb
    cases b
    · rfl
    · exact absurd hi (h i)
  rw [this, poly_replicate_false]

/-- A pattern confined to a window is the pattern in the window, shifted. -/
theorem poly_window {d : List Bool} (s w : Nat) (h : ∀ i, i < s ∨ s + w ≤ i → d[i]? ≠ some true) :
    poly d = poly ((d.drop s).take w) * X ^ (d.length - s - w) := by
  have e : d = d.take s ++ ((d.drop s).take w ++ (d.drop s).drop w) := by rw [List.take_append_drop, List.take_append_drop]
  conv_lhs => rw [e]
  rw [poly_append, poly_append, poly_no_true (l := d.take s), poly_no_true (l := (d.drop s).drop w)]
  · simp [Nat.sub_sub]
  · intro i hi
    rw [List.getElem?_drop, List.getElem?_drop] at hi
    exact h _ (Or.inr (by omega)) hi
  · intro i hi
    rw [List.getElem?_take] at hi
    split_ifs at hi with hs
    exact h i (Or.inl hs) hi

variable {w : Nat} (p : BitVec w)

theorem dvd_mul_X_pow (hc : IsCoprime (gen p) X) {f : (ZMod 2)[X]} {k : Nat} (h : gen p ∣ f * X ^ k) : gen p ∣ f :=
  (hc.pow_right (n := k)).dvd_of_dvd_mul_right h

theorem burst {upd : BitVec w → BitVec 8 → BitVec w} (hu : UpdOk p upd) (hc : IsCoprime (gen p) X)
    {m n : List (BitVec 8)} (hl : m.length = n.length) (hne : m ≠ n) (s : Nat)
    (hw : ∀ i, i < s ∨ s + w ≤ i → (msgBits m)[i]? = (msgBits n)[i]?) (c : BitVec w) :
    fold upd m c ≠ fold upd n c := by
  have hlen : (msgBits m).length = (msgBits n).length := by simp [hl]
  rw [ne_eq, same_crc p hu hc hl]
  intro hd
  have hz : poly (List.zipWith xor (msgBits m) (msgBits n)) ≠ 0 := by
    rw [poly_xor _ _ hlen]
    intro h0
    apply hne
    apply msgBits_inj
    apply poly_inj hlen
    calc poly (msgBits m) = poly (msgBits m) + poly (msgBits n) + poly (msgBits n) := by rw [add_assoc, add_self, add_zero]
      _ = poly (msgBits n) := by rw [h0, zero_add]
  have hp := poly_window (d := List.zipWith xor (msgBits m) (msgBits n)) s w
    (fun i hi => by rw [ne_eq, diff_getElem? hlen, not_not]; exact hw i hi)
  rw [hp] at hd hz
  exact not_dvd_small p (by simp) (left_ne_zero_of_mul hz) (dvd_mul_X_pow p hc hd)

theorem two_bits {upd : BitVec w → BitVec 8 → BitVec w} (hu : UpdOk p upd) (hc : IsCoprime (gen p) X)
    {m n : List (BitVec 8)} (hl : m.length = n.length) {i j : Nat} (hij : i < j) (ho : j - i < orderOf (φ p X))
    (h : ∀ k, (msgBits m)[k]? ≠ (msgBits n)[k]? ↔ k = i ∨ k = j) (c : BitVec w) :
    fold upd m c ≠ fold upd n c := by
  have hlen : (msgBits m).length = (msgBits n).length := by simp [hl]
  rw [ne_eq, same_crc p hu hc hl]
  intro hd
  set d := List.zipWith xor (msgBits m) (msgBits n) with hdd
  have hk : ∀ k, d[k]? = some true ↔ k = i ∨ k = j := fun k => by rw [hdd, diff_getElem? hlen, h]
  have hp := poly_window (d := d) i (j - i + 1) (fun k hk' => by rw [ne_eq, hk]; omega)
  rw [hp] at hd
  have hd := dvd_mul_X_pow p hc hd
  have hjl : j < d.length := by
    by_contra hcon
    have := (hk j).2 (Or.inr rfl)
    rw [List.getElem?_eq_none (by omega)] at this
    simp at this
  have e : (d.drop i).take (j - i + 1) = [true] ++ (List.replicate (j - i - 1) false ++ [true]) := by
    apply List.ext_getElem?
    intro k
    rw [List.getElem?_take]
    split_ifs with hk1
    · rw [List.getElem?_drop]
      have hin : i + k < d.length := by omega
      by_cases hk0 : k = 0
      · subst hk0; rw [(hk (i + 0)).2 (Or.inl (by omega))]; simp
      · by_cases hk2 : k = j - i
        · subst hk2
          rw [(hk (i + (j - i))).2 (Or.inr (by omega)), List.getElem?_append_right (by simp; omega),
            List.getElem?_append_right (by simp)]
          simp
        · rw [List.getElem?_append_right (by simp; omega), List.getElem?_append_left (by simp; omega),
            List.getElem?_replicate, if_pos (by simp; omega)]
          have := (hk (i + k)).not.2 (by omega)
          rw [List.getElem?_eq_getElem hin] at this ⊢
          simpa using this
    · symm; apply List.getElem?_eq_none; simp; omega
  rw [e, poly_append, poly_append, poly_replicate_false] at hd
  simp only [poly, List.length_append, List.length_replicate, List.length_cons, List.length_nil] at hd
  rw [show j - i - 1 + (0 + 1) = j - i by omega] at hd
  have h1 : φ p X ^ (j - i) = 1 := by
    rw [← map_pow, ← map_one (φ p), φ_eq]
    obtain ⟨q, hq⟩ := hd
    refine ⟨q, ?_⟩
    rw [← hq]
    simp only [if_true, pow_zero, one_mul, zero_mul, zero_add, add_zero]
    have := add_self (1 : (ZMod 2)[X])
    linear_combination -this
  have := orderOf_dvd_of_pow_eq_one h1
  have := Nat.le_of_dvd (by omega) this
  omega

theorem eval_one_poly (l : List Bool) : (poly l).eval 1 = (l.count true : ZMod 2) := by
  induction l with
  | nil => simp [poly]
  | cons b l ih => cases b <;> simp [poly, ih, add_comm]

theorem odd_weight {upd : BitVec w → BitVec 8 → BitVec w} (hu : UpdOk p upd) (hc : IsCoprime (gen p) X)
    (h1 : (gen p).eval 1 = 0) {m n : List (BitVec 8)} (hl : m.length = n.length)
    (ho : distance (msgBits m) (msgBits n) % 2 = 1) (c : BitVec w) : fold upd m c ≠ fold upd n c := by
  rw [ne_eq, same_crc p hu hc hl]
  rintro ⟨q, hq⟩
  have := congrArg (Polynomial.eval 1) hq
  rw [eval_mul, h1, zero_mul, eval_one_poly] at this
  have h2 := (ZMod.natCast_eq_zero_iff _ 2).1 this
  unfold distance at ho
  omega

/-- The checksum of a frame with a trailer vanishes only for the right trailer. -/
theorem residue {upd : BitVec w → BitVec 8 → BitVec w} (hu : UpdOk p upd) (hc : IsCoprime (gen p) X) (hw : 0 < w)
    (m tr : List (BitVec 8)) (t c : BitVec w) (ht : msgBits tr = bits t) (hlt : 8 * tr.length = w) :
    fold upd (m ++ tr) c = 0#w ↔ t = fold upd m c := by
  rw [fold_append]
  generalize fold upd m c = r
  have h1 : φ p (poly (bits (fold upd tr r))) = φ p ((poly (bits r) + poly (bits t)) * X ^ w) := by
    rw [φ_fold p hu, ht, hlt, add_mul]
  constructor
  · intro h0
    rw [h0, poly_bits_zero, map_zero, eq_comm, ← map_zero (φ p), φ_eq, sub_zero] at h1
    have h2 := dvd_mul_X_pow p hc h1
    rw [← poly_bits_xor] at h2
    by_contra hne
    refine not_dvd_small p (by simp) (fun h0 => hne ?_) h2
    rw [← poly_bits_zero] at h0
    have h3 : r ^^^ t = 0#w := bits_inj (poly_inj (by simp) h0)
    exact (BitVec.xor_eq_zero_iff.1 h3).symm
  · rintro rfl
    rw [add_self, zero_mul, map_zero, ← map_zero (φ p), ← poly_bits_zero (w := w)] at h1
    apply bits_inj
    apply poly_inj (by simp)
    rw [eq_mod p h1, poly_bits_zero, zero_modByMonic]

theorem msgBits_be16 (t : BitVec 16) : msgBits (be16 t) = bits t := by
  rw [bits_split t 8 (by decide)]; simp [msgBits, be16]

theorem msgBits_be32 (t : BitVec 32) : msgBits (be32 t) = bits t := by
  have e : be32 t = [t.extractLsb' 24 8, (t.extractLsb' 0 24).extractLsb' 16 8,
      ((t.extractLsb' 0 24).extractLsb' 0 16).extractLsb' 8 8, ((t.extractLsb' 0 24).extractLsb' 0 16).extractLsb' 0 8] := by
    simp only [be32, List.cons.injEq, and_true, true_and]
    refine ⟨?_, ?_, ?_⟩ <;> ext i hi <;> simp [BitVec.getLsbD_extractLsb'] <;> omega
  rw [bits_split t 8 (by decide), bits_split (t.extractLsb' 0 (32 - 8)) 8 (by decide),
    bits_split ((t.extractLsb' 0 (32 - 8)).extractLsb' 0 (32 - 8 - 8)) 8 (by decide), e]
  simp [msgBits]

end Gel.Crc
