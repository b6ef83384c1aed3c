import Verif.Pid.Narrow

/-!
# Thresholds of the integral, exactly (C180)
-/
namespace Gel.Pid

theorem wrapS_mod (w t : Nat) : wrapS w ((t % 2 ^ w : Nat) : Int) = wrapS w t := by
  simp only [wrapS]
  congr 1
  apply BitVec.eq_of_toNat_eq
  simp only [BitVec.toNat_ofInt]
  congr 1
  push_cast
  exact Int.emod_emod_of_dvd _ (dvd_refl _)

/-- **C180**, every threshold: its lowest `w` bits count. If these are a non-negative number it is the threshold, else no error counts. -/
theorem C180_bits (w n : Nat) (hw : 0 < w) (t : Nat) (p : Pid Int) (err : Int) :
    (∀ q, (do let q ← stepW w n d p (lowT w t); stepW w n d q (.set (.lowEn true))) = .ok q → 0 < err →
      entry q err = some (if t % 2 ^ w < 2 ^ (w - 1) then Spec.contribution (t % 2 ^ w) err else 0)) ∧
    (∀ q, (do let q ← stepW w n d p (highT w t); stepW w n d q (.set (.highEn true))) = .ok q → err < 0 →
      entry q err = some (if t % 2 ^ w < 2 ^ (w - 1) then Spec.contribution (t % 2 ^ w) err else 0)) := by
  have e1 : lowT w t = lowT w (t % 2 ^ w) := by rw [lowT, lowT, wrapS_mod]
  have e2 : highT w t = highT w (t % 2 ^ w) := by rw [highT, highT, wrapS_mod]
  rw [e1, e2]
  by_cases h : t % 2 ^ w < 2 ^ (w - 1)
  · simp only [if_pos h]
    exact C180_threshold_partial w n hw (t % 2 ^ w) (by exact_mod_cast h) p err
  · simp only [if_neg h]
    refine C180_large_wrong w n hw (t % 2 ^ w) (by exact_mod_cast Nat.le_of_not_lt h) ?_ p err
    exact_mod_cast Nat.mod_lt t (Nat.two_pow_pos w)

/-- **C180**, exactly: all positive errors that the output type can represent are treated as the threshold says if and only if the output
type can represent the threshold. -/
theorem C180_exact (w n d : Nat) (hw : 1 < w) (t : Nat) (p q : Pid Int)
    (hq : (do let q ← stepW w n d p (lowT w t); stepW w n d q (.set (.lowEn true))) = .ok q) :
    (∀ err : Int, 0 < err → err < 2 ^ (w - 1) → entry q err = some (Spec.contribution t err)) ↔ t < 2 ^ (w - 1) := by
  constructor
  · intro h
    by_contra ht
    have hp : 1 < 2 ^ (w - 1) := Nat.one_lt_two_pow (by omega)
    -- the largest error
    have h1 : (0 : Int) < (2 ^ (w - 1) - 1 : Nat) := by omega
    have h2 : ((2 ^ (w - 1) - 1 : Nat) : Int) < 2 ^ (w - 1) := by
      have : ((2 ^ (w - 1) - 1 : Nat) : Int) < ((2 ^ (w - 1) : Nat) : Int) := by omega
      simpa using this
    have h3 := h _ h1 h2
    rw [(C180_bits w n (by omega) t p _).1 q hq h1] at h3
    injection h3 with h3
    simp only [Spec.contribution, abs_of_pos h1] at h3
    rw [if_pos (show ((2 ^ (w - 1) - 1 : Nat) : Int) < (t : Int) by omega)] at h3
    by_cases hb : t % 2 ^ w < 2 ^ (w - 1)
    · have h4 : ¬ ((2 ^ (w - 1) - 1 : Nat) : Int) < ((t % 2 ^ w : Nat) : Int) := by
        rw [Int.ofNat_lt]; omega
      rw [if_pos hb, if_neg h4] at h3
      omega
    · rw [if_neg hb] at h3
      omega
  · intro ht err h1 _
    exact (C180_threshold_partial w n (by omega) t (by exact_mod_cast ht) p err).1 q hq h1

/-- With 16 bits: 65536 + 100 is a threshold of 100, 40000 admits nothing. -/
example : (runW 16 2 1 (init 2 1) [lowT 16 65636, .set (.lowEn true), .set (.sp 150), .input 20] >>= fun p => .ok p.hist) =
      .ok [0, 0] ∧
    (runW 16 2 1 (init 2 1) [lowT 16 65636, .set (.lowEn true), .set (.sp 50), .input 20] >>= fun p => .ok p.hist) =
      .ok [30, 0] ∧
    (runW 16 2 1 (init 2 1) [lowT 16 40000, .set (.lowEn true), .set (.sp 50), .input 20] >>= fun p => .ok p.hist) =
      .ok [0, 0] := by decide

end Gel.Pid
