import Verif.Float.Ieee

/-!
# Floating point arithmetic: bounds survive rounding
-/
namespace Gel.Ieee
open Gel.Round

variable {f : Fmt}

/-- `v` is finite and at most `B` in magnitude. -/
def Within (B : ℚ) (v : Val) : Prop := ∃ x, v = .fin x ∧ |x| ≤ B

theorem Within.mono {B C : ℚ} {v : Val} (h : Within B v) (hBC : B ≤ C) : Within C v := by
  obtain ⟨x, e, hx⟩ := h
  exact ⟨x, e, hx.trans hBC⟩

theorem Within.neg {B : ℚ} {v : Val} (h : Within B v) : Within B (neg v) := by
  obtain ⟨x, rfl, hx⟩ := h
  exact ⟨-x, rfl, by rwa [abs_neg]⟩

theorem rexp_mono {x y : ℚ} (hx : x ≠ 0) (h : |x| ≤ |y|) : rexp f x ≤ rexp f y := by
  have : Int.log 2 |x| ≤ Int.log 2 |y| := Int.log_mono_right (abs_pos.2 hx) h
  rw [rexp, rexp]
  omega

/-- A bound that is a value of the format holds also for the rounded number. -/
theorem round_le (he : 2 ≤ f.eb) {x B : ℚ} {m e : ℤ} (hm : |m| ≤ 2 ^ f.p) (hq : f.qmin ≤ e) (hB : B = m * 2 ^ e)
    (hmax : B ≤ f.max) (h : |x| ≤ B) : Within B (round f x) := by
  refine ⟨mant f x * 2 ^ rexp f x, ?_, ?_⟩
  · rw [round, if_neg (bits_finite he (h.trans hmax))]
  · by_cases h0 : x = 0
    · subst h0
      rw [mant_zero]
      simpa using h
    have hB0 : 0 ≤ B := (abs_nonneg x).trans h
    have hz := two_zpow_pos (rexp f x)
    rw [abs_mul, abs_of_pos hz]
    have hr : rexp f x ≤ rexp f B := rexp_mono h0 (by rwa [abs_of_nonneg hB0])
    have hex := mant_exact hm hq hB
    have hcast : |(mant f x : ℚ)| = ((mant f |x| : ℤ) : ℚ) := by rw [mant_abs, Int.cast_abs]
    have hint : B / 2 ^ rexp f x = ((mant f B * 2 ^ (rexp f B - rexp f x).toNat : ℤ) : ℚ) := by
      rw [div_eq_iff hz.ne']
      push_cast
      rw [mul_assoc, ← zpow_natCast, ← zpow_add₀ (by norm_num), Int.toNat_of_nonneg (by omega)]
      conv_lhs => rw [← hex]
      congr 2
      ring
    have hle : |x| / 2 ^ rexp f x ≤ B / 2 ^ rexp f x := by
      gcongr
    have hn := nearest_mono hle
    rw [hint, nearest_int] at hn
    have hn' : ((mant f |x| : ℤ) : ℚ) ≤ B / 2 ^ rexp f x := by
      rw [hint, mant, rexp_abs]
      exact_mod_cast hn
    rw [hcast]
    exact (le_div_iff₀ hz).1 hn'

/-- The sum of two bounded numbers. -/
theorem add_within (he : 2 ≤ f.eb) {v w : Val} {A C B : ℚ} {m e : ℤ} (hv : Within A v) (hw : Within C w) (hm : |m| ≤ 2 ^ f.p)
    (hq : f.qmin ≤ e) (hB : B = m * 2 ^ e) (hmax : B ≤ f.max) (h : A + C ≤ B) : Within B (add f v w) := by
  obtain ⟨x, rfl, hx⟩ := hv
  obtain ⟨y, rfl, hy⟩ := hw
  exact round_le he hm hq hB hmax ((abs_add_le x y).trans (by linarith))

/-- The product of two bounded numbers. -/
theorem mul_within (he : 2 ≤ f.eb) {v w : Val} {A C B : ℚ} {m e : ℤ} (hv : Within A v) (hw : Within C w) (hm : |m| ≤ 2 ^ f.p)
    (hq : f.qmin ≤ e) (hB : B = m * 2 ^ e) (hmax : B ≤ f.max) (h : A * C ≤ B) : Within B (mul f v w) := by
  obtain ⟨x, rfl, hx⟩ := hv
  obtain ⟨y, rfl, hy⟩ := hw
  refine round_le he hm hq hB hmax ?_
  rw [abs_mul]
  exact (mul_le_mul hx hy (abs_nonneg y) ((abs_nonneg x).trans hx)).trans h

/-- A sum that is rounded does not exceed a power of two that the exact one does not. -/
example : Within 1024 (add binary32 (.fin 1000) (.fin 23.3)) :=
  add_within (f := binary32) (A := 1000) (C := 24) (m := 1024) (e := 0) (by decide) ⟨_, rfl, by norm_num [abs_of_pos]⟩
    ⟨_, rfl, by norm_num [abs_of_pos]⟩ (by decide) (by decide) (by norm_num) (by norm_num [Fmt.max, binary32, Fmt.p, Fmt.qmin])
    (by norm_num)

end Gel.Ieee
