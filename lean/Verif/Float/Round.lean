import Mathlib.Data.Int.Log
import Mathlib.Data.Rat.Floor
import Mathlib.Algebra.Order.Floor.Ring
import Mathlib.Algebra.Order.Round
import Mathlib.Tactic.Linarith
import Mathlib.Tactic.Positivity
import Mathlib.Tactic.Ring
import Mathlib.Tactic.FieldSimp

/-!
# Floating point arithmetic: rounding

The numbers are those of a binary format with `p` bits of precision (`float`: 24, `double`: 53) and unbounded exponent,
rounded to the nearest, ties to even (IEEE 754, the default of every platform). Simplified: no overflow to infinity, no
underflow, no NaN. The uses say why this makes no difference there.
-/
namespace Gel.Round

/-- The integer nearest to `x`, ties to even. -/
def nearest (x : ℚ) : ℤ :=
  if x - ⌊x⌋ < 1 / 2 then ⌊x⌋
  else if 1 / 2 < x - ⌊x⌋ then ⌊x⌋ + 1
  else if ⌊x⌋ % 2 = 0 then ⌊x⌋ else ⌊x⌋ + 1

/-- The distance of the floating point numbers in the binade of `x`. -/
def ulp (p : Nat) (x : ℚ) : ℚ := 2 ^ (Int.log 2 |x| + 1 - p)

/-- `x` rounded to `p` bits. -/
def rnd (p : Nat) (x : ℚ) : ℚ := nearest (x / ulp p x) * ulp p x

/-- Conversion to an integer type: the fractional part is discarded (C11 6.3.1.4). -/
def trunc (x : ℚ) : ℤ := if 0 ≤ x then ⌊x⌋ else ⌈x⌉

/-! ## Specification: the floating point numbers -/

/-- The numbers of `p` bits. -/
def IsFloat (p : Nat) (x : ℚ) : Prop := ∃ m e : ℤ, |m| ≤ 2 ^ p ∧ x = m * 2 ^ e

/-! ## Lemmas -/

theorem nearest_int (z : ℤ) : nearest z = z := by
  simp [nearest]

theorem nearest_err (x : ℚ) : |nearest x - x| ≤ 1 / 2 := by
  have h1 := Int.floor_le x
  have h2 := Int.lt_floor_add_one x
  rw [nearest]
  split_ifs <;> rw [abs_le] <;> push_cast <;> constructor <;> linarith

/-- No integer is nearer. -/
theorem nearest_le (x : ℚ) (z : ℤ) : |nearest x - x| ≤ |z - x| := by
  have h1 := Int.floor_le x
  have h2 := Int.lt_floor_add_one x
  have hz : |(⌊x⌋ : ℚ) - x| ≤ |z - x| ∨ |(⌊x⌋ : ℚ) + 1 - x| ≤ |z - x| := by
    rcases le_or_gt z ⌊x⌋ with h | h
    · left
      have h' : (z : ℚ) ≤ ⌊x⌋ := by exact_mod_cast h
      rw [abs_of_nonpos (by linarith), abs_of_nonpos (by linarith)]
      linarith
    · right
      have h' : (⌊x⌋ : ℚ) + 1 ≤ z := by exact_mod_cast h
      rw [abs_of_nonneg (by linarith), abs_of_nonneg (by linarith)]
      linarith
  have ha : |(⌊x⌋ : ℚ) - x| = x - ⌊x⌋ := by rw [abs_of_nonpos (by linarith)]; ring
  have hb : |(⌊x⌋ : ℚ) + 1 - x| = ⌊x⌋ + 1 - x := by rw [abs_of_nonneg (by linarith)]
  rw [ha, hb] at hz
  rw [nearest]
  split_ifs <;> push_cast <;> (first | rw [ha] | rw [hb]) <;> rcases hz with hz | hz <;> linarith

/-- Of two nearest integers it is the even one. -/
theorem nearest_tie (x : ℚ) (h : |nearest x - x| = 1 / 2) : nearest x % 2 = 0 := by
  have h1 := Int.floor_le x
  have h2 := Int.lt_floor_add_one x
  rw [nearest] at *
  split_ifs at * with h3 h4 h5
  · rw [abs_of_nonpos (by linarith)] at h
    linarith
  · push_cast at h
    rw [abs_of_nonneg (by linarith)] at h
    linarith
  · exact h5
  · omega

theorem nearest_mono {x y : ℚ} (h : x ≤ y) : nearest x ≤ nearest y := by
  have hf := Int.floor_mono h
  rcases lt_or_eq_of_le hf with hlt | heq
  · have a : nearest x ≤ ⌊x⌋ + 1 := by
      rw [nearest]
      split_ifs <;> omega
    have b : ⌊y⌋ ≤ nearest y := by
      rw [nearest]
      split_ifs <;> omega
    omega
  · rw [nearest, nearest, ← heq]
    split_ifs <;> first | omega | linarith

theorem nearest_neg (x : ℚ) : nearest (-x) = -nearest x := by
  by_cases hx : (⌊x⌋ : ℚ) = x
  · rw [← hx, nearest_int]
    have := nearest_int (-⌊x⌋)
    push_cast at this
    exact this
  · have h1 : (⌊x⌋ : ℚ) < x := lt_of_le_of_ne (Int.floor_le x) hx
    have h2 := Int.lt_floor_add_one x
    have hf : ⌊-x⌋ = -⌊x⌋ - 1 := by
      rw [Int.floor_eq_iff]
      push_cast
      constructor <;> linarith
    rw [nearest, nearest, hf]
    push_cast
    split_ifs <;> first | omega | (exfalso; linarith)

theorem ulp_pos (p : Nat) (x : ℚ) : 0 < ulp p x := by
  rw [ulp]
  exact zpow_pos (by norm_num) _

theorem ulp_neg (p : Nat) (x : ℚ) : ulp p (-x) = ulp p x := by
  rw [ulp, ulp, abs_neg]

theorem rnd_zero (p : Nat) : rnd p 0 = 0 := by
  have := nearest_int 0
  simp only [Int.cast_zero] at this
  simp [rnd, this]

theorem rnd_neg (p : Nat) (x : ℚ) : rnd p (-x) = -rnd p x := by
  rw [rnd, rnd, ulp_neg, neg_div, nearest_neg]
  push_cast
  ring

theorem log_le {x : ℚ} (hx : x ≠ 0) : (2 : ℚ) ^ Int.log 2 |x| ≤ |x| := by
  have := Int.zpow_log_le_self (b := 2) (r := |x|) (by decide) (abs_pos.2 hx)
  exact_mod_cast this

theorem lt_log (x : ℚ) : |x| < (2 : ℚ) ^ (Int.log 2 |x| + 1) := by
  have := Int.lt_zpow_succ_log_self (b := 2) (by decide) |x|
  exact_mod_cast this

theorem ulp_mul (p : Nat) (x : ℚ) : ulp p x * 2 ^ p = 2 ^ (Int.log 2 |x| + 1) := by
  rw [ulp, ← zpow_natCast, ← zpow_add₀ (by norm_num)]
  congr 1
  ring

/-- The error of rounding: at most half an ulp, so at most `|x| / 2^p`. -/
theorem rnd_err (p : Nat) (x : ℚ) : |rnd p x - x| ≤ |x| / 2 ^ p := by
  by_cases hx : x = 0
  · subst hx
    simp [rnd_zero]
  · have hu := ulp_pos p x
    have h1 := nearest_err (x / ulp p x)
    have h2 : rnd p x - x = (nearest (x / ulp p x) - x / ulp p x) * ulp p x := by
      rw [rnd]
      field_simp
    have h3 := log_le hx
    have h4 := ulp_mul p x
    rw [zpow_add₀ (by norm_num), zpow_one] at h4
    have h5 : (0 : ℚ) < 2 ^ p := by positivity
    have h6 : (0 : ℚ) < 2 ^ Int.log 2 |x| := zpow_pos (by norm_num) _
    rw [h2, abs_mul, abs_of_pos hu, le_div_iff₀ h5, mul_assoc, h4]
    nlinarith

theorem rnd_nonneg (p : Nat) {x : ℚ} (h : 0 ≤ x) : 0 ≤ rnd p x := by
  have hu := ulp_pos p x
  have h0 : nearest 0 ≤ nearest (x / ulp p x) := nearest_mono (by positivity)
  have := nearest_int 0
  simp only [Int.cast_zero] at this
  rw [this] at h0
  rw [rnd]
  have h1 : (0 : ℚ) ≤ nearest (x / ulp p x) := by exact_mod_cast h0
  positivity

/-- A power of two is a multiple of the ulp of every number not above it. -/
theorem pow_ulp {p : Nat} {x : ℚ} {i : ℤ} (h : Int.log 2 |x| + 1 - p ≤ i) : ∃ z : ℤ, (2 : ℚ) ^ i = z * ulp p x := by
  refine ⟨2 ^ (i - (Int.log 2 |x| + 1 - p)).toNat, ?_⟩
  push_cast
  rw [ulp, ← zpow_natCast, Int.toNat_of_nonneg (by omega), ← zpow_add₀ (by norm_num)]
  congr 1
  ring

/-- Multiples of the ulp are kept on their side. -/
theorem rnd_le {p : Nat} {x : ℚ} {z : ℤ} (h : x ≤ z * ulp p x) : rnd p x ≤ z * ulp p x := by
  have hu := ulp_pos p x
  have h1 : nearest (x / ulp p x) ≤ nearest z := nearest_mono ((div_le_iff₀ hu).2 h)
  rw [nearest_int] at h1
  rw [rnd]
  exact mul_le_mul_of_nonneg_right (by exact_mod_cast h1) hu.le

theorem le_rnd {p : Nat} {x : ℚ} {z : ℤ} (h : z * ulp p x ≤ x) : z * ulp p x ≤ rnd p x := by
  have hu := ulp_pos p x
  have h1 : nearest z ≤ nearest (x / ulp p x) := nearest_mono ((le_div_iff₀ hu).2 h)
  rw [nearest_int] at h1
  rw [rnd]
  exact mul_le_mul_of_nonneg_right (by exact_mod_cast h1) hu.le

/-- Rounding stays within the binade, the next power of two included. -/
theorem rnd_binade {p : Nat} (hp : 0 < p) {x : ℚ} (hx : 0 < x) :
    (2 : ℚ) ^ Int.log 2 |x| ≤ rnd p x ∧ rnd p x ≤ 2 ^ (Int.log 2 |x| + 1) := by
  obtain ⟨z, hz⟩ := pow_ulp (p := p) (x := x) (i := Int.log 2 |x|) (by omega)
  obtain ⟨y, hy⟩ := pow_ulp (p := p) (x := x) (i := Int.log 2 |x| + 1) (by omega)
  have h1 := log_le hx.ne'
  have h2 := lt_log x
  rw [hz] at h1
  rw [hy] at h2
  rw [hz, hy]
  rw [abs_of_pos hx] at *
  exact ⟨le_rnd h1, rnd_le h2.le⟩

theorem rnd_mono_pos {p : Nat} (hp : 0 < p) {x y : ℚ} (hx : 0 < x) (h : x ≤ y) : rnd p x ≤ rnd p y := by
  have hy : 0 < y := lt_of_lt_of_le hx h
  have hl : Int.log 2 |x| ≤ Int.log 2 |y| := by
    rw [abs_of_pos hx, abs_of_pos hy]
    exact Int.log_mono_right hx h
  rcases lt_or_eq_of_le hl with hlt | heq
  · refine (rnd_binade hp hx).2.trans (le_trans ?_ (rnd_binade hp hy).1)
    exact zpow_le_zpow_right₀ (by norm_num) (by omega)
  · have hu : ulp p x = ulp p y := by rw [ulp, ulp, heq]
    have hup := ulp_pos p y
    rw [rnd, rnd, hu]
    refine mul_le_mul_of_nonneg_right ?_ hup.le
    exact_mod_cast nearest_mono (div_le_div_of_nonneg_right h hup.le)

/-- Rounding is monotone. -/
theorem rnd_mono {p : Nat} (hp : 0 < p) {x y : ℚ} (h : x ≤ y) : rnd p x ≤ rnd p y := by
  rcases lt_or_ge 0 x with hx | hx
  · exact rnd_mono_pos hp hx h
  · rcases le_or_gt 0 y with hy | hy
    · have := rnd_nonneg p (x := -x) (by linarith)
      rw [rnd_neg] at this
      exact le_trans (by linarith) (rnd_nonneg p hy)
    · have := rnd_mono_pos hp (x := -y) (y := -x) (by linarith) (by linarith)
      rw [rnd_neg, rnd_neg] at this
      linarith

/-- A floating point number not below the binade of `x` is a multiple of the ulp of `x`. -/
theorem IsFloat.multiple {p : Nat} (hp : 0 < p) {x y : ℚ} (hy : IsFloat p y) (h : (2 : ℚ) ^ Int.log 2 |x| ≤ |y|) :
    ∃ z : ℤ, y = z * ulp p x := by
  obtain ⟨m, e, hm, rfl⟩ := hy
  have hm' : |(m : ℚ)| ≤ 2 ^ p := by exact_mod_cast hm
  have he : (0 : ℚ) < 2 ^ e := zpow_pos (by norm_num) _
  rw [abs_mul, abs_of_pos he] at h
  have h1 : (2 : ℚ) ^ Int.log 2 |x| ≤ 2 ^ ((p : ℤ) + e) := by
    refine h.trans ?_
    rw [zpow_add₀ (by norm_num), zpow_natCast]
    exact mul_le_mul_of_nonneg_right hm' he.le
  have h2 : Int.log 2 |x| ≤ (p : ℤ) + e := (zpow_le_zpow_iff_right₀ (by norm_num)).1 h1
  rcases lt_or_eq_of_le h2 with hlt | heq
  · obtain ⟨z, hz⟩ := pow_ulp (p := p) (x := x) (i := e) (by omega)
    refine ⟨m * z, ?_⟩
    rw [hz]
    push_cast
    ring
  · -- the binade begins at `2 ^ (p + e)`, so `|m| = 2 ^ p`
    have h3 : (2 : ℚ) ^ p ≤ |(m : ℚ)| := by
      rw [heq, zpow_add₀ (by norm_num), zpow_natCast] at h
      exact le_of_mul_le_mul_right h he
    have h4 : |m| = 2 ^ p := le_antisymm hm (by exact_mod_cast h3)
    obtain ⟨z, hz⟩ := pow_ulp (p := p) (x := x) (i := p + e) (by omega)
    rw [zpow_add₀ (by norm_num), zpow_natCast] at hz
    rcases (abs_eq (by positivity)).1 h4 with h5 | h5
    · refine ⟨z, ?_⟩
      rw [h5, ← hz]
      push_cast
      ring
    · refine ⟨-z, ?_⟩
      rw [h5]
      push_cast
      rw [neg_mul, neg_mul, ← hz]

/-- Rounding gives a floating point number, -/
theorem rnd_isFloat {p : Nat} (x : ℚ) : IsFloat p (rnd p x) := by
  refine ⟨nearest (x / ulp p x), Int.log 2 |x| + 1 - p, ?_, rfl⟩
  have hu := ulp_pos p x
  have h1 : |x| / ulp p x ≤ (2 ^ p : ℤ) := by
    rw [div_le_iff₀ hu]
    push_cast
    rw [mul_comm, ulp_mul]
    exact (lt_log x).le
  have h2 : x / ulp p x ≤ (2 ^ p : ℤ) := le_trans (div_le_div_of_nonneg_right (le_abs_self x) hu.le) h1
  have h3 : ((-2 ^ p : ℤ) : ℚ) ≤ x / ulp p x := by
    have := div_le_div_of_nonneg_right (neg_abs_le x) hu.le
    rw [neg_div] at this
    push_cast at h1 ⊢
    linarith
  rw [abs_le]
  constructor
  · have := nearest_mono h3
    rwa [nearest_int] at this
  · have := nearest_mono h2
    rwa [nearest_int] at this

/-- and there is none nearer to `x`. -/
theorem rnd_nearest {p : Nat} (hp : 0 < p) (x y : ℚ) (hy : IsFloat p y) : |rnd p x - x| ≤ |y - x| := by
  have key : ∀ z : ℤ, |rnd p x - x| ≤ |z * ulp p x - x| := by
    intro z
    have hu := ulp_pos p x
    have h1 : rnd p x - x = (nearest (x / ulp p x) - x / ulp p x) * ulp p x := by
      rw [rnd]
      field_simp
    have h2 : z * ulp p x - x = (z - x / ulp p x) * ulp p x := by
      field_simp
    rw [h1, h2, abs_mul, abs_mul]
    exact mul_le_mul_of_nonneg_right (nearest_le _ z) (abs_nonneg _)
  by_cases hx : x = 0
  · subst hx
    simp [rnd_zero]
  by_cases h : (2 : ℚ) ^ Int.log 2 |x| ≤ |y|
  · obtain ⟨z, rfl⟩ := hy.multiple hp h
    exact key z
  · -- `y` is below the binade, whose lower end is nearer to `x`
    obtain ⟨z, hz⟩ := pow_ulp (p := p) (x := x) (i := Int.log 2 |x|) (by omega)
    have hl := log_le hx
    have h1 := le_abs_self y
    have h2 := neg_abs_le y
    rcases lt_or_gt_of_ne hx with hneg | hpos
    · have := key (-z)
      push_cast at this
      rw [neg_mul, ← hz] at this
      refine this.trans ?_
      rw [abs_of_neg hneg] at *
      rw [abs_of_nonneg (by linarith), abs_of_nonneg (by linarith)]
      linarith
    · have := key z
      rw [← hz] at this
      refine this.trans ?_
      rw [abs_of_pos hpos] at *
      rw [abs_of_nonpos (by linarith), abs_of_nonpos (by linarith)]
      linarith

/-- Floating point numbers are not changed. -/
theorem rnd_of_isFloat {p : Nat} (hp : 0 < p) {x : ℚ} (h : IsFloat p x) : rnd p x = x := by
  have := rnd_nearest hp x x h
  rw [sub_self, abs_zero] at this
  have := abs_nonpos_iff.1 this
  linarith

theorem isFloat_int {p : Nat} {x : ℤ} (h : |x| ≤ 2 ^ p) : IsFloat p x := ⟨x, 0, h, by simp⟩

theorem trunc_int (z : ℤ) : trunc z = z := by
  simp [trunc]

theorem trunc_neg (x : ℚ) : trunc (-x) = -trunc x := by
  rcases lt_trichotomy x 0 with h | h | h
  · rw [trunc, trunc, if_pos (by linarith), if_neg (by linarith), Int.floor_neg]
  · subst h
    simp [trunc]
  · rw [trunc, trunc, if_neg (by linarith), if_pos (by linarith), Int.ceil_neg]

theorem trunc_mono {x y : ℚ} (h : x ≤ y) : trunc x ≤ trunc y := by
  rw [trunc, trunc]
  split_ifs with h1 h2 h2
  · exact Int.floor_mono h
  · exact absurd (h1.trans h) h2
  · have a : ⌈x⌉ ≤ 0 := Int.ceil_le.2 (by push_cast; linarith)
    have b : 0 ≤ ⌊y⌋ := Int.le_floor.2 (by push_cast; linarith)
    omega
  · exact Int.ceil_mono h

theorem trunc_err (x : ℚ) : |trunc x - x| < 1 := by
  have h1 := Int.floor_le x
  have h2 := Int.lt_floor_add_one x
  have h3 := Int.le_ceil x
  have h4 := Int.ceil_lt_add_one x
  rw [trunc]
  split_ifs <;> rw [abs_lt] <;> constructor <;> linarith

end Gel.Round
