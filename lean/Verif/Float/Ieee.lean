import Verif.Float.Round

/-!
# Floating point arithmetic: the binary formats of IEEE 754

Bit patterns, values and operations, rounded to the nearest, ties to even. Simplified: all NaNs have one value, and so do the
two zeros (no operation of the modelled code tells them apart).
-/
namespace Gel.Ieee
open Gel.Round

/-- A format with `eb` bits of exponent and `mb` bits of fraction. -/
structure Fmt where
  eb : Nat
  mb : Nat

def binary32 : Fmt := ⟨8, 23⟩
def binary64 : Fmt := ⟨11, 52⟩

inductive Val
  | nan
  | inf (neg : Bool)
  | fin (x : ℚ)
  deriving DecidableEq

variable (f : Fmt)

/-- The number of bits of precision. -/
def Fmt.p : Nat := f.mb + 1

/-- The exponent of the least positive value. -/
def Fmt.qmin : ℤ := 2 - 2 ^ (f.eb - 1) - f.mb

/-- The bit pattern of infinity. -/
def Fmt.infBits : Nat := (2 ^ f.eb - 1) * 2 ^ f.mb

/-- The bit of the sign. -/
def Fmt.sign : Nat := 2 ^ (f.eb + f.mb)

/-- The absolute value of a finite pattern without its sign. -/
def mag (b : Nat) : ℚ :=
  if b / 2 ^ f.mb = 0 then b * 2 ^ f.qmin
  else (2 ^ f.mb + b % 2 ^ f.mb : Nat) * 2 ^ (f.qmin + (b / 2 ^ f.mb : Nat) - 1)

/-- The value of a bit pattern. -/
def decode (b : Nat) : Val :=
  let neg := decide (b / f.sign % 2 = 1)
  let a := b % f.sign
  if f.infBits < a then .nan
  else if a = f.infBits then .inf neg
  else .fin (if neg then -mag f a else mag f a)

/-- The exponent of the last place of a number. -/
def rexp (x : ℚ) : ℤ := max (Int.log 2 |x| + 1 - f.p) f.qmin

/-- The multiple of the last place nearest to `x`. -/
def mant (x : ℚ) : ℤ := nearest (x / 2 ^ rexp f x)

/-- The pattern of the absolute value of `x`, rounded; too large numbers become infinite. -/
def bits (x : ℚ) : Nat :=
  if x = 0 then 0 else min f.infBits ((rexp f x - f.qmin).toNat * 2 ^ f.mb + (mant f |x|).toNat)

/-- The exact result `x` of an operation, rounded. -/
def round (x : ℚ) : Val := if bits f x = f.infBits then .inf (decide (x < 0)) else .fin (mant f x * 2 ^ rexp f x)

/-- The bit pattern of a value. -/
def encode : Val → Nat
  | .nan => f.infBits + 2 ^ (f.mb - 1)
  | .inf neg => if neg then f.sign + f.infBits else f.infBits
  | .fin x => if x < 0 then f.sign + bits f x else bits f x

/-! ## Operations -/

def add : Val → Val → Val
  | .fin x, .fin y => round f (x + y)
  | .inf s, .inf t => if s = t then .inf s else .nan
  | .inf s, .fin _ => .inf s
  | .fin _, .inf s => .inf s
  | _, _ => .nan

def mul : Val → Val → Val
  | .fin x, .fin y => round f (x * y)
  | .inf s, .inf t => .inf (s != t)
  | .inf s, .fin x => if x = 0 then .nan else .inf (s != decide (x < 0))
  | .fin x, .inf s => if x = 0 then .nan else .inf (s != decide (x < 0))
  | _, _ => .nan

def neg : Val → Val
  | .fin x => .fin (-x)
  | .inf s => .inf (!s)
  | .nan => .nan

/-- `a < b`; false if one is no number. -/
def less : Val → Val → Bool
  | .fin x, .fin y => decide (x < y)
  | .inf true, .fin _ => true
  | .fin _, .inf false => true
  | .inf true, .inf false => true
  | _, _ => false

/-! ## Specification -/

/-- The finite values of the format. -/
def IsVal (x : ℚ) : Prop := ∃ b, decode f b = .fin x

/-- The largest of them. -/
def Fmt.max : ℚ := (2 ^ f.p - 1) * 2 ^ (f.qmin + 2 ^ f.eb - 3)

/-! ## Lemmas -/

variable {f}

theorem add_swap (v w : Val) : add f v w = add f w v := by
  rcases v with _ | s | x <;> rcases w with _ | t | y <;> simp only [add] <;> first | rw [add_comm] | (cases s <;> cases t <;> rfl)

theorem mul_swap (v w : Val) : mul f v w = mul f w v := by
  rcases v with _ | s | x <;> rcases w with _ | t | y <;> simp only [mul] <;> first | rw [mul_comm] | (cases s <;> cases t <;> rfl)

theorem rexp_neg (x : ℚ) : rexp f (-x) = rexp f x := by rw [rexp, rexp, abs_neg]
theorem rexp_abs (x : ℚ) : rexp f |x| = rexp f x := by rw [rexp, rexp, abs_abs]

theorem mant_neg (x : ℚ) : mant f (-x) = -mant f x := by
  rw [mant, mant, rexp_neg, neg_div, nearest_neg]

theorem two_zpow_pos (i : ℤ) : (0 : ℚ) < 2 ^ i := zpow_pos (by norm_num) _

theorem mant_nonneg {x : ℚ} (h : 0 ≤ x) : 0 ≤ mant f x := by
  have := nearest_mono (x := 0) (y := x / 2 ^ rexp f x) (div_nonneg h (two_zpow_pos _).le)
  have h0 := nearest_int 0
  simp only [Int.cast_zero] at h0
  rwa [h0] at this

theorem mant_abs (x : ℚ) : mant f |x| = |mant f x| := by
  rcases le_total 0 x with h | h
  · rw [abs_of_nonneg h, abs_of_nonneg (mant_nonneg h)]
  · have h1 : 0 ≤ mant f (-x) := mant_nonneg (by linarith)
    rw [abs_of_nonpos h, mant_neg] at *
    rw [abs_of_nonpos (by omega)]

theorem mant_zero : mant f 0 = 0 := by
  have h0 := nearest_int 0
  simp only [Int.cast_zero] at h0
  simp [mant, h0]

/-- The multiple has at most `p` bits, or is the next power of two. -/
theorem mant_le (x : ℚ) : |mant f x| ≤ 2 ^ f.p := by
  rw [← mant_abs]
  have h1 : |x| / 2 ^ rexp f |x| ≤ ((2 ^ f.p : ℤ) : ℚ) := by
    rw [div_le_iff₀ (two_zpow_pos _)]
    push_cast
    refine (lt_log x).le.trans ?_
    rw [← zpow_natCast, ← zpow_add₀ (by norm_num)]
    refine zpow_le_zpow_right₀ (by norm_num) ?_
    have : Int.log 2 |x| + 1 - f.p ≤ rexp f |x| := by
      rw [rexp_abs]
      exact le_max_left _ _
    omega
  have := nearest_mono h1
  rwa [nearest_int] at this

/-- It has exactly `p` bits if the number is not below the normal range. -/
theorem mant_ge {x : ℚ} (hx : x ≠ 0) (h : f.qmin < rexp f x) : 2 ^ f.mb ≤ |mant f x| := by
  rw [← mant_abs]
  have he : rexp f x = Int.log 2 |x| + 1 - f.p := by
    rw [rexp] at h ⊢
    omega
  have h1 : ((2 ^ f.mb : ℤ) : ℚ) ≤ |x| / 2 ^ rexp f |x| := by
    rw [le_div_iff₀ (two_zpow_pos _), rexp_abs, he]
    push_cast
    refine le_trans (le_of_eq ?_) (log_le hx)
    rw [← zpow_natCast, ← zpow_add₀ (by norm_num)]
    congr 1
    rw [Fmt.p]
    push_cast
    ring
  have := nearest_mono h1
  rwa [nearest_int] at this

/-- The value of a pattern made of an exponent and a multiple. -/
theorem mag_eq {k m : Nat} (h1 : m ≤ 2 ^ f.p) (h2 : k = 0 ∨ 2 ^ f.mb ≤ m) :
    mag f (k * 2 ^ f.mb + m) = m * 2 ^ (f.qmin + k) := by
  have hp : 0 < 2 ^ f.mb := by positivity
  rw [Fmt.p, pow_succ] at h1
  rw [mag]
  rcases Nat.lt_or_ge m (2 ^ f.mb) with hm | hm
  · have hk : k = 0 := by
      rcases h2 with h2 | h2
      · exact h2
      · omega
    subst hk
    rw [Nat.zero_mul, Nat.zero_add, if_pos (Nat.div_eq_of_lt hm)]
    simp
  · rcases Nat.lt_or_ge m (2 * 2 ^ f.mb) with hm2 | hm2
    · have hd : (k * 2 ^ f.mb + m) / 2 ^ f.mb = k + 1 := by
        rw [Nat.div_eq_of_lt_le] <;> simp only [Nat.add_mul, Nat.one_mul] <;> omega
      have hr : (k * 2 ^ f.mb + m) % 2 ^ f.mb = m - 2 ^ f.mb := by
        have := Nat.div_add_mod (k * 2 ^ f.mb + m) (2 ^ f.mb)
        rw [hd, Nat.mul_add, Nat.mul_comm] at this
        omega
      rw [hd, hr, if_neg (by omega), Nat.add_sub_of_le hm]
      push_cast
      congr 2
      ring
    · have hm' : m = 2 * 2 ^ f.mb := by omega
      have hd : (k * 2 ^ f.mb + m) / 2 ^ f.mb = k + 2 := by
        rw [hm', ← Nat.add_mul, Nat.mul_div_cancel _ hp]
      have hr : (k * 2 ^ f.mb + m) % 2 ^ f.mb = 0 := by
        rw [hm', ← Nat.add_mul, Nat.mul_mod_left]
      rw [hd, hr, if_neg (by omega), hm', Nat.add_zero]
      push_cast
      rw [show f.qmin + ((k : ℤ) + 2) - 1 = f.qmin + k + 1 by ring, zpow_add₀ (by norm_num) _ 1, zpow_one]
      ring

theorem bits_mag {x : ℚ} (h : bits f x ≠ f.infBits) : mag f (bits f x) = |(mant f x : ℚ)| * 2 ^ rexp f x := by
  rw [bits] at *
  split_ifs at * with hx
  · subst hx
    simp [mag, mant_zero]
  · have hlt : (rexp f x - f.qmin).toNat * 2 ^ f.mb + (mant f |x|).toNat < f.infBits := by omega
    have hq : f.qmin ≤ rexp f x := le_max_right _ _
    have h0 := mant_nonneg (f := f) (abs_nonneg x)
    have hle := mant_le (f := f) x
    rw [min_eq_right hlt.le, mag_eq]
    · rw [Int.toNat_of_nonneg (by omega)]
      have : (((mant f |x|).toNat : ℕ) : ℚ) = |(mant f x : ℚ)| := by
        rw [mant_abs] at h0 ⊢
        have : (((|mant f x|).toNat : ℕ) : ℤ) = |mant f x| := Int.toNat_of_nonneg h0
        exact_mod_cast this
      rw [this]
      congr 2
      ring
    · rw [mant_abs] at *
      zify
      rw [Int.toNat_of_nonneg h0]
      exact_mod_cast hle
    · rcases eq_or_lt_of_le hq with hq | hq
      · left
        omega
      · right
        have := mant_ge hx hq
        rw [mant_abs] at *
        zify
        rw [Int.toNat_of_nonneg h0]
        exact_mod_cast this

theorem infBits_lt : f.infBits < f.sign := by
  rw [Fmt.infBits, Fmt.sign, pow_add]
  have h1 : 0 < 2 ^ f.eb := by positivity
  have h2 : 0 < 2 ^ f.mb := by positivity
  exact Nat.mul_lt_mul_of_pos_right (by omega) h2

theorem bits_le (x : ℚ) : bits f x ≤ f.infBits := by
  rw [bits]
  split_ifs
  · exact Nat.zero_le _
  · exact min_le_left _ _

theorem log_eq {x : ℚ} {i : ℤ} (h1 : (2 : ℚ) ^ i ≤ |x|) (h2 : |x| < 2 ^ (i + 1)) : Int.log 2 |x| = i := by
  have hx : x ≠ 0 := by
    rintro rfl
    have := two_zpow_pos i
    rw [abs_zero] at h1
    linarith
  have a := lt_of_le_of_lt (log_le hx) h2
  have b := lt_of_le_of_lt h1 (lt_log x)
  have a' := (zpow_lt_zpow_iff_right₀ (by norm_num : (1 : ℚ) < 2)).1 a
  have b' := (zpow_lt_zpow_iff_right₀ (by norm_num : (1 : ℚ) < 2)).1 b
  omega

/-- The pattern of a number given by an exponent and a multiple. -/
theorem bits_rep {k m : Nat} {y : ℚ} (h1 : m ≤ 2 ^ f.p) (h2 : k = 0 ∨ 2 ^ f.mb ≤ m) (hy : |y| = m * 2 ^ (f.qmin + k)) :
    bits f y = min f.infBits (k * 2 ^ f.mb + m) := by
  have hp : 0 < 2 ^ f.mb := by positivity
  have hz := two_zpow_pos (f.qmin + k)
  rcases Nat.eq_zero_or_pos m with h0 | h0
  · subst h0
    have hk : k = 0 := by omega
    subst hk
    have : y = 0 := abs_eq_zero.1 (by rw [hy]; simp)
    simp [bits, this]
  · have hm0 : (0 : ℚ) < m := by exact_mod_cast h0
    have hy0 : y ≠ 0 := by
      rintro rfl
      rw [abs_zero] at hy
      have := mul_pos hm0 hz
      linarith
    have mant_of : ∀ (i : ℤ) (z : ℤ), rexp f y = i → |y| = z * 2 ^ i → mant f |y| = z := by
      intro i z hi hzy
      rw [mant, rexp_abs, hi, hzy, mul_div_cancel_right₀ _ (two_zpow_pos i).ne', nearest_int]
    have hpp : ((2 : ℚ) ^ f.p) * 2 ^ (f.qmin + k) = 2 ^ (f.qmin + k + f.p) := by
      rw [← zpow_natCast, ← zpow_add₀ (by norm_num)]
      congr 1
      ring
    rcases Nat.lt_or_ge m (2 ^ f.p) with hm | hm
    · have hm' : (m : ℚ) < 2 ^ f.p := by exact_mod_cast hm
      have hlt : |y| < 2 ^ (f.qmin + k + f.p) := by
        rw [hy, ← hpp]
        exact mul_lt_mul_of_pos_right hm' hz
      have hl : Int.log 2 |y| < f.qmin + k + f.p :=
        (zpow_lt_zpow_iff_right₀ (by norm_num : (1 : ℚ) < 2)).1 (lt_of_le_of_lt (log_le hy0) hlt)
      have hr : rexp f y = f.qmin + k := by
        rcases h2 with h2 | h2
        · subst h2
          rw [rexp]
          push_cast at *
          omega
        · have h2' : ((2 : ℚ) ^ f.mb) ≤ m := by exact_mod_cast h2
          have hge : (2 : ℚ) ^ (f.qmin + k + f.mb) ≤ |y| := by
            rw [hy, zpow_add₀ (by norm_num), zpow_natCast, mul_comm]
            exact mul_le_mul_of_nonneg_right h2' hz.le
          have := (zpow_lt_zpow_iff_right₀ (by norm_num : (1 : ℚ) < 2)).1 (lt_of_le_of_lt hge (lt_log y))
          rw [rexp, Fmt.p] at *
          push_cast at *
          omega
      rw [bits, if_neg hy0, mant_of _ m hr (by rw [hy]; push_cast; rfl), hr]
      congr 1
      rw [show f.qmin + (k : ℤ) - f.qmin = k by ring]
      simp
    · have hm' : m = 2 ^ f.p := by omega
      have hyy : |y| = 2 ^ (f.qmin + k + f.p) := by
        rw [hy, hm', ← hpp]
        push_cast
        rfl
      have hl : Int.log 2 |y| = f.qmin + k + f.p := by
        refine log_eq hyy.ge ?_
        rw [hyy]
        exact zpow_lt_zpow_right₀ (by norm_num) (by omega)
      have hr : rexp f y = f.qmin + k + 1 := by
        rw [rexp, hl]
        omega
      have hv : |y| = ((2 ^ f.mb : ℤ) : ℚ) * 2 ^ (f.qmin + k + 1) := by
        rw [hyy, Fmt.p]
        push_cast
        rw [← zpow_natCast, ← zpow_add₀ (by norm_num)]
        congr 1
        ring
      rw [bits, if_neg hy0, mant_of _ _ hr hv, hr, hm']
      congr 1
      rw [show f.qmin + (k : ℤ) + 1 - f.qmin = ((k + 1 : Nat) : ℤ) by push_cast; ring, Int.toNat_natCast]
      rw [show ((2 : ℤ) ^ f.mb).toNat = 2 ^ f.mb by
        have : ((2 : ℤ) ^ f.mb) = ((2 ^ f.mb : Nat) : ℤ) := by push_cast; rfl
        rw [this, Int.toNat_natCast], Fmt.p, pow_succ, Nat.add_mul]
      omega

/-- Every finite pattern is made of an exponent and a multiple. -/
theorem rep (a : Nat) : ∃ k m : Nat, a = k * 2 ^ f.mb + m ∧ m ≤ 2 ^ f.p ∧ (k = 0 ∨ 2 ^ f.mb ≤ m) := by
  have hp : 0 < 2 ^ f.mb := by positivity
  have hd := Nat.div_add_mod a (2 ^ f.mb)
  have hr := Nat.mod_lt a hp
  rw [Fmt.p, pow_succ]
  rcases Nat.eq_zero_or_pos (a / 2 ^ f.mb) with h | h
  · refine ⟨0, a % 2 ^ f.mb, ?_, by omega, Or.inl rfl⟩
    rw [h, Nat.mul_zero] at hd
    omega
  · refine ⟨a / 2 ^ f.mb - 1, 2 ^ f.mb + a % 2 ^ f.mb, ?_, by omega, Or.inr (by omega)⟩
    rw [Nat.sub_mul, Nat.one_mul, Nat.mul_comm]
    have : 2 ^ f.mb * 1 ≤ 2 ^ f.mb * (a / 2 ^ f.mb) := Nat.mul_le_mul_left _ h
    omega

theorem mag_nonneg (a : Nat) : 0 ≤ mag f a := by
  rw [mag]
  split_ifs
  · exact mul_nonneg (by positivity) (two_zpow_pos _).le
  · exact mul_nonneg (by positivity) (two_zpow_pos _).le

theorem bits_of_mag {a : Nat} (h : a ≤ f.infBits) {y : ℚ} (hy : |y| = mag f a) : bits f y = a := by
  obtain ⟨k, m, rfl, h1, h2⟩ := rep (f := f) a
  rw [mag_eq h1 h2] at hy
  rw [bits_rep h1 h2 hy, min_eq_right h]

theorem decode_neg {a : Nat} (h : a < f.sign) : decode f (f.sign + a) = neg (decode f a) := by
  have h0 : 0 < f.sign := by omega
  have e1 : (f.sign + a) / f.sign = 1 := by
    rw [Nat.add_div_left _ h0, Nat.div_eq_of_lt h]
  have e2 : (f.sign + a) % f.sign = a := by
    rw [Nat.add_mod_left, Nat.mod_eq_of_lt h]
  rw [decode, decode, e1, e2, Nat.div_eq_of_lt h, Nat.mod_eq_of_lt h]
  simp only [Nat.one_mod, Nat.zero_mod]
  split_ifs <;> simp_all [neg]

theorem decode_pos {a : Nat} (h : a < f.infBits) : decode f a = .fin (mag f a) := by
  have hs : a < f.sign := lt_trans h infBits_lt
  rw [decode, Nat.div_eq_of_lt hs, Nat.mod_eq_of_lt hs, if_neg (by omega), if_neg (by omega)]
  simp

theorem decode_inf : decode f f.infBits = .inf false := by
  have hs : f.infBits < f.sign := infBits_lt
  rw [decode, Nat.div_eq_of_lt hs, Nat.mod_eq_of_lt hs, if_neg (by omega), if_pos rfl]
  simp

theorem decode_nan (hm : 0 < f.mb) : decode f (f.infBits + 2 ^ (f.mb - 1)) = .nan := by
  have hp : 0 < 2 ^ (f.mb - 1) := by positivity
  have hs : f.infBits + 2 ^ (f.mb - 1) < f.sign := by
    have h1 : 2 ^ (f.mb - 1) < 2 ^ f.mb := Nat.pow_lt_pow_right (by omega) (by omega)
    have h2 : f.infBits + 2 ^ f.mb = f.sign := by
      rw [Fmt.infBits, Fmt.sign, pow_add, Nat.sub_mul, Nat.one_mul]
      have : 1 * 2 ^ f.mb ≤ 2 ^ f.eb * 2 ^ f.mb := Nat.mul_le_mul_right _ Nat.one_le_two_pow
      omega
    omega
  rw [decode, Nat.mod_eq_of_lt hs, if_pos (by omega)]

/-- The number a rounding gives is the one of the pattern. -/
theorem decode_round (x : ℚ) : decode f (if x < 0 then f.sign + bits f x else bits f x) = round f x := by
  have hb := bits_le (f := f) x
  have hs : bits f x < f.sign := lt_of_le_of_lt hb infBits_lt
  have key : decode f (bits f x) = if bits f x = f.infBits then .inf false else .fin (|(mant f x : ℚ)| * 2 ^ rexp f x) := by
    split_ifs with h
    · rw [h, decode_inf]
    · rw [decode_pos (by omega), bits_mag h]
  rw [round]
  split_ifs with h1 h2 h2
  · rw [decode_neg hs, key, if_pos h2]
    simp [neg, h1]
  · have : 0 ≤ mant f (-x) := mant_nonneg (by linarith)
    rw [mant_neg] at this
    have h3 : (mant f x : ℚ) ≤ 0 := by exact_mod_cast (by omega : mant f x ≤ 0)
    rw [decode_neg hs, key, if_neg h2, neg, abs_of_nonpos h3]
    ring_nf
  · rw [key, if_pos h2]
    simp [h1]
  · have : 0 ≤ mant f x := mant_nonneg (by linarith)
    have h3 : (0 : ℚ) ≤ mant f x := by exact_mod_cast this
    rw [key, if_neg h2, abs_of_nonneg h3]

/-- Encoding a value that some pattern has gives a pattern of that value. -/
theorem decode_encode (hm : 0 < f.mb) (b : Nat) : decode f (encode f (decode f b)) = decode f b := by
  generalize hv : decode f b = v
  rw [decode] at hv
  have h0 : 0 < f.sign := by rw [Fmt.sign]; positivity
  have ha : b % f.sign < f.sign := Nat.mod_lt _ h0
  generalize b % f.sign = a at *
  generalize decide (b / f.sign % 2 = 1) = s at hv
  split_ifs at hv with h1 h2 h3 <;> subst hv
  · rw [encode, decode_nan hm]
  · rw [encode]
    cases s
    · simp [decode_inf]
    · simp [decode_neg infBits_lt, decode_inf, neg]
  · have hlt : a < f.infBits := by omega
    have hb : bits f (-mag f a) = a := bits_of_mag (by omega) (by rw [abs_neg, abs_of_nonneg (mag_nonneg a)])
    rw [encode, hb]
    split_ifs with h4
    · rw [decode_neg ha, decode_pos hlt, neg]
    · have : mag f a = 0 := le_antisymm (by linarith) (mag_nonneg a)
      rw [decode_pos hlt, this, neg_zero]
  · have hlt : a < f.infBits := by omega
    have hb : bits f (mag f a) = a := bits_of_mag (by omega) (by rw [abs_of_nonneg (mag_nonneg a)])
    have := mag_nonneg (f := f) a
    rw [encode, hb, if_neg (by linarith), decode_pos hlt]

theorem decode_encode_round (hm : 0 < f.mb) (x : ℚ) : decode f (encode f (round f x)) = round f x := by
  rw [← decode_round x, decode_encode hm]

theorem encode_lt (hm : 0 < f.mb) (v : Val) : encode f v < 2 * f.sign := by
  have hi : f.infBits < f.sign := infBits_lt
  have hn : f.infBits + 2 ^ (f.mb - 1) < 2 * f.sign := by
    have : 2 ^ (f.mb - 1) ≤ f.sign := Nat.pow_le_pow_right (by omega) (by omega)
    omega
  cases v with
  | nan => exact hn
  | inf s => rw [encode]; split_ifs <;> omega
  | fin x =>
    have := bits_le (f := f) x
    rw [encode]
    split_ifs <;> omega

/-- What a rounding gives has the same pattern. -/
theorem bits_mant (x : ℚ) : bits f (mant f x * 2 ^ rexp f x) = bits f x := by
  by_cases hx : x = 0
  · subst hx
    simp [mant_zero]
  · have hq : f.qmin ≤ rexp f x := le_max_right _ _
    have h0 := mant_nonneg (f := f) (abs_nonneg x)
    have hle := mant_le (f := f) x
    have hc : (((mant f |x|).toNat : ℕ) : ℤ) = |mant f x| := by rw [Int.toNat_of_nonneg h0, mant_abs]
    have hc' : (((mant f |x|).toNat : ℕ) : ℚ) = |(mant f x : ℚ)| := by exact_mod_cast hc
    rw [bits_rep (k := (rexp f x - f.qmin).toNat) (m := (mant f |x|).toNat)]
    · conv_rhs => rw [bits, if_neg hx]
    · have : ((2 ^ f.p : Nat) : ℤ) = 2 ^ f.p := by push_cast; rfl
      omega
    · rcases eq_or_lt_of_le hq with hq | hq
      · left
        omega
      · right
        have := mant_ge hx hq
        have h2 : ((2 ^ f.mb : Nat) : ℤ) = 2 ^ f.mb := by push_cast; rfl
        omega
    · rw [abs_mul, abs_of_pos (two_zpow_pos _), hc', Int.toNat_of_nonneg (by omega)]
      congr 2
      ring

/-- The values of the format are not changed by rounding. -/
theorem round_isVal {x : ℚ} (h : IsVal f x) : round f x = .fin x := by
  obtain ⟨b, hb⟩ := h
  rw [decode] at hb
  have hs : 0 < f.sign := by rw [Fmt.sign]; positivity
  have ha : b % f.sign < f.sign := Nat.mod_lt _ hs
  generalize b % f.sign = a at *
  generalize decide (b / f.sign % 2 = 1) = s at hb
  split_ifs at hb with h1 h2 h3
  · injection hb with hb
    have hx : bits f x = a := bits_of_mag (by omega) (by rw [← hb, abs_neg, abs_of_nonneg (mag_nonneg a)])
    have h0 := mag_nonneg (f := f) a
    rw [← decode_round, hx]
    split_ifs with h4
    · rw [decode_neg ha, decode_pos (by omega), neg, hb]
    · rw [decode_pos (by omega)]
      congr 1
      linarith
  · injection hb with hb
    have hx : bits f x = a := bits_of_mag (by omega) (by rw [← hb, abs_of_nonneg (mag_nonneg a)])
    have h0 := mag_nonneg (f := f) a
    rw [← decode_round, hx, if_neg (by linarith), decode_pos (by omega), hb]

theorem round_fin {x y : ℚ} (h : round f x = .fin y) : bits f x ≠ f.infBits ∧ y = mant f x * 2 ^ rexp f x := by
  rw [round] at h
  split_ifs at h with h1
  injection h with h
  exact ⟨h1, h.symm⟩

/-- What rounding gives is a value of the format. -/
theorem round_val {x y : ℚ} (h : round f x = .fin y) : IsVal f y := ⟨_, (decode_round x).trans h⟩

/-- The error of rounding. -/
theorem round_err {x y : ℚ} (h : round f x = .fin y) : |y - x| ≤ max (|x| / 2 ^ f.p) (2 ^ (f.qmin - 1)) := by
  by_cases hx : x = 0
  · subst hx
    obtain ⟨-, rfl⟩ := round_fin h
    rw [mant_zero]
    simp only [Int.cast_zero, zero_mul, sub_self, abs_zero]
    exact le_max_of_le_right (two_zpow_pos _).le
  obtain ⟨-, rfl⟩ := round_fin h
  have hu := two_zpow_pos (rexp f x)
  have h1 := nearest_err (x / 2 ^ rexp f x)
  have h2 : mant f x * 2 ^ rexp f x - x = (nearest (x / 2 ^ rexp f x) - x / 2 ^ rexp f x) * 2 ^ rexp f x := by
    rw [mant]
    field_simp
  have h3 : |mant f x * 2 ^ rexp f x - x| ≤ 2 ^ (rexp f x - 1) := by
    rw [h2, abs_mul, abs_of_pos hu, zpow_sub₀ (by norm_num), zpow_one]
    have := mul_le_mul_of_nonneg_right h1 hu.le
    linarith
  refine h3.trans ?_
  rcases max_cases (Int.log 2 |x| + 1 - f.p) f.qmin with ⟨h4, -⟩ | ⟨h4, -⟩
  · refine le_max_of_le_left ?_
    rw [rexp, h4, le_div_iff₀ (by positivity), ← zpow_natCast, ← zpow_add₀ (by norm_num)]
    refine le_trans (le_of_eq ?_) (log_le hx)
    congr 1
    ring
  · refine le_max_of_le_right ?_
    rw [rexp, h4]

/-- Rounding is exact for multiples of the last place of few bits. -/
theorem mant_exact {x : ℚ} {m e : ℤ} (hm : |m| ≤ 2 ^ f.p) (he : f.qmin ≤ e) (hx : x = m * 2 ^ e) :
    mant f x * 2 ^ rexp f x = x := by
  by_cases h0 : x = 0
  · rw [h0, mant_zero]
    simp
  have hz := two_zpow_pos e
  have hm' : |(m : ℚ)| ≤ 2 ^ f.p := by exact_mod_cast hm
  have hax : |x| = |(m : ℚ)| * 2 ^ e := by rw [hx, abs_mul, abs_of_pos hz]
  -- if `x` is a multiple of the last place we are done
  have key : ∀ z : ℤ, x = z * 2 ^ rexp f x → mant f x * 2 ^ rexp f x = x := by
    intro z hz
    have : x / 2 ^ rexp f x = z := by
      rw [div_eq_iff (two_zpow_pos _).ne']
      exact hz
    rw [mant, this, nearest_int, ← hz]
  have hpp : ((2 : ℚ) ^ f.p) * 2 ^ e = 2 ^ (e + f.p) := by
    rw [← zpow_natCast, ← zpow_add₀ (by norm_num)]
    congr 1
    ring
  rcases lt_or_eq_of_le hm' with h | h
  · have hlt : |x| < 2 ^ (e + f.p) := by
      rw [hax, ← hpp]
      exact mul_lt_mul_of_pos_right h hz
    have hl : Int.log 2 |x| < e + f.p :=
      (zpow_lt_zpow_iff_right₀ (by norm_num : (1 : ℚ) < 2)).1 (lt_of_le_of_lt (log_le h0) hlt)
    have hr : rexp f x ≤ e := by
      rw [rexp]
      omega
    refine key (m * 2 ^ (e - rexp f x).toNat) ?_
    push_cast
    rw [← zpow_natCast, Int.toNat_of_nonneg (by omega), mul_assoc, ← zpow_add₀ (by norm_num), sub_add_cancel, ← hx]
  · have hxx : |x| = 2 ^ (e + f.p) := by rw [hax, h, hpp]
    have hl : Int.log 2 |x| = e + f.p := by
      refine log_eq hxx.ge ?_
      rw [hxx]
      exact zpow_lt_zpow_right₀ (by norm_num) (by omega)
    have hr : rexp f x = e + 1 := by
      rw [rexp, hl]
      omega
    have h5 : (2 : ℚ) ^ (e + f.p) = ((2 ^ f.mb : ℤ) : ℚ) * 2 ^ rexp f x := by
      rw [hr, Fmt.p]
      push_cast
      rw [← zpow_natCast, ← zpow_add₀ (by norm_num)]
      congr 1
      ring
    rw [h5] at hxx
    rcases abs_eq (a := x) (b := ((2 ^ f.mb : ℤ) : ℚ) * 2 ^ rexp f x)
      (mul_nonneg (by positivity) (two_zpow_pos _).le) |>.1 hxx with h6 | h6
    · exact key _ h6
    · exact key (-2 ^ f.mb) (h6.trans (by push_cast; ring))

/-- Numbers up to the largest value do not become infinite. -/
theorem bits_finite (he : 2 ≤ f.eb) {x : ℚ} (h : |x| ≤ f.max) : bits f x ≠ f.infBits := by
  have hpe : 2 ^ 2 ≤ 2 ^ f.eb := Nat.pow_le_pow_right (by omega) he
  have hpm : 0 < 2 ^ f.mb := by positivity
  have hinf : 0 < f.infBits := Nat.mul_pos (by omega) hpm
  by_cases hx : x = 0
  · rw [bits, if_pos hx]
    omega
  have hmx : f.max < 2 ^ (f.qmin + 2 ^ f.eb - 3 + f.p) := by
    rw [Fmt.max, zpow_add₀ (by norm_num) (f.qmin + 2 ^ f.eb - 3), zpow_natCast]
    have := two_zpow_pos (f.qmin + 2 ^ f.eb - 3)
    nlinarith
  have hl : Int.log 2 |x| < f.qmin + 2 ^ f.eb - 3 + f.p :=
    (zpow_lt_zpow_iff_right₀ (by norm_num : (1 : ℚ) < 2)).1 (lt_of_le_of_lt ((log_le hx).trans h) hmx)
  have hpe' : (2 : ℤ) ^ f.eb = ((2 ^ f.eb : Nat) : ℤ) := by push_cast; rfl
  have hr : rexp f x ≤ f.qmin + 2 ^ f.eb - 3 := by
    have h4 : (4 : ℤ) ≤ 2 ^ f.eb := by exact_mod_cast hpe
    rw [rexp]
    generalize (2 : ℤ) ^ f.eb = E at *
    omega
  have h0 := mant_nonneg (f := f) (abs_nonneg x)
  have hle := mant_le (f := f) x
  rw [← mant_abs] at hle
  have hpp : (2 : ℤ) ^ f.p = ((2 * 2 ^ f.mb : Nat) : ℤ) := by rw [Fmt.p, pow_succ]; push_cast; ring
  rw [bits, if_neg hx]
  suffices (rexp f x - f.qmin).toNat * 2 ^ f.mb + (mant f |x|).toNat < f.infBits by omega
  have hinf' : f.infBits = (2 ^ f.eb - 3) * 2 ^ f.mb + 2 * 2 ^ f.mb := by
    rw [Fmt.infBits, ← Nat.add_mul]
    congr 1
    omega
  rcases lt_or_eq_of_le hr with hr | hr
  · have hk : (rexp f x - f.qmin).toNat + 1 ≤ 2 ^ f.eb - 3 := by
      rw [hpe'] at hr
      omega
    have := Nat.mul_le_mul_right (2 ^ f.mb) hk
    rw [Nat.add_mul, Nat.one_mul] at this
    omega
  · have hk : (rexp f x - f.qmin).toNat = 2 ^ f.eb - 3 := by
      rw [hpe'] at hr
      omega
    have hm : mant f |x| ≤ 2 ^ f.p - 1 := by
      have h1 : |x| / 2 ^ rexp f |x| ≤ ((2 ^ f.p - 1 : ℤ) : ℚ) := by
        rw [div_le_iff₀ (two_zpow_pos _), rexp_abs, hr]
        push_cast
        exact h
      have := nearest_mono h1
      rwa [nearest_int] at this
    rw [hk, hinf']
    rw [hpp] at hm
    omega

/-- Multiples of powers of two with few bits are values of the format. -/
theorem round_exact (he : 2 ≤ f.eb) {x : ℚ} {m e : ℤ} (hm : |m| ≤ 2 ^ f.p) (hq : f.qmin ≤ e) (hx : x = m * 2 ^ e)
    (h : |x| ≤ f.max) : round f x = .fin x := by
  rw [round, if_neg (bits_finite he h), mant_exact hm hq hx]

/-- Rounding never gives a NaN. -/
theorem round_ne_nan (x : ℚ) : round f x ≠ .nan := by
  rw [round]
  split_ifs <;> simp

theorem nearest_eq {x : ℚ} {z : ℤ} (h : |x - z| < 1 / 2) : nearest x = z := by
  have h1 := nearest_err x
  have h2 := abs_sub_le (nearest x : ℚ) x z
  have h3 : |((nearest x - z : ℤ) : ℚ)| < 1 := by
    push_cast
    linarith
  have h4 : |nearest x - z| < 1 := by exact_mod_cast h3
  have := abs_lt.1 h4
  omega

/-- Adding less than a quarter of the last place changes nothing. -/
theorem round_stuck {v d : ℚ} (hv : IsVal f v) (h0 : v ≠ 0) (hd : |d| < 2 ^ rexp f v / 4) : round f (v + d) = .fin v := by
  obtain ⟨hb, hm⟩ := round_fin (round_isVal hv)
  set e := rexp f v with he
  have hz := two_zpow_pos e
  have hq : f.qmin ≤ e := le_max_right _ _
  have hpos : 0 < f.p := by rw [Fmt.p]; omega
  have hav : |v| = |(mant f v : ℚ)| * 2 ^ e := by
    conv_lhs => rw [hm]
    rw [abs_mul, abs_of_pos hz]
  have hm1 : 1 ≤ |mant f v| := by
    by_contra hc
    have : mant f v = 0 := abs_eq_zero.1 (by have := abs_nonneg (mant f v); omega)
    rw [this] at hm
    simp at hm
    exact h0 hm
  -- the exponent of `v`
  set L := Int.log 2 |v| with hL
  have hve : (2 : ℚ) ^ e ≤ |v| := by
    have : (1 : ℚ) ≤ |(mant f v : ℚ)| := by exact_mod_cast hm1
    rw [hav]
    nlinarith
  have heL : e ≤ L := by
    have := (zpow_lt_zpow_iff_right₀ (by norm_num : (1 : ℚ) < 2)).1 (lt_of_le_of_lt hve (lt_log v))
    omega
  have hmax : e = max (L + 1 - f.p) f.qmin := he
  have hup : |v| + 2 ^ e ≤ 2 ^ (L + 1) := by
    obtain ⟨z, hz'⟩ : ∃ z : ℤ, (2 : ℚ) ^ (L + 1) = z * 2 ^ e := by
      refine ⟨2 ^ (L + 1 - e).toNat, ?_⟩
      push_cast
      rw [← zpow_natCast, Int.toNat_of_nonneg (by omega), ← zpow_add₀ (by norm_num)]
      congr 1
      ring
    have h1 := lt_log v
    rw [← hL, hz', hav] at h1
    have h2 : |(mant f v : ℚ)| < z := lt_of_mul_lt_mul_right h1 hz.le
    have h3 : |mant f v| < z := by exact_mod_cast h2
    have h4 : |(mant f v : ℚ)| + 1 ≤ z := by exact_mod_cast h3
    rw [hz', hav]
    nlinarith
  have hlow : (2 : ℚ) ^ L ≤ |v| := log_le h0
  have heL' : (2 : ℚ) ^ e ≤ 2 ^ L := zpow_le_zpow_right₀ (by norm_num) heL
  have hL1 : (2 : ℚ) ^ L = 2 * 2 ^ (L - 1) := by
    rw [zpow_sub₀ (by norm_num), zpow_one]
    ring
  have t1 := abs_add_le v d
  have t2 : |v| - |d| ≤ |v + d| := by
    have := abs_add_le (v + d) (-d)
    rw [add_neg_cancel_right, abs_neg] at this
    linarith
  have hne : v + d ≠ 0 := by
    intro hc
    rw [hc, abs_zero] at t2
    linarith
  have hlog : Int.log 2 |v + d| = L ∨ Int.log 2 |v + d| = L - 1 := by
    rcases le_or_gt ((2 : ℚ) ^ L) |v + d| with hc | hc
    · left
      exact log_eq hc (by linarith)
    · right
      refine log_eq (by linarith) ?_
      rwa [sub_add_cancel]
  have hr : rexp f (v + d) = e ∨ rexp f (v + d) = e - 1 := by
    rw [rexp]
    rcases hlog with hl | hl <;> rw [hl] <;> omega
  -- the nearest multiple is `v`
  have hmant : ∃ z : ℤ, v = z * 2 ^ rexp f (v + d) ∧ mant f (v + d) = z := by
    have hfin : ∀ (z : ℤ) (i : ℤ), rexp f (v + d) = i → v = z * 2 ^ i → |d| < 2 ^ i / 2 → mant f (v + d) = z := by
      intro z i hi hv hd
      have hp := two_zpow_pos i
      rw [mant, hi]
      apply nearest_eq
      have : (v + d) / 2 ^ i - z = d / 2 ^ i := by
        rw [hv]
        field_simp
        ring
      rw [this, abs_div, abs_of_pos hp, div_lt_iff₀ hp]
      linarith
    rcases hr with hr | hr
    · exact ⟨mant f v, by rw [hr]; exact hm, hfin _ e hr hm (by linarith)⟩
    · have h2 : (2 : ℚ) ^ e = 2 * 2 ^ (e - 1) := by
        rw [zpow_sub₀ (by norm_num), zpow_one]
        ring
      have hv2 : v = ((mant f v * 2 : ℤ) : ℚ) * 2 ^ (e - 1) := by
        conv_lhs => rw [hm, h2]
        push_cast
        ring
      exact ⟨mant f v * 2, by rw [hr]; exact hv2, hfin _ (e - 1) hr hv2 (by linarith)⟩
  obtain ⟨z, hz1, hz2⟩ := hmant
  have hbits : bits f (v + d) = bits f v := by
    rw [← bits_mant (v + d), hz2, ← hz1]
  rw [round, hbits, if_neg hb, hz2, ← hz1]

/-- 0.1, -2.5, the largest float, the least subnormal, a number between 0 and the half of it, and one too large. -/
example : encode binary32 (round binary32 (1 / 10)) = 0x3DCCCCCD ∧ encode binary32 (round binary32 (-5 / 2)) = 0xC0200000 ∧
    decode binary32 0x7F7FFFFF = .fin binary32.max ∧ decode binary32 1 = .fin (1 / 2 ^ 149) ∧
    round binary32 (1 / 2 ^ 151) = .fin 0 ∧ round binary32 (2 ^ 128) = .inf false ∧ decode binary32 0x7FC00000 = .nan := by
  decide +kernel

example : encode binary64 (round binary64 (1 / 10)) = 0x3FB999999999999A ∧
    round binary64 (2 ^ 53 + 1) = .fin (2 ^ 53) ∧ round binary64 (2 ^ 53 + 3) = .fin (2 ^ 53 + 4) := by decide +kernel

end Gel.Ieee
