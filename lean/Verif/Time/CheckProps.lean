import Verif.Time.Check
import Mathlib.Tactic.Ring
import Mathlib.Tactic.Linarith
import Mathlib.Tactic.Positivity
import Mathlib.Tactic.SplitIfs

/-!
# Time checks: properties C53 to C55

The true times are integers; a timestamp is a true time modulo 2^w.
-/
namespace Gel.Time

/-- The timestamp of a true time. -/
def stamp (w : Nat) (t : Int) : BitVec w := BitVec.ofInt w t

theorem bmod_small (z : Int) (w : Nat) (h1 : -(2 ^ w : Int) ≤ 2 * z) (h2 : 2 * z < 2 ^ w) : z.bmod (2 ^ w) = z := by
  apply Int.bmod_eq_of_le_mul_two
  · rw [Int.natCast_pow]; push_cast; omega
  · rw [Int.natCast_pow]; push_cast; omega

theorem stamp_sub (w : Nat) (a b : Int) : stamp w a - stamp w b = stamp w (a - b) := by
  rw [stamp, stamp, stamp, BitVec.sub_eq_add_neg, ← BitVec.ofInt_neg, ← BitVec.ofInt_add, Int.sub_eq_add_neg]

theorem stamp_add (w : Nat) (a b : Int) : stamp w a + stamp w b = stamp w (a + b) := by
  rw [stamp, stamp, stamp, BitVec.ofInt_add]

theorem stamp_toInt (w : Nat) (z : Int) (h1 : -(2 ^ w : Int) ≤ 2 * z) (h2 : 2 * z < 2 ^ w) : (stamp w z).toInt = z := by
  rw [stamp, BitVec.toInt_ofInt, bmod_small z w h1 h2]

/-- **C53.** With the deadline less than half the range ahead, or at most half the range ago, the checks compare the
true times; time_after and time_before order true times less than half the range apart. -/
theorem C53_expired (w : Nat) (start now delay : Int) :
    (-(2 ^ w : Int) ≤ 2 * (start + delay - now) → 2 * (start + delay - now) < 2 ^ w →
      (isLooselyExpired (stamp w start) (stamp w now) (stamp w delay) = true ↔ start + delay ≤ now) ∧
      (isStrictlyExpired (stamp w start) (stamp w now) (stamp w delay) = true ↔ start + delay < now)) ∧
    (-(2 ^ w : Int) < 2 * (start - now) → 2 * (start - now) < 2 ^ w →
      (timeAfter (stamp w now) (stamp w start) = true ↔ start < now) ∧
      (timeAfterOrEqual (stamp w now) (stamp w start) = true ↔ start ≤ now) ∧
      (timeBefore (stamp w now) (stamp w start) = true ↔ now < start)) := by
  constructor
  · intro h1 h2
    rw [isLooselyExpired, isStrictlyExpired, timeAfterOrEqual, timeAfter, stamp_add, stamp_sub, stamp_toInt w _ h1 h2,
      decide_eq_true_iff, decide_eq_true_iff]
    omega
  · intro h1 h2
    rw [timeBefore, timeAfter, timeAfterOrEqual, timeAfter, stamp_sub, stamp_sub, stamp_toInt w _ (by omega) h2,
      stamp_toInt w _ (by omega) (by omega), decide_eq_true_iff, decide_eq_true_iff, decide_eq_true_iff]
    omega

/-- A deadline across the wrap of an 8 bit timestamp. -/
example : isLooselyExpired (stamp 8 250) (stamp 8 259) (stamp 8 10) = false ∧
    isLooselyExpired (stamp 8 250) (stamp 8 260) (stamp 8 10) = true ∧
    isStrictlyExpired (stamp 8 250) (stamp 8 260) (stamp 8 10) = false := by decide

/-- **C53**, the bounds are needed: exactly half the range before the deadline it already counts as expired. -/
theorem C53_bound (w : Nat) (hw : 0 < w) (start delay : Int) :
    isStrictlyExpired (stamp w start) (stamp w (start + delay - 2 ^ (w - 1))) (stamp w delay) = true := by
  rw [isStrictlyExpired, timeAfter, stamp_add, stamp_sub, decide_eq_true_iff,
    show start + delay - (start + delay - 2 ^ (w - 1)) = (2 : Int) ^ (w - 1) by ring]
  have h2 : (2 : Int) ^ w = 2 * 2 ^ (w - 1) := by rw [← pow_succ']; congr 1; omega
  have : stamp w (2 ^ (w - 1)) = stamp w (-2 ^ (w - 1)) := by
    rw [stamp, stamp]
    apply BitVec.eq_of_toInt_eq
    rw [BitVec.toInt_ofInt, BitVec.toInt_ofInt]
    apply Int.bmod_eq_bmod_iff_bmod_sub_eq_zero.2
    rw [show (2 : Int) ^ (w - 1) - -2 ^ (w - 1) = ((2 ^ w : Nat) : Int) by push_cast; rw [h2]; ring]
    exact Int.bmod_self
  have hp : (0 : Int) < 2 ^ (w - 1) := by positivity
  rw [this, stamp_toInt w _ (by omega) (by omega)]
  omega

/-- **C54.** `time_interval` is the distance of the true times, if at most half the range, and symmetric always. -/
theorem C54_interval (w : Nat) :
    (∀ a b : Int, 2 * (b - a) ≤ 2 ^ w → 2 * (a - b) ≤ 2 ^ w →
      timeInterval (stamp w a) (stamp w b) = stamp w |b - a|) ∧
    (∀ x y : BitVec w, timeInterval x y = timeInterval y x) := by
  constructor
  · intro a b h1 h2
    rw [timeInterval, timeAfter, stamp_sub]
    by_cases he : 2 * (b - a) = 2 ^ w
    · -- exactly half the range: both signs have the same stamp
      have hs : stamp w (b - a) = -stamp w (b - a) := by
        rw [stamp, ← BitVec.ofInt_neg]
        apply BitVec.eq_of_toInt_eq
        rw [BitVec.toInt_ofInt, BitVec.toInt_ofInt]
        apply Int.bmod_eq_bmod_iff_bmod_sub_eq_zero.2
        rw [show b - a - -(b - a) = ((2 ^ w : Nat) : Int) by push_cast; omega]
        exact Int.bmod_self
      have hp : (0 : Int) < 2 ^ w := by positivity
      rw [abs_of_nonneg (by omega)]
      split_ifs
      · exact hs.symm
      · rfl
    · rw [stamp_toInt w _ (by omega) (by omega)]
      by_cases hn : b - a < 0
      · rw [if_pos (by simpa using hn), abs_of_neg hn, stamp, stamp, BitVec.ofInt_neg]
      · rw [if_neg (by simpa using hn), abs_of_nonneg (by omega)]
  · intro x y
    have hneg : -(y - x) = x - y := by rw [BitVec.neg_sub, BitVec.sub_eq_add_neg, BitVec.add_comm]
    rw [timeInterval, timeInterval, timeAfter, timeAfter, ← hneg, BitVec.neg_neg]
    generalize y - x = z
    by_cases hm : z = BitVec.intMin w
    · subst hm
      rw [BitVec.neg_intMin]
    · rw [BitVec.toInt_neg_of_ne_intMin hm]
      by_cases h0 : z.toInt = 0
      · have : z = 0 := BitVec.eq_of_toInt_eq (by rw [h0]; simp)
        subst this; simp
      · by_cases h1 : z.toInt < 0
        · rw [if_pos (by simpa using h1), if_neg (by simp; omega)]
        · rw [if_neg (by simpa using h1), if_pos (by simp; omega)]

example : timeInterval (stamp 8 250) (stamp 8 260) = 10 ∧ timeInterval (stamp 8 260) (stamp 8 250) = 10 := by decide

/-! ## C55 -/

theorem wrapU_eq (w : Nat) (x : Int) : wrapU w x = ((stamp w x).toNat : Int) := by
  rw [wrapU, stamp, BitVec.toNat_ofInt, Int.toNat_of_nonneg]
  · push_cast; rfl
  · apply Int.emod_nonneg; push_cast; positivity

theorem wrapU_wrapU (w : Nat) (x y : Int) : wrapU w (wrapU w x - y) = wrapU w (x - y) := by
  simp only [wrapU]; exact Int.emod_sub_emod ..

/-- **C55** (partial). For a timestamp type at least as wide as `int` and `long` the checks compare the true times, as
long as the deadline is less than half the range of `long` (not of the timestamp type) ahead, or at most that ago.
Missing: narrower types, for which the claim is false (`C55_narrow`, `C55_between`), and times further apart. -/
theorem C55_wide_partial (T : Types) (h1 : T.int ≤ T.stamp) (h2 : T.long ≤ T.stamp) (start now delay : Int)
    (b1 : -(2 ^ T.long : Int) ≤ 2 * (start + delay - now)) (b2 : 2 * (start + delay - now) < 2 ^ T.long) :
    (T.isLooselyExpired (stamp _ start) (stamp _ now) (stamp _ delay) = .ok (decide (start + delay ≤ now))) ∧
    (T.isStrictlyExpired (stamp _ start) (stamp _ now) (stamp _ delay) = .ok (decide (start + delay < now))) := by
  have ha : ∀ x, T.arith x = .ok (wrapU T.stamp x) := fun x => by rw [Types.arith, if_neg (by omega)]
  have hm : wrapU T.stamp (((stamp T.stamp start).toNat : Int) + ((stamp T.stamp delay).toNat : Int) -
      ((stamp T.stamp now).toNat : Int)) = wrapU T.stamp (start + delay - now) := by
    rw [← wrapU_eq, ← wrapU_eq, ← wrapU_eq]
    simp only [wrapU]
    rw [Int.sub_emod, Int.add_emod, Int.emod_emod, Int.emod_emod, Int.emod_emod, ← Int.add_emod, ← Int.sub_emod]
  have hl : T.toLong (wrapU T.stamp (start + delay - now)) = start + delay - now := by
    rw [Types.toLong, wrapS, BitVec.toInt_ofInt, wrapU]
    have : ((start + delay - now) % 2 ^ T.stamp).bmod (2 ^ T.long) = (start + delay - now).bmod (2 ^ T.long) := by
      rw [Int.bmod_eq_bmod_iff_bmod_sub_eq_zero]
      have hd : ((2 ^ T.long : Nat) : Int) ∣ (start + delay - now) % 2 ^ T.stamp - (start + delay - now) := by
        rw [Int.emod_def]
        have : (2 : Int) ^ T.stamp = ((2 ^ T.long : Nat) : Int) * 2 ^ (T.stamp - T.long) := by
          push_cast; rw [← pow_add]; congr 1; omega
        rw [this]
        exact ⟨-(2 ^ (T.stamp - T.long) * ((start + delay - now) / (((2 ^ T.long : Nat) : Int) * 2 ^ (T.stamp - T.long)))),
          by ring⟩
      exact Int.bmod_eq_zero_of_dvd hd
    rw [this, bmod_small _ _ b1 b2]
  rw [Types.isLooselyExpired, Types.isStrictlyExpired, ha]
  simp only [Res.ok_bind, ha, wrapU_wrapU, hm, hl, Res.pure_eq]
  constructor
  · congr 1; apply decide_eq_decide.2; omega
  · congr 1; apply decide_eq_decide.2; omega

/-- **C55**, types narrower than `int`: the timestamps are compared as numbers, so a deadline behind the wrap is never
reached by a time behind the wrap. -/
theorem C55_narrow (T : Types) (h1 : T.stamp + 2 ≤ T.int) (h2 : T.int ≤ T.long) (start now delay : BitVec T.stamp) :
    T.isLooselyExpired start now delay = .ok (decide (start.toNat + delay.toNat ≤ now.toNat)) ∧
    T.isStrictlyExpired start now delay = .ok (decide (start.toNat + delay.toNat < now.toNat)) ∧
    (2 ^ T.stamp ≤ start.toNat + delay.toNat → T.isLooselyExpired start now delay = .ok false) := by
  have hs := start.isLt
  have hn := now.isLt
  have hd := delay.isLt
  have hp : (2 : Int) ^ (T.int - 1) = 2 ^ (T.stamp + 1) * 2 ^ (T.int - 2 - T.stamp) := by
    rw [← pow_add]; congr 1; omega
  have h3 : (2 : Int) * 2 ^ T.stamp ≤ 2 ^ (T.int - 1) := by
    rw [hp, pow_succ']
    have : (1 : Int) ≤ 2 ^ (T.int - 2 - T.stamp) := one_le_pow₀ (by norm_num)
    nlinarith [show (0 : Int) < 2 ^ T.stamp by positivity]
  have h4 : (2 : Int) ^ (T.int - 1) * 2 ≤ 2 ^ T.long := by
    rw [← pow_succ]; apply pow_le_pow_right₀ (by norm_num); omega
  have hcast : ((2 ^ T.stamp : Nat) : Int) = 2 ^ T.stamp := by push_cast; rfl
  have ha : ∀ x : Int, -(2 * 2 ^ T.stamp) ≤ x → x < 2 * 2 ^ T.stamp → T.arith x = .ok x := fun x hx1 hx2 => by
    rw [Types.arith, if_pos (by omega), chkS, if_pos (by omega)]
  have hl : ∀ x : Int, -(2 * 2 ^ T.stamp) ≤ x → x < 2 * 2 ^ T.stamp → T.toLong x = x := fun x hx1 hx2 => by
    rw [Types.toLong, wrapS, BitVec.toInt_ofInt, bmod_small _ _ (by omega) (by omega)]
  rw [Types.isLooselyExpired, Types.isStrictlyExpired, ha _ (by omega) (by omega)]
  simp only [Res.ok_bind]
  rw [ha _ (by omega) (by omega)]
  simp only [Res.ok_bind, Res.pure_eq]
  rw [hl _ (by omega) (by omega)]
  refine ⟨?_, ?_, ?_⟩
  · congr 1; apply decide_eq_decide.2; omega
  · congr 1; apply decide_eq_decide.2; omega
  · intro h; congr 1; simp; omega

/-- **C55**, types as wide as `int` but narrower than `long`: the loose check is true only exactly at the deadline, the
strict check never. -/
theorem C55_between (T : Types) (h1 : T.int ≤ T.stamp) (h2 : T.stamp < T.long) (start now delay : BitVec T.stamp) :
    T.isLooselyExpired start now delay = .ok (decide (now = start + delay)) ∧
    T.isStrictlyExpired start now delay = .ok false := by
  have ha : ∀ x, T.arith x = .ok (wrapU T.stamp x) := fun x => by rw [Types.arith, if_neg (by omega)]
  have hp : (0 : Int) < 2 ^ T.stamp := by positivity
  have h4 : (2 : Int) ^ T.stamp * 2 ≤ 2 ^ T.long := by
    rw [← pow_succ]; apply pow_le_pow_right₀ (by norm_num); omega
  have hl : ∀ x, T.toLong (wrapU T.stamp x) = wrapU T.stamp x := fun x => by
    have a := Int.emod_nonneg x (show (2 : Int) ^ T.stamp ≠ 0 by omega)
    have b := Int.emod_lt_of_pos x hp
    rw [Types.toLong, wrapS, BitVec.toInt_ofInt, bmod_small _ _ (by simp only [wrapU]; omega) (by simp only [wrapU]; omega)]
  rw [Types.isLooselyExpired, Types.isStrictlyExpired, ha]
  simp only [Res.ok_bind, ha, hl, wrapU_wrapU, Res.pure_eq]
  have hz : wrapU T.stamp ((start.toNat : Int) + delay.toNat - now.toNat) = 0 ↔ now = start + delay := by
    rw [wrapU, ← BitVec.toNat_inj, BitVec.toNat_add]
    have hn := now.isLt
    rw [← Int.emod_eq_emod_iff_emod_sub_eq_zero]
    have hnow : (now.toNat : Int) % 2 ^ T.stamp = now.toNat := by
      apply Int.emod_eq_of_lt (by omega)
      have : ((2 ^ T.stamp : Nat) : Int) = 2 ^ T.stamp := by push_cast; rfl
      omega
    rw [hnow]
    constructor
    · intro h
      have : (((start.toNat + delay.toNat) % 2 ^ T.stamp : Nat) : Int) = now.toNat := by push_cast; exact h
      omega
    · intro h
      rw [h]; push_cast; rfl
  have hge : 0 ≤ wrapU T.stamp ((start.toNat : Int) + delay.toNat - now.toNat) :=
    Int.emod_nonneg _ (by omega)
  constructor
  · congr 1
    apply decide_eq_decide.2
    rw [← hz]; omega
  · congr 1
    simp; omega

/-- Comparing two timestamps is asking for the expiry of a delay of 0. -/
theorem types_timeAfter (T : Types) (a b : BitVec T.stamp) : T.timeAfter a b = T.isStrictlyExpired b a 0 := by
  have hb := b.isLt
  have hcast : ((2 ^ T.stamp : Nat) : Int) = 2 ^ T.stamp := by push_cast; rfl
  have h0 : T.arith ((b.toNat : Int) + ((0 : BitVec T.stamp).toNat : Int)) = .ok (b.toNat : Int) := by
    have hz : ((0 : BitVec T.stamp).toNat : Int) = 0 := by simp
    rw [hz, add_zero, Types.arith]
    split
    next h =>
      have h1 : (2 : Int) ^ T.stamp ≤ 2 ^ (T.int - 1) := pow_le_pow_right₀ (by norm_num) (by omega)
      rw [chkS, if_pos (by omega)]
    · rw [wrapU, Int.emod_eq_of_lt (by omega) (by omega)]
  rw [Types.timeAfter, Types.isStrictlyExpired, h0, Res.ok_bind]

/-- **C55** for `time_after`: right for types at least as wide as `int` and `long`; narrower than `int` it compares the
numbers, and in between it is always false. -/
theorem C55_time_after (T : Types) :
    (T.int ≤ T.stamp → T.long ≤ T.stamp → ∀ a b : Int, -(2 ^ T.long : Int) ≤ 2 * (b - a) → 2 * (b - a) < 2 ^ T.long →
      T.timeAfter (stamp _ a) (stamp _ b) = .ok (decide (b < a))) ∧
    (T.stamp + 2 ≤ T.int → T.int ≤ T.long → ∀ a b : BitVec T.stamp, T.timeAfter a b = .ok (decide (b.toNat < a.toNat))) ∧
    (T.int ≤ T.stamp → T.stamp < T.long → ∀ a b : BitVec T.stamp, T.timeAfter a b = .ok false) := by
  refine ⟨?_, ?_, ?_⟩
  · intro h1 h2 a b b1 b2
    have := (C55_wide_partial T h1 h2 b a 0 (by omega) (by omega)).2
    rw [show stamp T.stamp 0 = 0 by simp [stamp], add_zero] at this
    rw [types_timeAfter, this]
  · intro h1 h2 a b
    have := (C55_narrow T h1 h2 b a 0).2.1
    simpa [types_timeAfter] using this
  · intro h1 h2 a b
    rw [types_timeAfter]
    exact (C55_between T h1 h2 b a 0).2

example : (⟨16, 32, 64⟩ : Types).timeAfter 5 65530 = .ok false ∧ (⟨32, 32, 64⟩ : Types).timeAfter 9 5 = .ok false ∧
    (⟨64, 32, 32⟩ : Types).timeAfter 9 5 = .ok true ∧ (⟨64, 32, 32⟩ : Types).timeAfter 5 5 = .ok false := by decide

/-- `uint16_t` stamps with 32 bit `int`; `uint32_t` stamps with a 64 bit `long`. -/
example : (⟨16, 32, 64⟩ : Types).isLooselyExpired 65530 5 10 = .ok false ∧
    (⟨32, 32, 64⟩ : Types).isLooselyExpired 0 11 10 = .ok false ∧
    (⟨64, 32, 32⟩ : Types).isLooselyExpired 0 11 10 = .ok true ∧
    (⟨64, 32, 32⟩ : Types).isLooselyExpired 0 0x80000011 10 = .ok false := by decide

end Gel.Time
