import Verif.Param.Props

/-!
# Exactly what the number of values is (C41)

`C41_partial` and `C41_wrong` leave open what `parameter_get_total_values` gives for a `size_t` in which the number does
not fit, and for ranges that are too large for the arithmetic with any other width of `size_t`. This file tells the result
for every width and every limits with `min ≤ max`.
-/
namespace Gel.Param

open Spec

/-- **C41**: for every integer parameter with `min ≤ max` and every width of `size_t` the result is undefined exactly if a
signed type has more values than its arithmetic can give, and otherwise it is the number of values, modulo the arithmetic
of the type and then modulo `size_t`. -/
theorem C41_value_exact (F : Fl) (sz : Nat) (m : Mem) (h : Handle) (ht : h.type.isInt = true) (hle : lo m h ≤ hi m h) :
    getTotalValues F sz m (some h) =
      if rangeBound h.type ≤ hi m h - lo m h + 1 then
        (if h.type.signed then .ub else .ok 0)
      else .ok ((hi m h - lo m h + 1) % 2 ^ sz) := by
  have h1 := lo_range m h
  have h2 := hi_range m h
  simp only [getTotalValues]
  generalize lo m h = x at *
  generalize hi m h = y at *
  cases hty : h.type <;> rw [hty] at h1 h2 ht <;> first | cases ht | skip
  all_goals simp only [Ty.size, Ty.signed, InRange, rangeBound, if_true, Bool.false_eq_true, if_false] at *
  case u32 =>
    simp only [getRange, Res.pure_eq]
    split_ifs with c
    · rw [show wrapU 32 (wrapU 32 (y - x) + 1) = 0 by simp only [wrapU]; omega]; simp [wrapU]
    · rw [show wrapU 32 (wrapU 32 (y - x) + 1) = y - x + 1 by simp only [wrapU]; omega]; rfl
  case u64 =>
    simp only [getRange, Res.pure_eq]
    split_ifs with c
    · rw [show wrapU 64 (wrapU 64 (y - x) + 1) = 0 by simp only [wrapU]; omega]; simp [wrapU]
    · rw [show wrapU 64 (wrapU 64 (y - x) + 1) = y - x + 1 by simp only [wrapU]; omega]; rfl
  case i32 =>
    simp only [getRange, chkS]
    by_cases c : 2 ^ 31 ≤ y - x + 1
    · rw [if_pos c]
      split_ifs with c1
      · rw [Res.ok_bind, if_neg (by omega)]; rfl
      · rfl
    · rw [if_neg c, if_pos (by omega), Res.ok_bind, if_pos (by omega)]; rfl
  case i64 =>
    simp only [getRange, chkS]
    by_cases c : 2 ^ 63 ≤ y - x + 1
    · rw [if_pos c]
      split_ifs with c1
      · rw [Res.ok_bind, if_neg (by omega)]; rfl
      · rfl
    · rw [if_neg c, if_pos (by omega), Res.ok_bind, if_pos (by omega)]; rfl
  all_goals
    simp only [getRange, chkS]
    rw [if_neg (show ¬ (2 ^ 31 : Int) ≤ y - x + 1 by omega), if_pos (by omega), Res.ok_bind, if_pos (by omega)]
    rfl

/-- **C41**: the result is the number of values exactly if that number fits in `size_t` and in the arithmetic of the
type. -/
theorem C41_exact (F : Fl) (sz : Nat) (m : Mem) (h : Handle) (ht : h.type.isInt = true) (hle : lo m h ≤ hi m h) :
    getTotalValues F sz m (some h) = .ok (hi m h - lo m h + 1) ↔
      hi m h - lo m h + 1 < 2 ^ sz ∧ hi m h - lo m h + 1 < rangeBound h.type := by
  rw [C41_value_exact F sz m h ht hle]
  constructor
  · intro hr
    split_ifs at hr with c1 c2
    · rw [Res.ok.injEq] at hr; omega
    · rw [Res.ok.injEq] at hr
      refine ⟨?_, by omega⟩
      have := Int.emod_lt_of_pos (hi m h - lo m h + 1) (show (0 : Int) < 2 ^ sz by positivity)
      omega
  · rintro ⟨a, b⟩
    rw [if_neg (by omega), Int.emod_eq_of_lt (by omega) a]

-- the 2^16 values of uint16_t do not fit in a 16-bit size_t; the 2^31 values from -2^30 on of int32_t are undefined
example : getTotalValues F0 16 (mem 0) (some (hnd .u16 0 0xFFFF 1)) = .ok 0 ∧
    getTotalValues F0 32 (mem 0) (some (hnd .u16 0 0xFFFF 1)) = .ok 65536 ∧
    getTotalValues F0 64 (mem 0) (some (hnd .i32 0xC0000000 0x3FFFFFFF 1)) = .ub ∧
    getTotalValues F0 64 (mem 0) (some (hnd .i32 0xC0000000 0x3FFFFFFE 1)) = .ok (2 ^ 31 - 1) := by decide

end Gel.Param
