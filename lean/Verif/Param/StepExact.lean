import Verif.Param.Props

/-!
# Exactly when a step is right (C36)

`C36_partial`, `C36_wrong` and `C36_undefined` tell when a step of an integer parameter gives the exact sum or the
opposite limit and when not. This file closes the gaps between them. For every memory, handle and modifier it tells
whether the call is defined, what the variable then holds, and whether that is what was asked for.
-/

namespace Gel.Param

open Spec

/-- What remains of the exact sum of a step in the type of the parameter. -/
def remainder (m : Mem) (h : Handle) (mod : Int) : Int :=
  h.type.wrap (rdv m h.pointer h.type + member h.type h.step * mod)

/-- **C36**: a step of an integer parameter is undefined exactly if the product or the sum overflows the signed type it
is computed in. -/
theorem C36_defined_exact (F : Fl) (m : Mem) (h : Handle) (mod : Int) (ht : h.type.isInt = true) :
    operator F m (some h) mod = .ub ↔ ¬ NoOverflow h.type (rdv m h.pointer h.type) (member h.type h.step) mod := by
  constructor
  · intro hu ho
    rw [operator_eq F m h mod ht ho] at hu
    cases hu
  · intro ho
    simp only [operator, applyOperator, newValue_ub F _ _ _ _ ht ho, Res.ub_bind]

/-- **C36**: otherwise the variable holds what the specification says of the remainder of the exact sum in the type
(as if the variable had held the remainder and the step had been zero). -/
theorem C36_value_exact (F : Fl) (m : Mem) (h : Handle) (mod : Int) (ht : h.type.isInt = true)
    (ho : NoOverflow h.type (rdv m h.pointer h.type) (member h.type h.step) mod) :
    ∃ m', operator F m (some h) mod = .ok (m', 0) ∧
      rdv m' h.pointer h.type = stepped (lo m h) (hi m h) (remainder m h mod) 0 mod := by
  refine ⟨_, operator_eq F m h mod ht ho, ?_⟩
  rw [rdv_wrv]
  have e1 := wrap_of_range _ _ (lo_range m h)
  have e2 := wrap_of_range _ _ (hi_range m h)
  simp only [stepped, remainder, Int.zero_mul, Int.add_zero]
  split_ifs with c1 c2 c3
  · exact wrap_of_range _ _ (wrap_range _ _)
  · exact e1
  · exact e2
  · exact wrap_of_range _ _ (wrap_range _ _)

/-- **C36**: a defined step is right exactly if the exact sum is a value of the type, or its remainder is outside the
limits, or its remainder happens to be the limit that was to be reached. -/
theorem C36_exact (F : Fl) (m m' : Mem) (h : Handle) (mod : Int) (r : Int) (ht : h.type.isInt = true)
    (hr : operator F m (some h) mod = .ok (m', r)) :
    rdv m' h.pointer h.type = stepped (lo m h) (hi m h) (rdv m h.pointer h.type) (member h.type h.step) mod ↔
      InRange h.type.signed (8 * h.type.size) (rdv m h.pointer h.type + member h.type h.step * mod) ∨
      ¬ (lo m h ≤ remainder m h mod ∧ remainder m h mod ≤ hi m h) ∨
      remainder m h mod = if mod > 0 then lo m h else hi m h := by
  have ho : NoOverflow h.type (rdv m h.pointer h.type) (member h.type h.step) mod := by
    by_contra ho
    rw [(C36_defined_exact F m h mod ht).2 ho] at hr
    cases hr
  obtain ⟨m1, h1, h2⟩ := C36_value_exact F m h mod ht ho
  rw [h1] at hr
  injection hr with hr
  injection hr with ha _
  subst ha
  by_cases hs : InRange h.type.signed (8 * h.type.size) (rdv m h.pointer h.type + member h.type h.step * mod)
  · obtain ⟨m2, h3, h4⟩ := C36_partial F m h mod ht ho hs
    rw [h1] at h3
    injection h3 with h3
    injection h3 with h3 _
    subst h3
    exact ⟨fun _ => Or.inl hs, fun _ => h4⟩
  · have hne : mod ≠ 0 := by
      rintro rfl
      rw [Int.mul_zero, Int.add_zero] at hs
      exact hs (rdv_range _ _ _)
    have hout : ¬ (lo m h ≤ rdv m h.pointer h.type + member h.type h.step * mod ∧
        rdv m h.pointer h.type + member h.type h.step * mod ≤ hi m h) := by
      rintro ⟨a, b⟩
      apply hs
      have h1 := lo_range m h
      have h2 := hi_range m h
      revert h1 h2
      unfold InRange
      split <;> intro h1 h2 <;> omega
    rw [h2]
    simp only [stepped, Int.zero_mul, Int.add_zero, if_neg hout, hs, false_or]
    by_cases hin : lo m h ≤ remainder m h mod ∧ remainder m h mod ≤ hi m h
    · rw [if_pos hin]
      simp only [hin, and_self, not_true_eq_false, false_or]
      by_cases hp : mod > 0
      · rw [if_pos hp, if_pos hp]
      · rw [if_neg hp, if_neg hp, if_pos (by omega)]
    · rw [if_neg hin]
      simp only [hin, not_false_eq_true, true_or, iff_true]
      by_cases hp : mod > 0
      · rw [if_pos hp, if_pos hp]
      · rw [if_neg hp, if_neg hp, if_pos (by omega), if_pos (by omega)]

-- uint8_t, limits 4..250: 240 + 20 leaves exactly the lower limit 4 and is right, 240 + 30 leaves 14 and is wrong,
-- 240 + 18 leaves 2, which is outside the limits, and is right again
example : remainder (mem 240) (hnd .u8 4 250 20) 1 = 4 ∧
    valueAfter (operator F0 (mem 240) (some (hnd .u8 4 250 20)) 1) .u8 = .ok 4 ∧ stepped 4 250 240 20 1 = 4 ∧
    valueAfter (operator F0 (mem 240) (some (hnd .u8 4 250 30)) 1) .u8 = .ok 14 ∧ stepped 4 250 240 30 1 = 4 ∧
    valueAfter (operator F0 (mem 240) (some (hnd .u8 4 250 18)) 1) .u8 = .ok 4 ∧ stepped 4 250 240 18 1 = 4 ∧
    operator F0 (mem 240) (some (hnd .u8 4 250 30)) (2 ^ 31 - 1) = .ub := by
  refine ⟨by decide, by decide, by decide, by decide, by decide, by decide, by decide, ?_⟩
  rw [C36_defined_exact F0 _ _ _ rfl]
  rintro ⟨h1, -⟩
  revert h1
  decide

end Gel.Param
