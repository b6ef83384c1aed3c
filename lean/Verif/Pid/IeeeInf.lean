import Verif.Pid.IeeeProps

/-!
# PID with floating point types: the output at an infinite input (C188)
-/
namespace Gel.Pid.Fp
open Gel.Ieee

variable {f : Fmt} {n d : Nat}

theorem nan_add (v : Val) : add f .nan v = .nan := by cases v <;> rfl

/-- **C188**, the output at the infinite input itself: a proportional gain of zero does not remove it, zero times infinity is
not a number; with another gain the proportional term is infinite. -/
theorem C188_zero_gain_wrong (hn : 0 < n) (hd : 0 < d) {p : Pid Val} (h : Shape n d p) (x k : ℚ) (hsp : p.sp = .fin x)
    (hkp : p.kp = mul f (.fin k)) (s : Bool) :
    ∃ p', addInput f n d p (.inf s) = .ok p' ∧
      computeP f p' = (if k = 0 then .nan else .inf ((!s) != decide (k < 0))) ∧
      (k = 0 → ∀ v, compute f n d p' = .ok v → v = .nan) := by
  obtain ⟨q, p', -, e, -, e1, e2, e3, -⟩ := addInput_desc (f := f) hn hd h (.inf s)
  have hP : computeP f p' = (if k = 0 then .nan else .inf ((!s) != decide (k < 0))) := by
    rw [computeP, e3, hkp, error, e1, e2, hsp]
    rfl
  refine ⟨p', e, hP, fun hk v hv => ?_⟩
  rw [if_pos hk] at hP
  rw [compute, Res.bind_eq_ok] at hv
  obtain ⟨i, -, hv⟩ := hv
  rw [Res.bind_eq_ok] at hv
  obtain ⟨j, -, hv⟩ := hv
  cases hv
  rw [hP, nan_add, nan_add]

-- gains 0, 0, 0: an infinite input gives NaN
example : (do let p ← run binary32 2 1 (init binary32 2 1) [.set (.sp (.fin 3)), .input (.inf true)]
              compute binary32 2 1 p) = .ok .nan := by decide +kernel

end Gel.Pid.Fp
