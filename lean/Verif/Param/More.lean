import Verif.Param.FloatProps

/-!
# Parameter: limits, NULL handles, conversions of floats, overlapping copies (C35, C130-C132)
-/
namespace Gel.Param
open Gel.Ieee Spec

/-- **C35.** The limits of the theorems: the variables that `pmin` and `pmax` point to, otherwise the members `min` and `max` of
the handle. -/
theorem C35_which_limits (m : Mem) (h : Handle) :
    (h.pmin = none → lo m h = h.type.wrap h.min.toNat) ∧ (∀ a, h.pmin = some a → lo m h = rdv m a h.type) ∧
    (h.pmax = none → hi m h = h.type.wrap h.max.toNat) ∧ (∀ a, h.pmax = some a → hi m h = rdv m a h.type) := by
  refine ⟨?_, ?_, ?_, ?_⟩
  · intro e; rw [lo, e]; rfl
  · intro a e; rw [lo, e]
  · intro e; rw [hi, e]; rfl
  · intro a e; rw [hi, e]

example : lo (mem 0) { hnd .i8 0xFE 10 1 with pmax := some 200 } = -2 ∧
    hi (mem 0) { hnd .i8 0xFE 10 1 with pmax := some 200 } = 5 := by decide

/-! ## C130 -/

/-- **C130**, what happens: `parameter_to_long`, `parameter_to_index` and `parameter_to_bool` ignore the value of a `float` or
`double`. -/
theorem C130_exact (lw sz : Nat) (m : Mem) (h : Handle) (ht : h.type.isInt = false) :
    toLong lw m (some h) = 0 ∧ toIndex sz m (some h) = 0 ∧ toBool sz m (some h) = false := by
  have h2 : toIndex sz m (some h) = 0 := by
    rw [toIndex]
    cases hty : h.type <;> rw [hty] at ht <;> first | exact absurd ht (by decide) | rfl
  refine ⟨?_, h2, by rw [toBool, h2]; rfl⟩
  rw [toLong]
  cases hty : h.type <;> rw [hty] at ht <;> first | exact absurd ht (by decide) | rfl

theorem trunc_zero (x : ℚ) : Round.trunc x = 0 ↔ |x| < 1 := by
  rw [Round.trunc, abs_lt]
  split_ifs with h
  · rw [Int.floor_eq_iff]
    constructor
    · rintro ⟨-, h2⟩
      push_cast at h2
      exact ⟨by linarith, by linarith⟩
    · rintro ⟨-, h2⟩
      push_cast
      exact ⟨h, by linarith⟩
  · rw [Int.ceil_eq_iff]
    constructor
    · rintro ⟨h1, -⟩
      push_cast at h1
      exact ⟨by linarith, by linarith⟩
    · rintro ⟨h1, -⟩
      push_cast
      exact ⟨by linarith, by linarith⟩

/-- **C130** (partial). The conversions to integers give the integral part of values between -1 and 1. Missing: all others, for
which they are wrong (`C130_wrong`). -/
theorem C130_partial (lw sz : Nat) (m : Mem) (h : Handle) (ht : h.type.isInt = false) (x : ℚ) (_hv : valueOf m h = .fin x)
    (hx : |x| < 1) : toLong lw m (some h) = Round.trunc x ∧ toIndex sz m (some h) = Round.trunc x := by
  obtain ⟨h1, h2, -⟩ := C130_exact lw sz m h ht
  rw [h1, h2, (trunc_zero x).2 hx]
  exact ⟨rfl, rfl⟩

/-- **C130**, where it fails: every other value becomes 0, and a parameter that is not 0 becomes false. -/
theorem C130_wrong (lw sz : Nat) (m : Mem) (h : Handle) (ht : h.type.isInt = false) (x : ℚ) (_hv : valueOf m h = .fin x) :
    (1 ≤ |x| → toLong lw m (some h) ≠ Round.trunc x ∧ toIndex sz m (some h) ≠ Round.trunc x) ∧
    (x ≠ 0 → toBool sz m (some h) = false) := by
  obtain ⟨h1, h2, h3⟩ := C130_exact lw sz m h ht
  refine ⟨?_, fun _ => h3⟩
  intro hx
  rw [h1, h2]
  have : Round.trunc x ≠ 0 := by
    rw [Ne, trunc_zero]
    linarith
  exact ⟨this.symm, this.symm⟩

example : valueOf (fmem .flt 0x40200000) fhnd = .fin (5 / 2) ∧ toLong 64 (fmem .flt 0x40200000) (some fhnd) = 0 := by
  decide +kernel

/-! ## C131 -/

/-- **C131.** No function uses a NULL handle: the results are -1, 0 and false, and no memory changes. -/
theorem C131_null (F : Fl) (sz lw : Nat) (m : Mem) (mod : Int) (x : Option Handle) (p : Option Nat) (d : Bool) :
    operator F m none mod = .ok (m, -1) ∧ getTotalValues F sz m none = .ok 0 ∧ toLong lw m none = 0 ∧
    toIndex sz m none = 0 ∧ toBool sz m none = false ∧ copyValue m none x = .ok (m, -1) ∧ copyValue m x none = .ok (m, -1) ∧
    clone m d none p = (m, none) ∧ clone m d x none = (m, none) ∧ clone m false x p = (m, none) := by
  refine ⟨rfl, rfl, rfl, rfl, rfl, ?_, ?_, ?_, ?_, ?_⟩ <;> cases x <;> cases p <;> rfl

/-! ## C132 -/

/-- **C132.** `parameter_copy_value` of two parameters of the same type is defined if and only if their variables have no byte in
common; in particular copying a parameter to itself is undefined. So is `parameter_clone_with_buffer` to an overlapping buffer. -/
theorem C132_overlap (m : Mem) (d s : Handle) (ht : d.type = s.type) :
    ((∃ r, copyValue m (some d) (some s) = .ok r) ↔ Separate d s) ∧
    (¬ Separate d s → copyValue m (some d) (some s) = .ub) ∧ copyValue m (some s) (some s) = .ub ∧
    ∀ b, (cloneWithBuffer m s b = .ub ↔ ¬ Apart b s.type.size s.pointer s.type.size) := by
  have hlen : ∀ t : Ty, copyLen t = t.size := by intro t; cases t <;> rfl
  have hpos : ∀ t : Ty, 0 < t.size := by intro t; cases t <;> decide
  have key : ∀ d : Handle, d.type = s.type → ¬ Separate d s → copyValue m (some d) (some s) = .ub := by
    intro d ht hn
    simp only [copyValue, if_pos ht.symm, copyBytes, hlen]
    rw [Separate, Apart, ht] at hn
    have := hpos s.type
    rw [if_neg (by omega)]
    rfl
  refine ⟨⟨?_, ?_⟩, key d ht, key s rfl ?_, ?_⟩
  · rintro ⟨r, hr⟩
    by_contra hn
    rw [key d ht hn] at hr
    cases hr
  · intro ha
    obtain ⟨m', e, -⟩ := (C42_copies ⟨fun _ _ _ => false, fun _ _ _ => false, fun _ _ _ _ => 0, fun _ _ _ => .ub⟩ m s).1 d ht ha
    exact ⟨_, e⟩
  · rw [Separate, Apart]
    have := hpos s.type
    omega
  · intro b
    constructor
    · intro hu ha
      obtain ⟨m', e, -⟩ := ((C42_copies ⟨fun _ _ _ => false, fun _ _ _ => false, fun _ _ _ _ => 0, fun _ _ _ => .ub⟩ m s).2.2.2
        b ha).2.1
      rw [e] at hu
      cases hu
    · intro hn
      rw [cloneWithBuffer]
      simp only [key { s with pointer := b } rfl hn]
      rfl

example : (copyValue (mem 1) (some { hnd .u16 0 0 0 with pointer := 102 }) (some (hnd .u16 0 0 0))).isOk = true ∧
    (copyValue (mem 1) (some { hnd .u16 0 0 0 with pointer := 101 }) (some (hnd .u16 0 0 0))).isOk = false := by decide

end Gel.Param
