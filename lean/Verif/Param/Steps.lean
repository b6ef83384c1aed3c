import Verif.Param.Props

/-!
# Parameter: properties C153 and C154, histories of steps
-/
namespace Gel.Param
open Spec

/-- Calls of `parameter_operator`, one after the other. -/
def operators (F : Fl) (h : Handle) : List Int → Mem → Res Mem
  | [], m => .ok m
  | mod :: mods, m => do
    let (m, _) ← operator F m (some h) mod
    operators F h mods m

/-! ## Specification -/

/-- The value of a type that has the same low bits. -/
def low (signed : Bool) (w : Nat) (x : Int) : Int :=
  if signed then (x + 2 ^ (w - 1)) % 2 ^ w - 2 ^ (w - 1) else x % 2 ^ w

/-- The width in which a step is computed, where an overflow is undefined. -/
def signedWidth : Ty → Option Nat
  | .u32 | .u64 | .flt | .dbl => none
  | .i64 => some 64
  | _ => some 32

/-- A step does not overflow the type in which it is computed. -/
def Fits (t : Ty) (v s mod : Int) : Prop :=
  ∀ w ∈ signedWidth t, InRange true w (s * mod) ∧ InRange true w (v + s * mod)

instance (t : Ty) (v s mod : Int) : Decidable (Fits t v s mod) := by
  unfold Fits
  cases h : signedWidth t with
  | none => exact .isTrue (by simp)
  | some w =>
    exact decidable_of_iff (InRange true w (s * mod) ∧ InRange true w (v + s * mod)) (by simp)

/-- What a step does to a value: `none` if it is undefined. -/
def stepExact (t : Ty) (lo hi s v mod : Int) : Option Int :=
  if Fits t v s mod then
    let x := low t.signed (8 * t.size) (v + s * mod)
    some (if lo ≤ x ∧ x ≤ hi then x else if mod > 0 then lo else if mod < 0 then hi else x)
  else none

/-- A history of steps. -/
def stepsExact (t : Ty) (lo hi s : Int) : Int → List Int → Option Int
  | v, [] => some v
  | v, mod :: mods => (stepExact t lo hi s v mod).bind fun v => stepsExact t lo hi s v mods

/-- The variables that hold the limits, if there are any, are not that of the parameter. -/
def OwnLimits (h : Handle) : Prop :=
  (∀ a, h.pmin = some a → Apart h.pointer h.type.size a h.type.size) ∧
  (∀ a, h.pmax = some a → Apart h.pointer h.type.size a h.type.size)

/-! ## Theorems -/

theorem wrap_low (t : Ty) (x : Int) : t.wrap x = low t.signed (8 * t.size) x := by
  cases t <;> simp only [Ty.wrap, Ty.signed, Ty.size, low, wrapS, wrapU, BitVec.toInt_ofInt, Int.bmod, if_true,
    Bool.false_eq_true, if_false] <;> (try split_ifs) <;> omega

theorem noOverflow_iff (t : Ty) (v s mod : Int) (ht : t.isInt = true) :
    NoOverflow t v s mod ↔ Fits t v s mod := by
  cases t <;> first | exact absurd ht (by decide) | simp [NoOverflow, Fits, signedWidth]

theorem lo_wrv {h : Handle} (ho : OwnLimits h) (m : Mem) (x : Int) : lo (wrv m h.pointer h.type x) h = lo m h := by
  rw [lo, lo]
  cases hp : h.pmin with
  | none => rfl
  | some a => exact rdv_wrv_apart _ _ _ _ _ _ (ho.1 a hp)

theorem hi_wrv {h : Handle} (ho : OwnLimits h) (m : Mem) (x : Int) : hi (wrv m h.pointer h.type x) h = hi m h := by
  rw [hi, hi]
  cases hp : h.pmax with
  | none => rfl
  | some a => exact rdv_wrv_apart _ _ _ _ _ _ (ho.2 a hp)

theorem operator_exact (F : Fl) (m : Mem) (h : Handle) (mod : Int) (ht : h.type.isInt = true) :
    operator F m (some h) mod =
      match stepExact h.type (lo m h) (hi m h) (member h.type h.step) (rdv m h.pointer h.type) mod with
      | some x => .ok (wrv m h.pointer h.type x, 0)
      | none => .ub := by
  by_cases hn : NoOverflow h.type (rdv m h.pointer h.type) (member h.type h.step) mod
  · rw [operator_eq F m h mod ht hn, stepExact, if_pos ((noOverflow_iff _ _ _ _ ht).1 hn)]
    simp only [wrap_low]
  · rw [stepExact, if_neg (fun hh => hn ((noOverflow_iff _ _ _ _ ht).2 hh))]
    simp only [operator, applyOperator, newValue_ub F _ _ _ _ ht hn, Res.ub_bind]

theorem stepExact_range {t : Ty} {lo hi s v mod x : Int} (hl : InRange t.signed (8 * t.size) lo)
    (hh : InRange t.signed (8 * t.size) hi) (he : stepExact t lo hi s v mod = some x) : InRange t.signed (8 * t.size) x := by
  rw [stepExact] at he
  by_cases hf : Fits t v s mod
  · rw [if_pos hf, Option.some.injEq, ← wrap_low] at he
    have := wrap_range t (v + s * mod)
    split_ifs at he <;> subst he <;> assumption
  · rw [if_neg hf] at he
    cases he

/-- **C153.** Every history of steps of an integer parameter whose limits are not stored in its own variable: it is undefined
exactly if some step overflows the type in which it is computed, and otherwise the value is that of the specification, and no
other byte changes. -/
theorem C153_exact (F : Fl) (h : Handle) (ht : h.type.isInt = true) (ho : OwnLimits h) (mods : List Int) : ∀ (m : Mem),
    match stepsExact h.type (lo m h) (hi m h) (member h.type h.step) (rdv m h.pointer h.type) mods with
    | some x => ∃ m', operators F h mods m = .ok m' ∧ rdv m' h.pointer h.type = x ∧
        ∀ b, b < h.pointer ∨ h.pointer + h.type.size ≤ b → m' b = m b
    | none => operators F h mods m = .ub := by
  induction mods with
  | nil => exact fun m => ⟨m, rfl, rfl, fun _ _ => rfl⟩
  | cons mod mods ih =>
    intro m
    rw [stepsExact]
    have he := operator_exact F m h mod ht
    cases hs : stepExact h.type (lo m h) (hi m h) (member h.type h.step) (rdv m h.pointer h.type) mod with
    | none =>
      rw [hs] at he
      simp only [Option.bind_none]
      rw [operators, he]
      rfl
    | some x =>
      rw [hs] at he
      simp only [Option.bind_some]
      have hx := stepExact_range (lo_range m h) (hi_range m h) hs
      have h1 := ih (wrv m h.pointer h.type x)
      rw [lo_wrv ho, hi_wrv ho, rdv_wrv, wrap_of_range _ _ hx] at h1
      have hst : operators F h (mod :: mods) m = operators F h mods (wrv m h.pointer h.type x) := by
        rw [operators, he]
        rfl
      rw [hst]
      cases hf : stepsExact h.type (lo m h) (hi m h) (member h.type h.step) x mods with
      | none =>
        rw [hf] at h1
        exact h1
      | some y =>
        rw [hf] at h1
        obtain ⟨m', e1, e2, e3⟩ := h1
        refine ⟨m', e1, e2, fun b hb => ?_⟩
        rw [e3 b hb]
        exact wrv_frame _ _ _ _ _ hb

theorem low_of_range (t : Ty) (x : Int) (h : InRange t.signed (8 * t.size) x) : low t.signed (8 * t.size) x = x := by
  rw [← wrap_low]
  exact wrap_of_range _ _ h

/-- A value of the type can be computed in the type of the arithmetic. -/
theorem range_signed (t : Ty) (ht : t.isInt = true) (w : Nat) (hw : signedWidth t = some w) (x : Int)
    (h : InRange t.signed (8 * t.size) x) : InRange true w x := by
  cases t <;> simp only [signedWidth, Option.some.injEq, reduceCtorEq] at hw
  all_goals
    subst hw
    simp only [Ty.signed, Ty.size, InRange, if_true, Bool.false_eq_true, if_false] at h ⊢
    norm_num at h ⊢
    omega

theorem between {t : Ty} {a b x : Int} (ha : InRange t.signed (8 * t.size) a) (hb : InRange t.signed (8 * t.size) b)
    (h1 : a ≤ x) (h2 : x ≤ b) : InRange t.signed (8 * t.size) x := by
  unfold InRange at *
  split_ifs at * <;> omega

/-- One step up: the next value, or the minimum. -/
theorem step_up {t : Ty} (ht : t.isInt = true) {lo hi s v : Int} (hl : InRange t.signed (8 * t.size) lo)
    (hs : InRange t.signed (8 * t.size) s) (hm : InRange t.signed (8 * t.size) (hi + s)) (h0 : 0 < s)
    (h1 : lo ≤ v) (h2 : v ≤ hi) : stepExact t lo hi s v 1 = some (if v + s ≤ hi then v + s else lo) := by
  have hr : InRange t.signed (8 * t.size) (v + s) := between hl hm (by omega) (by omega)
  have hc : Fits t v s 1 := by
    intro w hw
    rw [Int.mul_one]
    exact ⟨range_signed t ht w hw _ hs, range_signed t ht w hw _ hr⟩
  rw [stepExact, if_pos hc, Int.mul_one, low_of_range t _ hr]
  simp only [Option.some.injEq]
  split_ifs <;> omega

/-- A positive value of the type can be negated there. -/
theorem range_neg (t : Ty) (ht : t.isInt = true) (w : Nat) (hw : signedWidth t = some w) (x : Int) (h0 : 0 < x)
    (h : InRange t.signed (8 * t.size) x) : InRange true w (-x) := by
  have := range_signed t ht w hw x h
  simp only [InRange, if_true] at this ⊢
  omega

/-- One step down: the value before, or the maximum. -/
theorem step_down {t : Ty} (ht : t.isInt = true) {lo hi s v : Int} (hh : InRange t.signed (8 * t.size) hi)
    (hs : InRange t.signed (8 * t.size) s) (hm : InRange t.signed (8 * t.size) (lo - s)) (h0 : 0 < s)
    (h1 : lo ≤ v) (h2 : v ≤ hi) : stepExact t lo hi s v (-1) = some (if lo ≤ v - s then v - s else hi) := by
  have e : s * -1 = -s := by omega
  have hr : InRange t.signed (8 * t.size) (v - s) := between hm hh (by omega) (by omega)
  have hc : Fits t v s (-1) := by
    intro w hw
    rw [e]
    exact ⟨range_neg t ht w hw _ h0 hs, range_signed t ht w hw _ (by rw [← Int.sub_eq_add_neg]; exact hr)⟩
  rw [stepExact, if_pos hc, e, ← Int.sub_eq_add_neg, low_of_range t _ hr]
  simp only [Option.some.injEq]
  split_ifs <;> omega

/-- Steps up, in closed form. -/
theorem ups {t : Ty} (ht : t.isInt = true) {lo hi s : Int} (hl : InRange t.signed (8 * t.size) lo)
    (hs : InRange t.signed (8 * t.size) s) (hm : InRange t.signed (8 * t.size) (hi + s)) (h0 : 0 < s) (hle : lo ≤ hi) (n : Nat) :
    ∀ k : Int, 0 ≤ k → k ≤ (hi - lo) / s →
      stepsExact t lo hi s (lo + s * k) (List.replicate n 1) = some (lo + s * ((k + n) % ((hi - lo) / s + 1))) := by
  have hq : 0 ≤ (hi - lo) / s := Int.ediv_nonneg (by omega) (by omega)
  induction n with
  | zero =>
    intro k h1 h2
    rw [List.replicate_zero, stepsExact, show ((0 : Nat) : Int) = 0 from rfl, Int.add_zero, Int.emod_eq_of_lt h1 (by omega)]
  | succ n ih =>
    intro k h1 h2
    have hk : s * k ≤ hi - lo := by
      calc s * k ≤ s * ((hi - lo) / s) := Int.mul_le_mul_of_nonneg_left h2 (by omega)
        _ ≤ hi - lo := Int.mul_ediv_self_le (by omega)
    have hk0 : 0 ≤ s * k := Int.mul_nonneg (by omega) h1
    rw [List.replicate_succ, stepsExact, step_up ht hl hs hm h0 (by omega) (by omega), Option.bind_some]
    have hiff : lo + s * k + s ≤ hi ↔ k + 1 ≤ (hi - lo) / s := by
      rw [Int.le_ediv_iff_mul_le h0]
      constructor <;> intro h <;> nlinarith
    by_cases hc : k + 1 ≤ (hi - lo) / s
    · rw [if_pos (hiff.2 hc), show lo + s * k + s = lo + s * (k + 1) by ring, ih (k + 1) (by omega) hc]
      congr 4
      push_cast
      ring
    · rw [if_neg (fun h => hc (hiff.1 h))]
      have := ih 0 (by omega) hq
      rw [Int.mul_zero, Int.add_zero] at this
      rw [this]
      have hk1 : k = (hi - lo) / s := by omega
      congr 3
      rw [hk1]
      push_cast
      rw [show (hi - lo) / s + (n + 1) = 0 + n + ((hi - lo) / s + 1) by ring, Int.add_emod_right]

/-- Steps down, in closed form. -/
theorem downs {t : Ty} (ht : t.isInt = true) {lo hi s : Int} (hh : InRange t.signed (8 * t.size) hi)
    (hs : InRange t.signed (8 * t.size) s) (hm : InRange t.signed (8 * t.size) (lo - s)) (h0 : 0 < s) (hle : lo ≤ hi) (n : Nat) :
    ∀ k : Int, 0 ≤ k → k ≤ (hi - lo) / s →
      stepsExact t lo hi s (hi - s * k) (List.replicate n (-1)) = some (hi - s * ((k + n) % ((hi - lo) / s + 1))) := by
  have hq : 0 ≤ (hi - lo) / s := Int.ediv_nonneg (by omega) (by omega)
  induction n with
  | zero =>
    intro k h1 h2
    rw [List.replicate_zero, stepsExact, show ((0 : Nat) : Int) = 0 from rfl, Int.add_zero, Int.emod_eq_of_lt h1 (by omega)]
  | succ n ih =>
    intro k h1 h2
    have hk : s * k ≤ hi - lo := by
      calc s * k ≤ s * ((hi - lo) / s) := Int.mul_le_mul_of_nonneg_left h2 (by omega)
        _ ≤ hi - lo := Int.mul_ediv_self_le (by omega)
    have hk0 : 0 ≤ s * k := Int.mul_nonneg (by omega) h1
    rw [List.replicate_succ, stepsExact, step_down ht hh hs hm h0 (by omega) (by omega), Option.bind_some]
    have hiff : lo ≤ hi - s * k - s ↔ k + 1 ≤ (hi - lo) / s := by
      rw [Int.le_ediv_iff_mul_le h0]
      constructor <;> intro h <;> nlinarith
    by_cases hc : k + 1 ≤ (hi - lo) / s
    · rw [if_pos (hiff.2 hc), show hi - s * k - s = hi - s * (k + 1) by ring, ih (k + 1) (by omega) hc]
      congr 4
      push_cast
      ring
    · rw [if_neg (fun h => hc (hiff.1 h))]
      have := ih 0 (by omega) hq
      rw [Int.mul_zero, Int.sub_zero] at this
      rw [this]
      have hk1 : k = (hi - lo) / s := by omega
      congr 3
      rw [hk1]
      push_cast
      rw [show (hi - lo) / s + (n + 1) = 0 + n + ((hi - lo) / s + 1) by ring, Int.add_emod_right]

/-- **C154.** Stepping down from the maximum: the maximum and the multiples of the step below it, over and over. (`lo - step` must be a
value of the type: never so for an unsigned type whose minimum is 0, see `C154_below_wrong`.) -/
theorem C154_cycle_down (F : Fl) (h : Handle) (ht : h.type.isInt = true) (ho : OwnLimits h) (m : Mem) (n : Nat)
    (hle : lo m h ≤ hi m h) (h0 : 0 < member h.type h.step) (hv : rdv m h.pointer h.type = hi m h)
    (hm : InRange h.type.signed (8 * h.type.size) (lo m h - member h.type h.step)) :
    ∃ m', operators F h (List.replicate n (-1)) m = .ok m' ∧ rdv m' h.pointer h.type =
      hi m h - member h.type h.step * (n % ((hi m h - lo m h) / member h.type h.step + 1)) := by
  have hu := downs ht (hi_range m h) (member_range _ _) hm h0 hle n 0 (Int.le_refl _)
    (Int.ediv_nonneg (by omega) (by omega))
  rw [Int.mul_zero, Int.sub_zero, Int.zero_add] at hu
  have := C153_exact F h ht ho (List.replicate n (-1)) m
  rw [hv, hu] at this
  obtain ⟨m', e1, e2, -⟩ := this
  exact ⟨m', e1, e2⟩

/-- **C154**, where it fails: an unsigned type, the minimum 0, and a maximum so large that one step below 0, taken modulo the range
of the type, is within the limits: a step down from 0 gives that, not the maximum. -/
theorem C154_below_wrong (F : Fl) (h : Handle) (ht : h.type.isInt = true) (hu : h.type.signed = false) (ho : OwnLimits h) (m : Mem)
    (hl : lo m h = 0) (hv : rdv m h.pointer h.type = 0) (h0 : 0 < member h.type h.step)
    (hm : (2 : Int) ^ (8 * h.type.size) - member h.type h.step < hi m h) :
    ∃ m', operators F h [-1] m = .ok m' ∧ rdv m' h.pointer h.type = 2 ^ (8 * h.type.size) - member h.type h.step := by
  have hs := member_range h.type h.step
  have hr := hs
  simp only [InRange, hu, Bool.false_eq_true, if_false] at hr
  have hc : Fits h.type 0 (member h.type h.step) (-1) := by
    intro w hw
    rw [Int.zero_add, show member h.type h.step * -1 = -member h.type h.step by omega]
    exact ⟨range_neg _ ht w hw _ h0 hs, range_neg _ ht w hw _ h0 hs⟩
  have hlow : low h.type.signed (8 * h.type.size) (-member h.type h.step) = 2 ^ (8 * h.type.size) - member h.type h.step := by
    rw [low, hu, if_neg (by simp), ← Int.add_emod_right, Int.emod_eq_of_lt (by omega) (by omega)]
    omega
  have := C153_exact F h ht ho [-1] m
  rw [hv, hl, stepsExact, stepExact, if_pos hc, Int.zero_add, show member h.type h.step * -1 = -member h.type h.step by omega, hlow] at this
  simp only [Option.bind_some, stepsExact] at this
  rw [if_pos (by omega)] at this
  obtain ⟨m', e1, e2, -⟩ := this
  exact ⟨m', e1, e2⟩

/-- **C154.** Stepping up from the minimum, `n` times by one (positive) step, for limits that leave room for one more step in the type:
the values are the minimum and the multiples of the step above it up to the maximum, over and over. -/
theorem C154_cycle (F : Fl) (h : Handle) (ht : h.type.isInt = true) (ho : OwnLimits h) (m : Mem) (n : Nat)
    (hle : lo m h ≤ hi m h) (h0 : 0 < member h.type h.step) (hv : rdv m h.pointer h.type = lo m h)
    (hm : InRange h.type.signed (8 * h.type.size) (hi m h + member h.type h.step)) :
    ∃ m', operators F h (List.replicate n 1) m = .ok m' ∧ rdv m' h.pointer h.type =
      lo m h + member h.type h.step * (n % ((hi m h - lo m h) / member h.type h.step + 1)) := by
  have hu := ups ht (lo_range m h) (member_range _ _) hm h0 hle n 0 (Int.le_refl _)
    (Int.ediv_nonneg (by omega) (by omega))
  rw [Int.mul_zero, Int.add_zero, Int.zero_add] at hu
  have := C153_exact F h ht ho (List.replicate n 1) m
  rw [hv, hu] at this
  obtain ⟨m', e1, e2, -⟩ := this
  exact ⟨m', e1, e2⟩

/-- **C154.** With a step of 1, as many steps as `parameter_get_total_values` says lead back to the minimum, and no fewer do. -/
theorem C154_total (F : Fl) (h : Handle) (ht : h.type.isInt = true) (ho : OwnLimits h) (m : Mem) (n : Nat)
    (hle : lo m h ≤ hi m h) (h1 : member h.type h.step = 1) (hv : rdv m h.pointer h.type = lo m h)
    (hm : InRange h.type.signed (8 * h.type.size) (hi m h + 1)) (c : Int) (hc : getTotalValues F 64 m (some h) = .ok c)
    (hb : hi m h - lo m h + 1 < rangeBound h.type) (hs : hi m h - lo m h + 1 < 2 ^ 64) :
    ∃ m', operators F h (List.replicate n 1) m = .ok m' ∧
      (rdv m' h.pointer h.type = lo m h ↔ c ∣ n) := by
  obtain ⟨m', e1, e2⟩ := C154_cycle F h ht ho m n hle (by omega) hv (by rw [h1]; exact hm)
  refine ⟨m', e1, ?_⟩
  rw [C41_partial F 64 m h ht hle hs hb] at hc
  injection hc with hc
  rw [e2, h1, Int.ediv_one, Int.one_mul, ← hc, Int.dvd_iff_emod_eq_zero]
  constructor <;> intro h <;> omega

/-- Limits 2 and 11, step 4: 2, 6, 10, 2, ... Steps up and down with limits 0 and 250 of a `uint8_t`: 240, 250, (260 = 4). -/
example : (List.range 5).map (fun n => stepsExact .u8 2 11 4 2 (List.replicate n 1)) = [some 2, some 6, some 10, some 2, some 6] ∧
    stepsExact .u8 0 250 10 240 [1, 1] = some 4 ∧ stepsExact .u8 0 250 10 240 [1, -3, 2, -30, -2000, 5] = some 214 ∧
    stepsExact .i32 0 100 10 50 [1, 2 ^ 30] = none := by
  decide

end Gel.Param
