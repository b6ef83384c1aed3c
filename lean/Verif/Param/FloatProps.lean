import Verif.Param.FloatModel
import Verif.Param.Props

/-!
# Parameter: the types `float` and `double`, properties C127-C129
-/
namespace Gel.Param
open Gel.Ieee Spec

/-! ## Specification -/

/-- `lo ≤ v ≤ hi`, which no NaN is. -/
def Between (lo hi v : Val) : Prop := v ≠ .nan ∧ less v lo = false ∧ less hi v = false

/-- The value of the parameter, and its limits. -/
def valueOf (m : Mem) (h : Handle) : Val := val h.type (rdv m h.pointer h.type)
def loVal (m : Mem) (h : Handle) : Val := val h.type (lo m h)
def hiVal (m : Mem) (h : Handle) : Val := val h.type (hi m h)
def stepOf (h : Handle) : Val := val h.type (member h.type h.step)
def defaultOf (h : Handle) : Val := val h.type (member h.type h.defaultv)

/-! ## Lemmas -/

theorem fmt_mb (t : Ty) : 0 < (fmt t).mb := by cases t <;> decide
theorem fmt_eb (t : Ty) : 2 ≤ (fmt t).eb := by cases t <;> decide

theorem decode_encode_add (f : Fmt) (hm : 0 < f.mb) (v w : Val) : decode f (encode f (add f v w)) = add f v w := by
  have hn : decode f (encode f .nan) = .nan := decode_nan hm
  have hi : ∀ s, decode f (encode f (.inf s)) = .inf s := by
    intro s
    rw [encode]
    cases s
    · simp [decode_inf]
    · simp [decode_neg infBits_lt, decode_inf, neg]
  cases v <;> cases w <;> simp only [add] <;> first | exact hn | exact hi _ | exact decode_encode_round hm _ | skip
  split_ifs
  · exact hi _
  · exact hn

theorem sign_size {t : Ty} (ht : t.isInt = false) : 2 * (fmt t).sign = 2 ^ (8 * t.size) := by
  cases t <;> first | exact absurd ht (by decide) | decide +kernel

theorem wrap_float {t : Ty} (ht : t.isInt = false) {x : Nat} (h : x < 2 * (fmt t).sign) : t.wrap x = x := by
  rw [sign_size ht] at h
  have : t.signed = false := by cases t <;> first | exact absurd ht (by decide) | rfl
  apply wrap_of_range
  rw [InRange, this]
  simp only [Bool.false_eq_true, if_false]
  exact ⟨by omega, by exact_mod_cast h⟩

/-- What a limit or a new value is after it has been stored. -/
theorem val_wrv_range (m : Mem) (a : Nat) (t : Ty) (x : Int) (h : InRange t.signed (8 * t.size) x) :
    val t (rdv (wrv m a t x) a t) = val t x := by
  rw [rdv_wrv, wrap_of_range _ _ h]

theorem val_wrv_step {t : Ty} (ht : t.isInt = false) (m : Mem) (a : Nat) (sz : Nat) (v s mod : Int) :
    val t (rdv (wrv m a t ((ieee sz).step t v s mod)) a t) = stepVal t (val t v) (val t s) mod := by
  rw [rdv_wrv]
  simp only [ieee]
  rw [wrap_float ht (encode_lt (fmt_mb t) _), val, Int.toNat_natCast]
  exact decode_encode_add _ (fmt_mb t) _ _

theorem operator_float (sz : Nat) (m : Mem) (h : Handle) (mod : Int) (ht : h.type.isInt = false) :
    let new := stepVal h.type (valueOf m h) (stepOf h) mod
    ∃ m', operator (ieee sz) m (some h) mod = .ok (m', 0) ∧
      (∀ b, b < h.pointer ∨ h.pointer + h.type.size ≤ b → m' b = m b) ∧
      valueOf m' h = if less (hiVal m h) new = true ∨ less new (loVal m h) = true then
        (if mod > 0 then loVal m h else if mod < 0 then hiVal m h else new) else new := by
  intro new
  have hn : newValue (ieee sz) h.type (rdv m h.pointer h.type) (member h.type h.step) mod =
      .ok ((ieee sz).step h.type (rdv m h.pointer h.type) (member h.type h.step) mod) := by
    cases hty : h.type <;> rw [hty] at ht <;> first | exact absurd ht (by decide) | rfl
  have hv : val h.type ((ieee sz).step h.type (rdv m h.pointer h.type) (member h.type h.step) mod) = new := by
    simp only [ieee]
    rw [val, Int.toNat_natCast]
    exact decode_encode_add _ (fmt_mb _) _ _
  have hg : ∀ a b, gt (ieee sz) h.type a b = less (val h.type b) (val h.type a) := by
    intro a b
    rw [gt, ht]
    rfl
  have hl : ∀ a b, lt (ieee sz) h.type a b = less (val h.type a) (val h.type b) := by
    intro a b
    rw [lt, ht]
    rfl
  simp only [operator, applyOperator, hn, Res.ok_bind, checkRangeAgainst, hg, hl, hv]
  rw [show val h.type (hi m h) = hiVal m h from rfl, show val h.type (lo m h) = loVal m h from rfl]
  by_cases h1 : less (hiVal m h) new = true
  · rw [if_pos h1, if_pos (Or.inl h1)]
    rcases lt_trichotomy mod 0 with hm | hm | hm
    · rw [if_neg (by omega), if_pos ⟨by decide, hm⟩, if_neg (by omega), if_pos hm]
      exact ⟨_, rfl, fun b hb => wrv_frame _ _ _ _ _ hb, val_wrv_range _ _ _ _ (hi_range m h)⟩
    · rw [if_neg (by omega), if_neg (by omega), if_neg (by omega), if_neg (by omega)]
      exact ⟨_, rfl, fun b hb => wrv_frame _ _ _ _ _ hb, val_wrv_step ht _ _ _ _ _ _⟩
    · rw [if_pos ⟨by decide, hm⟩, if_pos hm]
      exact ⟨_, rfl, fun b hb => wrv_frame _ _ _ _ _ hb, val_wrv_range _ _ _ _ (lo_range m h)⟩
  · rw [if_neg h1]
    by_cases h2 : less new (loVal m h) = true
    · rw [if_pos h2, if_pos (Or.inr h2)]
      rcases lt_trichotomy mod 0 with hm | hm | hm
      · rw [if_neg (by omega), if_pos ⟨by decide, hm⟩, if_neg (by omega), if_pos hm]
        exact ⟨_, rfl, fun b hb => wrv_frame _ _ _ _ _ hb, val_wrv_range _ _ _ _ (hi_range m h)⟩
      · rw [if_neg (by omega), if_neg (by omega), if_neg (by omega), if_neg (by omega)]
        exact ⟨_, rfl, fun b hb => wrv_frame _ _ _ _ _ hb, val_wrv_step ht _ _ _ _ _ _⟩
      · rw [if_pos ⟨by decide, hm⟩, if_pos hm]
        exact ⟨_, rfl, fun b hb => wrv_frame _ _ _ _ _ hb, val_wrv_range _ _ _ _ (lo_range m h)⟩
    · rw [if_neg h2, if_neg (by omega), if_neg (by omega), if_neg (by tauto)]
      exact ⟨_, rfl, fun b hb => wrv_frame _ _ _ _ _ hb, val_wrv_step ht _ _ _ _ _ _⟩

/-- The number that a value is, with the infinities at the ends. -/
def number : Val → Option (WithBot (WithTop ℚ))
  | .nan => none
  | .inf true => some ⊥
  | .inf false => some ⊤
  | .fin x => some (x : WithTop ℚ)

/-- The comparison is that of the numbers. -/
theorem less_iff (v w : Val) : less v w = true ↔ ∃ x y, number v = some x ∧ number w = some y ∧ x < y := by
  have ht : (⊤ : WithBot (WithTop ℚ)) = ((⊤ : WithTop ℚ) : WithBot (WithTop ℚ)) := rfl
  have hf : ∀ x : ℚ, ((x : WithTop ℚ) : WithBot (WithTop ℚ)) < ⊤ := fun x => by
    rw [ht, WithBot.coe_lt_coe]
    exact WithTop.coe_lt_top x
  rcases v with _ | ⟨_ | _⟩ | x <;> rcases w with _ | ⟨_ | _⟩ | y <;> simp [less, number, hf, WithBot.bot_lt_coe]

/-- **C127.** What it means to be between two limits that are numbers. -/
theorem C127_between (lo hi v : Val) (a b : WithBot (WithTop ℚ)) (hl : number lo = some a) (hh : number hi = some b) :
    Between lo hi v ↔ ∃ x, number v = some x ∧ a ≤ x ∧ x ≤ b := by
  have hn : v ≠ .nan ↔ ∃ x, number v = some x := by rcases v with _ | ⟨_ | _⟩ | x <;> simp [number]
  rw [Between, hn]
  simp only [← Bool.not_eq_true, less_iff, hl, hh, Option.some.injEq]
  constructor
  · rintro ⟨⟨x, hx⟩, h1, h2⟩
    exact ⟨x, hx, not_lt.1 fun h => h1 ⟨x, a, hx, rfl, h⟩, not_lt.1 fun h => h2 ⟨b, x, rfl, hx, h⟩⟩
  · rintro ⟨x, hx, h1, h2⟩
    refine ⟨⟨x, hx⟩, ?_, ?_⟩
    · rintro ⟨y, z, h3, rfl, h4⟩
      rw [hx] at h3
      cases h3
      exact absurd h1 (not_le.2 h4)
    · rintro ⟨z, y, rfl, h3, h4⟩
      rw [hx] at h3
      cases h3
      exact absurd h2 (not_le.2 h4)

/-- Every number is between the infinities, and 2 is not between 3 and 4. -/
example : Between (.inf true) (.inf false) (.fin 2) ∧ Between (.inf true) (.inf false) (.inf true) ∧
    ¬ Between (.fin 3) (.fin 4) (.fin 2) ∧ ¬ Between (.inf true) (.inf false) .nan := by
  simp [Between, less]
  norm_num

theorem less_irrefl (v : Val) : less v v = false := by
  cases v with
  | nan => rfl
  | inf s => cases s <;> rfl
  | fin x => simp [less]

theorem int_finite (t : Ty) {mod : Int} (hm : |mod| ≤ 2 ^ 31) : bits (fmt t) mod ≠ (fmt t).infBits := by
  refine bits_finite (fmt_eb t) ?_
  have h1 : |(mod : ℚ)| ≤ 2 ^ 31 := by exact_mod_cast hm
  have h2 : (2 : ℚ) ^ 31 ≤ (fmt t).max := by cases t <;> decide +kernel
  exact h1.trans h2

theorem stepVal_number (t : Ty) (x y : ℚ) {mod : Int} (hm : |mod| ≤ 2 ^ 31) : stepVal t (.fin x) (.fin y) mod ≠ .nan := by
  have h1 : mul (fmt t) (.fin y) (round (fmt t) mod) ≠ .nan := by
    rw [Gel.Ieee.round, if_neg (int_finite t hm), mul]
    exact round_ne_nan _
  rw [stepVal]
  cases hw : mul (fmt t) (.fin y) (round (fmt t) mod) with
  | nan => exact absurd hw h1
  | inf s => simp [add]
  | fin z =>
    rw [add]
    exact round_ne_nan _

/-! ## C127 -/

/-- **C127.** `parameter_operator` with `mod ≠ 0` leaves the value between the limits if and only if the sum
`value + step * mod` is a number. -/
theorem C127_exact (sz : Nat) (m : Mem) (h : Handle) (mod : Int) (ht : h.type.isInt = false) (hm0 : mod ≠ 0)
    (hlo : loVal m h ≠ .nan) (hhi : hiVal m h ≠ .nan) (hle : less (hiVal m h) (loVal m h) = false) :
    ∃ m', operator (ieee sz) m (some h) mod = .ok (m', 0) ∧
      (Between (loVal m h) (hiVal m h) (valueOf m' h) ↔ stepVal h.type (valueOf m h) (stepOf h) mod ≠ .nan) := by
  obtain ⟨m', h1, h2, h3⟩ := operator_float sz m h mod ht
  refine ⟨m', h1, ?_⟩
  rw [h3]
  have hl : ∀ v, less v .nan = false ∧ less .nan v = false := by
    intro v
    cases v with
    | nan => exact ⟨rfl, rfl⟩
    | inf s => cases s <;> exact ⟨rfl, rfl⟩
    | fin x => exact ⟨rfl, rfl⟩
  by_cases hn : stepVal h.type (valueOf m h) (stepOf h) mod = .nan
  · rw [hn, (hl _).1, (hl _).2]
    simp [Between]
  · refine ⟨fun _ => hn, fun _ => ?_⟩
    split_ifs with c1 c2 c3
    · exact ⟨hlo, less_irrefl _, hle⟩
    · exact ⟨hhi, hle, less_irrefl _⟩
    · omega
    · rw [not_or, Bool.not_eq_true, Bool.not_eq_true] at c1
      exact ⟨hn, c1.2, c1.1⟩

/-- **C127.** `parameter_operator` with `mod ≠ 0` leaves the value between the limits, whatever it was before, and changes only
the variable, if the value and the step are finite. -/
theorem C127_limits (sz : Nat) (m : Mem) (h : Handle) (mod : Int) (ht : h.type.isInt = false) (hm0 : mod ≠ 0)
    (hm : |mod| ≤ 2 ^ 31) (x y : ℚ) (hv : valueOf m h = .fin x) (hs : stepOf h = .fin y) (hlo : loVal m h ≠ .nan)
    (hhi : hiVal m h ≠ .nan) (hle : less (hiVal m h) (loVal m h) = false) :
    ∃ m', operator (ieee sz) m (some h) mod = .ok (m', 0) ∧ Between (loVal m h) (hiVal m h) (valueOf m' h) ∧
      (∀ b, b < h.pointer ∨ h.pointer + h.type.size ≤ b → m' b = m b) := by
  obtain ⟨m', h1, h2⟩ := C127_exact sz m h mod ht hm0 hlo hhi hle
  obtain ⟨m2, e1, e2, -⟩ := operator_float sz m h mod ht
  obtain rfl : m' = m2 := by
    rw [h1] at e1
    injection e1 with e1
    injection e1
  exact ⟨m', h1, h2.2 (by rw [hv, hs]; exact stepVal_number h.type x y hm), e2⟩

/-- A memory with the pattern `x` in the variable at 100. -/
def fmem (t : Ty) (x : Int) : Mem := wrv (mem 0) 100 t x

/-- The pattern of a number, and the value after a call. -/
def pat (t : Ty) (x : ℚ) : BitVec 64 := BitVec.ofNat 64 (encode (fmt t) (round (fmt t) x))
def after (r : Res (Mem × Int)) (h : Handle) : Option Val :=
  match r with
  | .ok (m, _) => some (valueOf m h)
  | _ => none

/-- From 2.5 by 3 * 0.5 between 1 and 5; by 6 * 0.5 it wraps; from infinity as well; from a NaN never. -/
def fhnd : Handle := hnd .flt (pat .flt 1) (pat .flt 5) (pat .flt (1 / 2))
example : after (operator (ieee 32) (fmem .flt 0x40200000) (some fhnd) 3) fhnd = some (.fin 4) ∧
    after (operator (ieee 32) (fmem .flt 0x40200000) (some fhnd) 6) fhnd = some (.fin 1) ∧
    after (operator (ieee 32) (fmem .flt 0x40200000) (some fhnd) (-6)) fhnd = some (.fin 5) ∧
    after (operator (ieee 32) (fmem .flt 0x7F800000) (some fhnd) 1) fhnd = some (.fin 1) ∧
    after (operator (ieee 32) (fmem .flt 0x7FC00000) (some fhnd) 1) fhnd = some .nan := by decide +kernel

theorem outside_float (sz : Nat) (m : Mem) (h : Handle) (x : Int) (ht : h.type.isInt = false) :
    outside (ieee sz) m h x = (less (hiVal m h) (val h.type x) || less (val h.type x) (loVal m h)) := by
  rw [outside, gt, lt, ht]
  rfl

/-- **C127.** After `parameter_check_ranges` every `float` and `double` parameter of the list that was a number is between its
limits, if its default is; those that were already, are not changed. -/
theorem C127_check (env : Env) (g : Nat → Handle → Handle) (hl : Local env g) (sz : Nat) (ps : List Handle) (m : Mem)
    (hp : (ps.map (upd g)).Pairwise Separate) (ha : ∀ h ∈ ps.map (upd g), ∀ k ∈ ps.map (upd g), LimitsApart h k)
    (hlen : ps.length < 2 ^ 31) :
    ∃ ps' m' n, checkRanges env (ieee sz) (ps, m) = .ok ((ps', m'), n) ∧ ∀ h ∈ ps.map (upd g), h.type.isInt = false →
      valueOf m h ≠ .nan →
      (Between (loVal m h) (hiVal m h) (valueOf m h) → valueOf m' h = valueOf m h) ∧
      (Between (loVal m h) (hiVal m h) (defaultOf h) → Between (loVal m h) (hiVal m h) (valueOf m' h)) := by
  obtain ⟨ps', m', h1, h2, -, -⟩ := C37_repair env g hl (ieee sz) ps m hp ha hlen
  refine ⟨ps', m', _, h1, ?_⟩
  intro h hh ht hn
  have hv := h2 h hh
  rw [outside_float sz m h _ ht] at hv
  constructor
  · rintro ⟨-, b1, b2⟩
    rw [show val h.type (rdv m h.pointer h.type) = valueOf m h from rfl, b1, b2] at hv
    rw [valueOf, hv]
    rfl
  · intro hd
    rw [valueOf, hv]
    split_ifs with c
    · exact hd
    · rw [Bool.not_eq_true, Bool.or_eq_false_iff] at c
      exact ⟨hn, c.2, c.1⟩

/-- **C127.** A value that is no number is never repaired. `parameter_operator` leaves it so for every `mod`, -/
theorem C127_nan_step (sz : Nat) (m : Mem) (h : Handle) (mod : Int) (ht : h.type.isInt = false) (hv : valueOf m h = .nan) :
    ∃ m', operator (ieee sz) m (some h) mod = .ok (m', 0) ∧ valueOf m' h = .nan := by
  obtain ⟨m', h1, -, h3⟩ := operator_float sz m h mod ht
  refine ⟨m', h1, ?_⟩
  have hn : stepVal h.type .nan (stepOf h) mod = .nan := by
    rw [stepVal]
    cases mul (fmt h.type) (stepOf h) (round (fmt h.type) mod) <;> rfl
  have hl : ∀ v, less v .nan = false ∧ less .nan v = false := by
    intro v
    cases v with
    | nan => exact ⟨rfl, rfl⟩
    | inf s => cases s <;> exact ⟨rfl, rfl⟩
    | fin x => exact ⟨rfl, rfl⟩
  rw [h3, hv, hn, (hl _).1, (hl _).2]
  simp

/-- and `parameter_check_ranges` neither counts it nor sets it to the default. -/
theorem C127_nan_check (env : Env) (g : Nat → Handle → Handle) (hl : Local env g) (sz : Nat) (ps : List Handle) (m : Mem)
    (hp : (ps.map (upd g)).Pairwise Separate) (ha : ∀ h ∈ ps.map (upd g), ∀ k ∈ ps.map (upd g), LimitsApart h k)
    (hlen : ps.length < 2 ^ 31) (hall : ∀ h ∈ ps.map (upd g), h.type.isInt = false ∧ valueOf m h = .nan) :
    ∃ ps' m', checkRanges env (ieee sz) (ps, m) = .ok ((ps', m'), 0) ∧ ∀ h ∈ ps.map (upd g), valueOf m' h = .nan := by
  obtain ⟨ps', m', h1, h2, -, -⟩ := C37_repair env g hl (ieee sz) ps m hp ha hlen
  have ho : ∀ h ∈ ps.map (upd g), outside (ieee sz) m h (rdv m h.pointer h.type) = false := by
    intro h hh
    obtain ⟨ht, hv⟩ := hall h hh
    rw [outside_float sz m h _ ht, show val h.type (rdv m h.pointer h.type) = valueOf m h from rfl, hv]
    generalize hiVal m h = a
    generalize loVal m h = b
    cases a <;> cases b <;> simp [less]
  refine ⟨ps', m', ?_, ?_⟩
  · rw [h1, List.countP_eq_zero.2 (fun h hh => by rw [ho h hh]; simp)]
    rfl
  · intro h hh
    rw [valueOf, h2 h hh, ho h hh]
    exact (hall h hh).2

/-- A double of 7 is set to its default 2, a NaN is not. -/
def dhnd : Handle := { hnd .dbl (pat .dbl 1) (pat .dbl 5) (pat .dbl (1 / 2)) with defaultv := pat .dbl 2 }
def checked (x : Int) : Option (Val × Int) :=
  match checkRanges noCalls (ieee 64) ([dhnd], fmem .dbl x) with
  | .ok ((_, m), n) => some (valueOf m dhnd, n)
  | _ => none
example : checked 0x401C000000000000 = some (.fin 2, 1) ∧ checked 0x4010000000000000 = some (.fin 4, 0) ∧
    checked 0x7FF8000000000000 = some (.nan, 0) := by decide +kernel

/-! ## C128 -/

/-- Every `int` is a value of `double`, and those up to 2^24 of `float`. -/
theorem isVal_int (t : Ty) (mod : Int) (h1 : |mod| ≤ 2 ^ 31) (h2 : |mod| ≤ 2 ^ (fmt t).p) : IsVal (fmt t) mod := by
  have hq : (fmt t).qmin ≤ 0 := by cases t <;> decide
  have hx : |(mod : ℚ)| ≤ 2 ^ 31 := by exact_mod_cast h1
  have hb : (2 : ℚ) ^ 31 ≤ (fmt t).max := by cases t <;> decide +kernel
  exact round_val (round_exact (fmt_eb t) (m := mod) (e := 0) h2 hq (by simp) (hx.trans hb))

/-- **C128.** If `mod`, the product and the sum are values of the type, stepping is exact: the value becomes
`value + step * mod`, or the opposite limit. -/
theorem C128_exact (sz : Nat) (m : Mem) (h : Handle) (mod : Int) (ht : h.type.isInt = false) (hm0 : mod ≠ 0)
    (x y a b : ℚ) (hv : valueOf m h = .fin x) (hs : stepOf h = .fin y) (hlo : loVal m h = .fin a) (hhi : hiVal m h = .fin b)
    (h1 : IsVal (fmt h.type) mod) (h2 : IsVal (fmt h.type) (y * mod)) (h3 : IsVal (fmt h.type) (x + y * mod)) :
    ∃ m', operator (ieee sz) m (some h) mod = .ok (m', 0) ∧ valueOf m' h = .fin
      (if a ≤ x + y * mod ∧ x + y * mod ≤ b then x + y * mod else if 0 < mod then a else b) := by
  obtain ⟨m', e1, -, e3⟩ := operator_float sz m h mod ht
  refine ⟨m', e1, ?_⟩
  have hn : stepVal h.type (valueOf m h) (stepOf h) mod = .fin (x + y * mod) := by
    rw [stepVal, hv, hs, round_isVal h1, mul, round_isVal h2, add, round_isVal h3]
  rw [e3, hn, hlo, hhi]
  simp only [less, decide_eq_true_eq]
  by_cases c : a ≤ x + y * mod ∧ x + y * mod ≤ b
  · rw [if_pos c, if_neg (by rintro (c1 | c1) <;> linarith [c.1, c.2])]
  · rw [if_neg c, if_pos (by
      by_contra hc
      rw [not_or, not_lt, not_lt] at hc
      exact c ⟨hc.2, hc.1⟩)]
    rcases lt_or_gt_of_ne hm0 with hm | hm
    · rw [if_neg (by omega), if_pos hm, if_neg (by omega)]
    · rw [if_pos hm, if_pos hm]

/-- **C128.** In general, if `mod` is a value of the type (every `int` is one of `double`; up to 2^24 of `float`), a
finite value that is between the limits differs from `value + step * mod` by the rounding of the product and of the sum. -/
theorem C128_error (sz : Nat) (m : Mem) (h : Handle) (mod : Int) (ht : h.type.isInt = false)
    (x y z : ℚ) (hv : valueOf m h = .fin x) (hs : stepOf h = .fin y) (h1 : IsVal (fmt h.type) mod)
    (hz : stepVal h.type (valueOf m h) (stepOf h) mod = .fin z) (hb : Between (loVal m h) (hiVal m h) (.fin z)) :
    ∃ m', operator (ieee sz) m (some h) mod = .ok (m', 0) ∧ valueOf m' h = .fin z ∧
      (let tiny : ℚ := 2 ^ ((fmt h.type).qmin - 1)
       let e := max (|y * mod| / 2 ^ (fmt h.type).p) tiny
       |z - (x + y * mod)| ≤ e + max ((|x + y * mod| + e) / 2 ^ (fmt h.type).p) tiny) := by
  obtain ⟨m', e1, -, e3⟩ := operator_float sz m h mod ht
  refine ⟨m', e1, ?_, ?_⟩
  · rw [e3, hz, hb.2.1, hb.2.2]
    simp
  · rw [hv, hs, stepVal, round_isVal h1, mul] at hz
    cases hw : round (fmt h.type) (y * mod) with
    | nan => exact absurd hw (round_ne_nan _)
    | inf s => rw [hw] at hz; simp [add] at hz
    | fin d =>
      rw [hw, add] at hz
      have r1 := round_err hw
      have r2 := round_err hz
      set e := max (|y * mod| / 2 ^ (fmt h.type).p) (2 ^ ((fmt h.type).qmin - 1))
      have t1 := abs_add_le (z - (x + d)) (d - y * mod)
      have t2 : z - (x + d) + (d - y * mod) = z - (x + y * mod) := by ring
      have t3 : |x + d| ≤ |x + y * mod| + e := by
        have := abs_add_le (x + y * mod) (d - y * mod)
        rw [show x + y * mod + (d - y * mod) = x + d by ring] at this
        linarith
      rw [t2] at t1
      have hp : (0 : ℚ) < 2 ^ (fmt h.type).p := by positivity
      have t4 : |x + d| / 2 ^ (fmt h.type).p ≤ (|x + y * mod| + e) / 2 ^ (fmt h.type).p :=
        div_le_div_of_nonneg_right t3 hp.le
      have t5 := max_le_max_right ((2 : ℚ) ^ ((fmt h.type).qmin - 1)) t4
      dsimp only
      linarith

/-- `k` calls of `parameter_operator`. -/
def steps (sz : Nat) (h : Handle) (mod : Int) : Nat → Mem → Res Mem
  | 0, m => .ok m
  | k + 1, m => do
    let (m, _) ← operator (ieee sz) m (some h) mod
    steps sz h mod k m

/-- **C128.** If the product is less than a quarter of the distance to the next value, the parameter does not
move, however often `parameter_operator` is called. -/
theorem C128_stuck (sz : Nat) (h : Handle) (mod : Int) (ht : h.type.isInt = false) (hl : LimitsApart h h) (x y d : ℚ)
    (h0 : x ≠ 0) (hs : stepOf h = .fin y) (h1 : IsVal (fmt h.type) mod) (hd : round (fmt h.type) (y * mod) = .fin d)
    (hlt : |d| < 2 ^ rexp (fmt h.type) x / 4) (k : Nat) (m : Mem) (hv : valueOf m h = .fin x)
    (hb : Between (loVal m h) (hiVal m h) (.fin x)) :
    ∃ m', steps sz h mod k m = .ok m' ∧ valueOf m' h = .fin x := by
  induction k generalizing m with
  | zero => exact ⟨m, rfl, hv⟩
  | succ k ih =>
    obtain ⟨m1, e1, e2, e3⟩ := operator_float sz m h mod ht
    have hn : stepVal h.type (valueOf m h) (stepOf h) mod = .fin x := by
      rw [stepVal, hv, hs, round_isVal h1, mul, hd, add]
      exact round_stuck ⟨_, hv⟩ h0 hlt
    rw [hn, hb.2.1, hb.2.2] at e3
    simp only [Bool.false_eq_true, or_self, if_false] at e3
    have l1 : loVal m1 h = loVal m h := by rw [loVal, loVal, lo_frame m m1 h h hl e2]
    have l2 : hiVal m1 h = hiVal m h := by rw [hiVal, hiVal, hi_frame m m1 h h hl e2]
    obtain ⟨m', f1, f2⟩ := ih m1 e3 (by rw [l1, l2]; exact hb)
    exact ⟨m', by rw [steps, e1, Res.ok_bind]; exact f1, f2⟩

/-- Ten steps of 0.1 between 0 and 1, from 0: the sum is 1.00000012 and the `float` is 0 again; 1 is never reached. -/
def tenth (t : Ty) : Handle := hnd t 0 (pat t 1) (pat t (1 / 10))
def stepped10 (t : Ty) (k : Nat) : Option Val :=
  match steps 32 (tenth t) 1 k (fmem t 0) with
  | .ok m => some (valueOf m (tenth t))
  | _ => none
example : stepped10 .flt 5 = some (.fin (1 / 2)) ∧ stepped10 .flt 9 = some (.fin (15099496 / 2 ^ 24)) ∧
    stepped10 .flt 10 = some (.fin 0) := by decide +kernel

/-- A `float` of 2^24 with step 0.25 and limits 0 and 2^25 does not move. -/
example : (rexp binary32 (2 ^ 24), round binary32 (1 / 4 * (1 : ℤ))) = (1, Val.fin (1 / 4)) := by decide +kernel
def bigh : Handle := hnd .flt 0 (pat .flt (2 ^ 25)) (pat .flt (1 / 4))
example : after (operator (ieee 32) (fmem .flt 0x4B800000) (some bigh) 1) bigh = some (.fin (2 ^ 24)) ∧
    after (operator (ieee 32) (fmem .flt 0x4B800000) (some bigh) 8) bigh = some (.fin (2 ^ 24 + 2)) := by decide +kernel

/-! ## C129 -/

theorem total_float (sz : Nat) (m : Mem) (h : Handle) (ht : h.type.isInt = false) :
    getTotalValues (ieee sz) sz m (some h) = toSize sz (countVal h.type (loVal m h) (hiVal m h)) := by
  rw [getTotalValues]
  generalize hx : lo m h = x
  generalize hy : hi m h = y
  rw [loVal, hiVal, hx, hy]
  cases hty : h.type <;> rw [hty] at ht <;> first | exact absurd ht (by decide) | rfl

/-- **C129.** `parameter_get_total_values` gives `max - min + 1`, truncated, if the difference and the sum are values of the type,
and is undefined if the result does not fit. -/
theorem C129_exact (sz : Nat) (m : Mem) (h : Handle) (ht : h.type.isInt = false) (a b : ℚ)
    (hlo : loVal m h = .fin a) (hhi : hiVal m h = .fin b) (h1 : IsVal (fmt h.type) (b - a))
    (h2 : IsVal (fmt h.type) (b - a + 1)) :
    getTotalValues (ieee sz) sz m (some h) =
      if -1 < b - a + 1 ∧ b - a + 1 < 2 ^ sz then .ok (Round.trunc (b - a + 1)) else .ub := by
  rw [total_float sz m h ht, countVal, hlo, hhi, neg, add, ← sub_eq_add_neg, round_isVal h1, add, round_isVal h2, toSize]

/-- **C129.** In general, if the limits are finite and the call is defined, the result differs from `max - min + 1`, before the
truncation, by the rounding of the difference and of the sum. -/
theorem C129_error (sz : Nat) (m : Mem) (h : Handle) (ht : h.type.isInt = false) (a b : ℚ)
    (hlo : loVal m h = .fin a) (hhi : hiVal m h = .fin b) (n : Int)
    (hr : getTotalValues (ieee sz) sz m (some h) = .ok n) :
    ∃ z : ℚ, n = Round.trunc z ∧ -1 < z ∧ z < 2 ^ sz ∧
      (let tiny : ℚ := 2 ^ ((fmt h.type).qmin - 1)
       let e := max (|b - a| / 2 ^ (fmt h.type).p) tiny
       |z - (b - a + 1)| ≤ e + max ((|b - a + 1| + e) / 2 ^ (fmt h.type).p) tiny) := by
  rw [total_float sz m h ht, countVal, hlo, hhi, neg, add, ← sub_eq_add_neg] at hr
  cases hw : round (fmt h.type) (b - a) with
  | nan => exact absurd hw (round_ne_nan _)
  | inf s => rw [hw] at hr; simp [add, toSize] at hr
  | fin d =>
    rw [hw, add] at hr
    cases hz : round (fmt h.type) (d + 1) with
    | nan => exact absurd hz (round_ne_nan _)
    | inf s => rw [hz] at hr; simp [toSize] at hr
    | fin z =>
      rw [hz, toSize] at hr
      split_ifs at hr with hc
      refine ⟨z, by injection hr with hr; exact hr.symm, hc.1, hc.2, ?_⟩
      have r1 := round_err hw
      have r2 := round_err hz
      set e := max (|b - a| / 2 ^ (fmt h.type).p) (2 ^ ((fmt h.type).qmin - 1))
      have t1 := abs_add_le (z - (d + 1)) (d - (b - a))
      have t2 : z - (d + 1) + (d - (b - a)) = z - (b - a + 1) := by ring
      have t3 : |d + 1| ≤ |b - a + 1| + e := by
        have := abs_add_le (b - a + 1) (d - (b - a))
        rw [show b - a + 1 + (d - (b - a)) = d + 1 by ring] at this
        linarith
      rw [t2] at t1
      have hp : (0 : ℚ) < 2 ^ (fmt h.type).p := by positivity
      have t4 : |d + 1| / 2 ^ (fmt h.type).p ≤ (|b - a + 1| + e) / 2 ^ (fmt h.type).p :=
        div_le_div_of_nonneg_right t3 hp.le
      have t5 := max_le_max_right ((2 : ℚ) ^ ((fmt h.type).qmin - 1)) t4
      dsimp only
      linarith

/-- **C129.** If the range is so large that values are 8 or more apart, the last 1 is lost. -/
theorem C129_rounded (sz : Nat) (m : Mem) (h : Handle) (ht : h.type.isInt = false) (a b : ℚ)
    (hlo : loVal m h = .fin a) (hhi : hiVal m h = .fin b) (h1 : IsVal (fmt h.type) (b - a)) (h0 : 0 < b - a)
    (h8 : 3 ≤ rexp (fmt h.type) (b - a)) (hsz : b - a < 2 ^ sz) :
    getTotalValues (ieee sz) sz m (some h) = .ok (Round.trunc (b - a)) := by
  have hs : round (fmt h.type) (b - a + 1) = .fin (b - a) := by
    refine round_stuck h1 h0.ne' ?_
    have : (2 : ℚ) ^ (3 : ℤ) ≤ 2 ^ rexp (fmt h.type) (b - a) := zpow_le_zpow_right₀ (by norm_num) h8
    norm_num at this ⊢
    linarith
  rw [total_float sz m h ht, countVal, hlo, hhi, neg, add, ← sub_eq_add_neg, round_isVal h1, add, hs, toSize,
    if_pos ⟨by linarith, hsz⟩]

/-- **C129.** Limits that are infinite or no numbers make the call undefined. -/
theorem C129_undefined (sz : Nat) (m : Mem) (h : Handle) (ht : h.type.isInt = false)
    (hn : (∀ a, loVal m h ≠ .fin a) ∨ ∀ b, hiVal m h ≠ .fin b) : getTotalValues (ieee sz) sz m (some h) = .ub := by
  rw [total_float sz m h ht, countVal]
  generalize loVal m h = u at *
  generalize hiVal m h = v at *
  cases u <;> cases v <;> simp only [neg, add, toSize] at *
  · split_ifs <;> rfl
  · rcases hn with hn | hn
    · exact absurd rfl (hn _)
    · exact absurd rfl (hn _)

/-- 1 to 5 are 5 values, 0.5 to 2 are 2; 0 to 2^24 are 2^24, and to 2^32 undefined for a `size_t` of 32 bits. -/
example : getTotalValues (ieee 32) 32 (mem 0) (some fhnd) = .ok 5 ∧
    getTotalValues (ieee 32) 32 (mem 0) (some (hnd .flt (pat .flt (1 / 2)) (pat .flt 2) 0)) = .ok 2 ∧
    getTotalValues (ieee 32) 32 (mem 0) (some (hnd .flt 0 (pat .flt (2 ^ 24)) 0)) = .ok (2 ^ 24) ∧
    getTotalValues (ieee 32) 32 (mem 0) (some (hnd .flt 0 (pat .flt (2 ^ 32)) 0)) = .ub ∧
    getTotalValues (ieee 64) 64 (mem 0) (some (hnd .dbl 0 (pat .dbl (2 ^ 56)) 0)) = .ok (2 ^ 56) := by decide +kernel

end Gel.Param
