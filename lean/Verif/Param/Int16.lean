import Verif.Param.Clone

/-!
# Parameter on machines whose `int` has 16 bits: properties C181 and C182

The models of C35 and C41 are for an `int` of 32 bits. Here the two expressions whose type depends on the width of `int` are
computed with `int` of 16 bits (so `mod` is between -32768 and 32767); everything else is as in `Param/Model.lean`.
-/
namespace Gel.Param

/-- `TYPE newv = *var + p.step.name * (mod)`, parameter.c:49: `uint8_t`, `int8_t` and `int16_t` are computed in `int`, all others in
their own type. -/
def newValue16 (F : Fl) (t : Ty) (v s mod : Int) : Res Int :=
  match t with
  | .u8 | .i8 | .i16 => do
    let p ← chkS 16 (s * mod)
    let q ← chkS 16 (v + p)
    pure (t.wrap q)
  | .u16 => pure (wrapU 16 (v + wrapU 16 (s * wrapU 16 mod)))
  | .i32 => do
    let p ← chkS 32 (s * mod)
    let q ← chkS 32 (v + p)
    pure (t.wrap q)
  | .u32 => pure (wrapU 32 (v + wrapU 32 (s * wrapU 32 mod)))
  | .u64 => pure (wrapU 64 (v + wrapU 64 (s * wrapU 64 mod)))
  | .i64 => do
    let p ← chkS 64 (s * mod)
    let q ← chkS 64 (v + p)
    pure (t.wrap q)
  | .flt | .dbl => pure (F.step t v s mod)

/-- `APPLY_OPERATOR`, parameter.c:44-57. -/
def applyOperator16 (F : Fl) (m : Mem) (h : Handle) (mod : Int) : Res Mem := do
  let v := rdv m h.pointer h.type
  let min := lo m h
  let max := hi m h
  let newv ← newValue16 F h.type v (member h.type h.step) mod
  let res := checkRangeAgainst F m h newv
  if res ≠ 0 ∧ mod > 0 then pure (wrv m h.pointer h.type min)
  else if res ≠ 0 ∧ mod < 0 then pure (wrv m h.pointer h.type max)
  else pure (wrv m h.pointer h.type newv)

/-- `parameter_operator`, parameter.c:298-347. -/
def operator16 (F : Fl) (m : Mem) (h : Option Handle) (mod : Int) : Res (Mem × Int) :=
  match h with
  | some h => do
    let m ← applyOperator16 F m h mod
    pure (m, 0)
  | none => pure (m, -1)

/-- `GET_RANGE`, parameter.c:60-65. -/
def getRange16 (F : Fl) (sz : Nat) (t : Ty) (min max : Int) : Res Int :=
  match t with
  | .u8 | .i8 | .i16 => do
    let p ← chkS 16 (max - min)
    let q ← chkS 16 (p + 1)
    pure (wrapU sz q)
  | .u16 => pure (wrapU sz (wrapU 16 (wrapU 16 (max - min) + 1)))
  | .i32 => do
    let p ← chkS 32 (max - min)
    let q ← chkS 32 (p + 1)
    pure (wrapU sz q)
  | .u32 => pure (wrapU sz (wrapU 32 (wrapU 32 (max - min) + 1)))
  | .u64 => pure (wrapU sz (wrapU 64 (wrapU 64 (max - min) + 1)))
  | .i64 => do
    let p ← chkS 64 (max - min)
    let q ← chkS 64 (p + 1)
    pure (wrapU sz q)
  | .flt | .dbl => F.count t min max

/-- `parameter_get_total_values`, parameter.c:500-549. -/
def getTotalValues16 (F : Fl) (sz : Nat) (m : Mem) (h : Option Handle) : Res Int :=
  match h with
  | some h => getRange16 F sz h.type (lo m h) (hi m h)
  | none => pure 0

/-- Representable with 16 bits. -/
def Spec.Fits16 (x : Int) : Prop := -32768 ≤ x ∧ x < 32768

open Spec (Fits16 InRange)

theorem chkS_16 (x : Int) : chkS 16 x = if -32768 ≤ x ∧ x < 32768 then .ok x else .ub := rfl

theorem chkS_32 (x : Int) : chkS 32 x = if -2147483648 ≤ x ∧ x < 2147483648 then .ok x else .ub := rfl

theorem small_product {b s mod : Int} (h1 : -b ≤ s) (h2 : s ≤ b) (hm : Fits16 mod) : -(b * 32768) ≤ s * mod ∧ s * mod ≤ b * 32768 := by
  obtain ⟨m1, m2⟩ := hm
  have hb : 0 ≤ b := by omega
  constructor <;> nlinarith

/-- The types that are computed in `int`: undefined, or as with 32 bits. -/
theorem newValue16_small (F : Fl) (t : Ty) (ht : t = .u8 ∨ t = .i8 ∨ t = .i16) (v s mod : Int)
    (hv : InRange t.signed (8 * t.size) v) (hs : InRange t.signed (8 * t.size) s) (hm : Fits16 mod) :
    newValue16 F t v s mod =
      if (-32768 ≤ s * mod ∧ s * mod < 32768) ∧ -32768 ≤ v + s * mod ∧ v + s * mod < 32768 then newValue F t v s mod else .ub := by
  have hb : -32768 ≤ v ∧ v ≤ 32768 ∧ -32768 ≤ s ∧ s ≤ 32768 := by
    rcases ht with rfl | rfl | rfl <;> simp [InRange, Ty.signed, Ty.size] at hv hs <;> omega
  obtain ⟨p1, p2⟩ := small_product hb.2.2.1 hb.2.2.2 hm
  have e1 : newValue16 F t v s mod = (do
      let p ← chkS 16 (s * mod)
      let q ← chkS 16 (v + p)
      pure (t.wrap q)) := by rcases ht with rfl | rfl | rfl <;> rfl
  have e2 : newValue F t v s mod = (do
      let p ← chkS 32 (s * mod)
      let q ← chkS 32 (v + p)
      pure (t.wrap q)) := by rcases ht with rfl | rfl | rfl <;> rfl
  rw [e1, e2]
  by_cases h1 : -32768 ≤ s * mod ∧ s * mod < 32768
  · rw [chkS_16, if_pos h1, Res.ok_bind, chkS_16, chkS_32, if_pos (show -2147483648 ≤ s * mod ∧ s * mod < 2147483648 by omega),
      Res.ok_bind, chkS_32]
    by_cases h2 : -32768 ≤ v + s * mod ∧ v + s * mod < 32768
    · rw [if_pos h2, if_pos (show -2147483648 ≤ v + s * mod ∧ v + s * mod < 2147483648 by omega), if_pos ⟨h1, h2⟩]
    · rw [if_neg h2, if_neg (fun h => h2 h.2), Res.ub_bind]
  · rw [chkS_16, if_neg h1, if_neg (fun h => h1 h.1), Res.ub_bind]

/-- `uint16_t` is computed in `unsigned int` instead of `int`; nothing is lost. -/
theorem newValue16_u16 (F : Fl) (v s mod : Int) (hv : InRange false 16 v) (hs : InRange false 16 s) (hm : Fits16 mod) :
    newValue16 F .u16 v s mod = newValue F .u16 v s mod := by
  simp only [InRange] at hv hs
  obtain ⟨v1, v2⟩ := hv
  obtain ⟨s1, s2⟩ := hs
  obtain ⟨m1, m2⟩ := hm
  have v2' : v < 65536 := v2
  have s2' : s < 65536 := s2
  have p1 : -(65535 * 32768) ≤ s * mod := by nlinarith
  have p2 : s * mod ≤ 65535 * 32767 := by nlinarith
  have e : newValue F .u16 v s mod = .ok (wrapU 16 (v + s * mod)) := by
    simp only [newValue]
    rw [chkS_32, if_pos (show -2147483648 ≤ s * mod ∧ s * mod < 2147483648 by omega), Res.ok_bind, chkS_32,
      if_pos (show -2147483648 ≤ v + s * mod ∧ v + s * mod < 2147483648 by omega)]
    rfl
  rw [e]
  simp only [newValue16, wrapU, Res.pure_eq]
  congr 1
  simp [Int.mul_emod, Int.add_emod]

/-- **C181, partial.** For every parameter except those of the types `uint8_t`, `int8_t` and `int16_t`, a step is the same on both
machines. Missing: these three types (`C181_small`). -/
theorem C181_same_partial (F : Fl) (m : Mem) (h : Handle) (mod : Int) (hm : Fits16 mod) (h8 : h.type ≠ .u8) (hi8 : h.type ≠ .i8)
    (hi16 : h.type ≠ .i16) : operator16 F m (some h) mod = operator F m (some h) mod := by
  have key : newValue16 F h.type (rdv m h.pointer h.type) (member h.type h.step) mod =
      newValue F h.type (rdv m h.pointer h.type) (member h.type h.step) mod := by
    have r1 := rdv_range m h.pointer h.type
    have r2 := member_range h.type h.step
    cases ht : h.type with
    | u8 => exact absurd ht h8
    | i8 => exact absurd ht hi8
    | i16 => exact absurd ht hi16
    | u16 =>
      rw [ht] at r1 r2
      exact newValue16_u16 F _ _ mod r1 r2 hm
    | _ => rfl
  simp only [operator16, operator, applyOperator16, applyOperator, key]

/-- **C181.** For these three types: a step is undefined on the machine with 16 bits exactly if step·mod or value + step·mod does not
fit in 16 bits; otherwise it is the same. -/
theorem C181_small (F : Fl) (m : Mem) (h : Handle) (mod : Int) (hm : Fits16 mod) (ht : h.type = .u8 ∨ h.type = .i8 ∨ h.type = .i16) :
    (Fits16 (member h.type h.step * mod) ∧ Fits16 (rdv m h.pointer h.type + member h.type h.step * mod) →
      operator16 F m (some h) mod = operator F m (some h) mod) ∧
    (¬ (Fits16 (member h.type h.step * mod) ∧ Fits16 (rdv m h.pointer h.type + member h.type h.step * mod)) →
      operator16 F m (some h) mod = .ub) := by
  have key := newValue16_small F h.type ht (rdv m h.pointer h.type) (member h.type h.step) mod (rdv_range _ _ _) (member_range _ _) hm
  constructor
  · intro hf
    simp only [Fits16] at hf
    rw [if_pos hf] at key
    simp only [operator16, operator, applyOperator16, applyOperator, key]
  · intro hf
    simp only [Fits16] at hf
    rw [if_neg hf] at key
    simp only [operator16, applyOperator16, key, Res.ub_bind]

/-- **C181 is false of the code**: every `int16_t` parameter whose exact new value is no `int16_t`. With 32 bits the step is defined. -/
theorem C181_wrong (F : Fl) (m : Mem) (h : Handle) (mod : Int) (hm : Fits16 mod) (ht : h.type = .i16)
    (hs : ¬ Fits16 (rdv m h.pointer .i16 + member .i16 h.step * mod)) :
    operator16 F m (some h) mod = .ub ∧ ∃ m', operator F m (some h) mod = .ok (m', 0) := by
  refine ⟨(C181_small F m h mod hm (by simp [ht])).2 (by rw [ht]; exact fun h => hs h.2), ?_⟩
  have r1 := rdv_range m h.pointer .i16
  have r2 := member_range .i16 h.step
  simp only [InRange, Ty.signed, Ty.size] at r1 r2
  have hv : -32768 ≤ rdv m h.pointer .i16 ∧ rdv m h.pointer .i16 < 32768 := r1
  have hst : -32768 ≤ member .i16 h.step ∧ member .i16 h.step < 32768 := r2
  obtain ⟨m1, m2⟩ := hm
  have hp : -1073741824 ≤ member .i16 h.step * mod ∧ member .i16 h.step * mod ≤ 1073741824 := by
    constructor <;> nlinarith
  have e : ∃ x, newValue F .i16 (rdv m h.pointer .i16) (member .i16 h.step) mod = .ok x := by
    refine ⟨Ty.i16.wrap (rdv m h.pointer .i16 + member .i16 h.step * mod), ?_⟩
    simp only [newValue]
    rw [chkS_32, if_pos (by omega), Res.ok_bind, chkS_32, if_pos (by omega)]
    rfl
  obtain ⟨x, e⟩ := e
  simp only [operator, applyOperator, ht, e, Res.ok_bind]
  split
  · exact ⟨_, rfl⟩
  · split
    · exact ⟨_, rfl⟩
    · exact ⟨_, rfl⟩

/-! ## C182 -/

/-- **C182, partial.** The number of values is the same on both machines, except for the full range of `uint16_t` and for `int16_t`
with 32768 values or more. -/
theorem C182_same_partial (F : Fl) (sz : Nat) (m : Mem) (h : Handle) (hle : lo m h ≤ hi m h)
    (hu : h.type = .u16 → hi m h - lo m h + 1 < 65536) (hi16 : h.type = .i16 → hi m h - lo m h + 1 < 32768) :
    getTotalValues16 F sz m (some h) = getTotalValues F sz m (some h) := by
  have r1 := lo_range m h
  have r2 := hi_range m h
  simp only [getTotalValues16, getTotalValues]
  cases ht : h.type with
  | u8 =>
    rw [ht] at r1 r2
    simp only [InRange, Ty.signed, Ty.size] at r1 r2
    simp at r1 r2
    simp only [getRange16, getRange]
    rw [chkS_16, if_pos (by omega), chkS_32, if_pos (by omega), Res.ok_bind, Res.ok_bind, chkS_16, if_pos (by omega), chkS_32,
      if_pos (by omega)]
  | i8 =>
    rw [ht] at r1 r2
    simp only [InRange, Ty.signed, Ty.size] at r1 r2
    simp at r1 r2
    simp only [getRange16, getRange]
    rw [chkS_16, if_pos (by omega), chkS_32, if_pos (by omega), Res.ok_bind, Res.ok_bind, chkS_16, if_pos (by omega), chkS_32,
      if_pos (by omega)]
  | i16 =>
    have := hi16 ht
    simp only [getRange16, getRange]
    rw [chkS_16, if_pos (by omega), chkS_32, if_pos (by omega), Res.ok_bind, Res.ok_bind, chkS_16, if_pos (by omega), chkS_32,
      if_pos (by omega)]
  | u16 =>
    have := hu ht
    have e1 : wrapU 16 (hi m h - lo m h) = hi m h - lo m h := Int.emod_eq_of_lt (by omega) (by norm_num; omega)
    have e2 : wrapU 16 (hi m h - lo m h + 1) = hi m h - lo m h + 1 := Int.emod_eq_of_lt (by omega) (by norm_num; omega)
    simp only [getRange16, getRange]
    rw [chkS_32, if_pos (by omega), Res.ok_bind, chkS_32, if_pos (by omega), e1, e2, Res.ok_bind]
  | _ => rfl

/-- **C182 is false of the code** in these cases: the full range of `uint16_t` has 0 values, and 32768 or more values of `int16_t`
are undefined. With 32 bits the results are right. -/
theorem C182_wrong (F : Fl) (m : Mem) (h : Handle) :
    (h.type = .u16 → hi m h - lo m h + 1 = 65536 →
      getTotalValues16 F 64 m (some h) = .ok 0 ∧ getTotalValues F 64 m (some h) = .ok 65536) ∧
    (h.type = .i16 → 32768 ≤ hi m h - lo m h + 1 →
      getTotalValues16 F 64 m (some h) = .ub ∧ getTotalValues F 64 m (some h) = .ok (hi m h - lo m h + 1)) := by
  constructor
  · intro ht he
    have e : hi m h - lo m h = 65535 := by omega
    simp only [getTotalValues16, getTotalValues, ht, getRange16, getRange, e]
    exact ⟨by decide, by decide⟩
  · intro ht he
    have r1 := lo_range m h
    have r2 := hi_range m h
    rw [ht] at r1 r2
    simp only [InRange, Ty.signed, Ty.size] at r1 r2
    simp at r1 r2
    simp only [getTotalValues16, getTotalValues, ht, getRange16, getRange]
    constructor
    · by_cases h1 : hi m h - lo m h < 32768
      · rw [chkS_16, if_pos (by omega), Res.ok_bind, chkS_16, if_neg (by omega), Res.ub_bind]
      · rw [chkS_16, if_neg (by omega), Res.ub_bind]
    · rw [chkS_32, if_pos (by omega), Res.ok_bind, chkS_32, if_pos (by omega), Res.ok_bind]
      simp only [Res.pure_eq, wrapU]
      rw [Int.emod_eq_of_lt (by omega) (by norm_num; omega)]

/-- A `uint8_t` at 100 with step 200: ten steps give 100 + 2000 on both machines, 200 steps are 40000, undefined with 16 bits. -/
example : newValue16 F0 .u8 100 200 10 = .ok 52 ∧ newValue F0 .u8 100 200 10 = .ok 52 ∧
    newValue16 F0 .u8 100 200 200 = .ub ∧ newValue F0 .u8 100 200 200 = .ok 164 ∧
    newValue16 F0 .u16 60000 50000 30000 = newValue F0 .u16 60000 50000 30000 := by decide

/-- The full ranges of the two types. -/
example : getRange16 F0 64 .u16 0 65535 = .ok 0 ∧ getRange F0 64 .u16 0 65535 = .ok 65536 ∧
    getRange16 F0 64 .i16 (-32768) 32767 = .ub ∧ getRange F0 64 .i16 (-32768) 32767 = .ok 65536 := by decide

end Gel.Param
