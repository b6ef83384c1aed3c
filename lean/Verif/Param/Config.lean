import Verif.Param.Props

/-!
# Parameter: properties C155 and C156, the configuration and the macros
-/
namespace Gel.Param
open Spec

/-- `_PARAMETER_VALUE_TYPE` for an expression of the type, parameter.h:58-69, with `GEL_PARAMETER_MAX_SIZE` `n`, parameter.h:30-54: types that
are too large are replaced. -/
def cfgType (n : Nat) : Ty → Ty
  | .u8 => .u8
  | .i8 => .i8
  | .u16 => if n ≥ 2 then .u16 else .u8
  | .i16 => if n ≥ 2 then .i16 else .i8
  | .u32 => if n ≥ 4 then .u32 else .u8
  | .i32 => if n ≥ 4 then .i32 else .i8
  | .flt => if n ≥ 4 then .flt else .i8
  | .u64 => if n ≥ 8 then .u64 else .u8
  | .i64 => if n ≥ 8 then .i64 else .i8
  | .dbl => if n ≥ 8 then .dbl else .i8

/-- `_PARAMETER_LIMIT_VALUE_OPTION` with `GEL_PARAMETER_MAX_SIZE` `n`, parameter.h:72-121, for an integer argument and a variable of the
type `t` (not `float` or `double` unless it is too large): the value of the member that is read with the type above. -/
def cfgLimit (n : Nat) (t : Ty) (x : Int) : Int :=
  if t.size ≤ n then limitValue t x
  else match t with
    | .u16 | .u32 | .u64 => wrapU 8 (wrapU 8 x)
    | _ => wrapS 8 (wrapU 8 x)

/-- The type of `*ptr`, where `ptr` is the argument of `PARAMETER` etc. for an element of type `t`: `sum` if it is a sum (`array + 1`), so that
`*ptr` is `*array + 1`, as the macro has no parentheses there, parameter.h:141: the type of the sum of an element and an `int`. -/
def exprType (sum : Bool) (t : Ty) : Ty :=
  if sum then
    match t with
    | .u8 | .i8 | .u16 | .i16 | .i32 => .i32
    | t => t
  else t

/-- The handle that `PARAMETER_STEP` makes for a variable of type `t` at `p`, parameter.h:140-151, where the union is initialised with zeros
around the member. -/
def parameterStep (n : Nat) (sum : Bool) (t : Ty) (p : Nat) (min max def' step : Int) (level : BitVec 32) : Handle :=
  let u (x : Int) : BitVec 64 := BitVec.ofInt 64 (wrapU (8 * (cfgType n t).size) (cfgLimit n t x))
  { type := cfgType n (exprType sum t), pointer := p, pmin := none, pmax := none, min := u min, max := u max, defaultv := u def',
    step := u step, level := level, data := 0, runtime := none, arg := 0 }

/-! ## C155 -/

theorem cfgType_small (n : Nat) (t : Ty) (h : t.size ≤ n) : cfgType n t = t := by
  cases t <;> simp only [Ty.size] at h <;> simp [cfgType] <;> omega

theorem cfgType_large (n : Nat) (t : Ty) (h : n < t.size) (hn : 1 ≤ n) : cfgType n t = if t.isInt ∧ ¬ t.signed then .u8 else .i8 := by
  cases t <;> simp only [Ty.size] at h <;> simp [cfgType, Ty.isInt, Ty.signed] <;> omega

theorem cfgLimit_small (n : Nat) (t : Ty) (x : Int) (h : t.size ≤ n) : cfgLimit n t x = limitValue t x := by
  unfold cfgLimit
  exact if_pos h

theorem member_union (t : Ty) (ht : t.isInt = true) (x : Int) (hx : InRange t.signed (8 * t.size) x) :
    member t (BitVec.ofInt 64 (wrapU (8 * t.size) x)) = x := by
  have h1 : ((BitVec.ofInt 64 (wrapU (8 * t.size) x)).toNat : Int) = wrapU (8 * t.size) x := by
    rw [BitVec.toNat_ofInt]
    have h0 : 0 ≤ wrapU (8 * t.size) x := Int.emod_nonneg _ (by positivity)
    have h2 : wrapU (8 * t.size) x < 2 ^ (8 * t.size) := Int.emod_lt_of_pos _ (by positivity)
    have h3 : (2 : Int) ^ (8 * t.size) ≤ 2 ^ 64 := by cases t <;> simp [Ty.size]
    rw [Int.emod_eq_of_lt h0 (by norm_cast at *; omega)]
    omega
  rw [member, h1, wrap_wrapU, wrap_of_range t x hx]

/-- **C155** (partial). Variables of at most `GEL_PARAMETER_MAX_SIZE` bytes: the handle has the type of the variable, whatever the
configuration, and the limits, the default and the step are those of the largest configuration (C93). Missing: larger
variables (`C155_wrong`). -/
theorem C155_partial (n : Nat) (t : Ty) (ht : t.isInt = true) (hn : t.size ≤ n) (hn8 : n ≤ 8) (p : Nat) (min max def' step : Int)
    (level : BitVec 32) :
    (parameterStep n false t p min max def' step level).type = t ∧
    parameterStep n false t p min max def' step level = parameterStep 8 false t p min max def' step level ∧
    member t (parameterStep n false t p min max def' step level).min = limitValue t min ∧
    member t (parameterStep n false t p min max def' step level).max = limitValue t max ∧
    member t (parameterStep n false t p min max def' step level).defaultv = limitValue t def' ∧
    member t (parameterStep n false t p min max def' step level).step = limitValue t step := by
  have h8 : t.size ≤ 8 := by omega
  have hr : ∀ x, InRange t.signed (8 * t.size) (limitValue t x) := by
    intro x
    cases t <;> first | exact absurd ht (by decide) | skip
    all_goals
      simp only [limitValue, cast16, cast32, cast64, Ty.signed, Ty.size, InRange, wrapS, wrapU, BitVec.toInt_ofInt, Int.bmod, if_true,
        Bool.false_eq_true, if_false]
      (try split_ifs) <;> omega
  have hu : ∀ x, member t (BitVec.ofInt 64 (wrapU (8 * (cfgType n t).size) (cfgLimit n t x))) = limitValue t x := by
    intro x
    rw [cfgType_small n t hn, cfgLimit_small n t x hn, member_union t ht _ (hr x)]
  refine ⟨?_, ?_, hu min, hu max, hu def', hu step⟩
  · simp only [parameterStep, exprType, Bool.false_eq_true, if_false]
    exact cfgType_small n t hn
  · simp only [parameterStep, exprType, Bool.false_eq_true, if_false, cfgType_small n t hn, cfgType_small 8 t h8,
      cfgLimit_small n t _ hn, cfgLimit_small 8 t _ h8]

theorem load_succ (m : Mem) (a n : Nat) : load m a (n + 1) = (m a).toNat + 256 * load m (a + 1) n := rfl

/-- Storing one byte in a larger variable. -/
theorem load_store_low (m : Mem) (a n x : Nat) :
    load (store m a 1 x) a (n + 1) = load m a (n + 1) - load m a (n + 1) % 256 + x % 256 := by
  have h1 : load (store m a 1 x) (a + 1) n = load m (a + 1) n :=
    load_store_apart m a 1 x (a + 1) n (by left; omega)
  have h2 : store m a 1 x a = BitVec.ofNat 8 x := by
    rw [store, if_pos (by omega)]
    simp
  have := (m a).isLt
  rw [load_succ, load_succ, h1, h2, BitVec.toNat_ofNat]
  omega

/-- **C155**, where it fails: an unsigned variable that is larger than `GEL_PARAMETER_MAX_SIZE` is accepted and treated as its lowest byte:
setting it to its default leaves the upper bytes, and the value reported is that of the lowest byte. -/
theorem C155_wrong (n : Nat) (t : Ty) (ht : t.isInt = true) (hu : t.signed = false) (hn : 1 ≤ n) (hl : n < t.size) (p : Nat)
    (min max def' step : Int) (level : BitVec 32) (m : Mem) :
    rdv (setDefault m (parameterStep n false t p min max def' step level)) p t =
      rdv m p t - rdv m p t % 256 + def' % 256 ∧
    toLong 64 m (some (parameterStep n false t p min max def' step level)) = rdv m p t % 256 := by
  have hty : (parameterStep n false t p min max def' step level).type = .u8 := by
    simp only [parameterStep, exprType, Bool.false_eq_true, if_false]
    rw [cfgType_large n t hl hn, if_pos ⟨ht, by rw [hu]; simp⟩]
  have hp : (parameterStep n false t p min max def' step level).pointer = p := rfl
  have hdef : member .u8 (parameterStep n false t p min max def' step level).defaultv = def' % 256 := by
    have hty' := cfgType_large n t hl hn
    rw [if_pos ⟨ht, by rw [hu]; simp⟩] at hty'
    have hlim : cfgLimit n t def' = def' % 256 := by
      unfold cfgLimit
      rw [if_neg (by omega)]
      cases t <;> first | exact absurd ht (by decide) | exact absurd hu (by decide) | skip
      all_goals first
        | (simp only [Ty.size] at hl; omega)
        | simp [wrapU]
    have : (parameterStep n false t p min max def' step level).defaultv =
        BitVec.ofInt 64 (wrapU (8 * Ty.u8.size) (def' % 256)) := by
      simp only [parameterStep]
      rw [hty', hlim]
    rw [this, member_union .u8 rfl]
    simp only [InRange, Ty.signed, Ty.size, Bool.false_eq_true, if_false]
    omega
  have hrd : rdv m p t = load m p t.size := by
    have h1 := load_lt m p t.size
    have h2 : (256 : Nat) ^ t.size = 2 ^ (8 * t.size) := by rw [pow_mul, show (2 : Nat) ^ 8 = 256 by rfl]
    rw [rdv]
    refine wrap_of_range t _ ?_
    rw [InRange, hu, if_neg (by simp)]
    constructor
    · omega
    · rw [h2] at h1
      exact_mod_cast h1
  obtain ⟨k, hk⟩ : ∃ k, t.size = k + 1 := ⟨t.size - 1, by omega⟩
  constructor
  · rw [setDefault, hty, hdef, hp, hrd]
    have hrd' : rdv (wrv m p .u8 (def' % 256)) p t = load (wrv m p .u8 (def' % 256)) p t.size := by
      have h1 := load_lt (wrv m p .u8 (def' % 256)) p t.size
      have h2 : (256 : Nat) ^ t.size = 2 ^ (8 * t.size) := by rw [pow_mul, show (2 : Nat) ^ 8 = 256 by rfl]
      rw [rdv]
      refine wrap_of_range t _ ?_
      rw [InRange, hu, if_neg (by simp)]
      constructor
      · omega
      · rw [h2] at h1
        exact_mod_cast h1
    rw [hrd', hk]
    have hw : wrapU (8 * Ty.u8.size) (def' % 256) = def' % 256 := by
      simp [wrapU, Ty.size]
    rw [wrv, hw, show Ty.u8.size = 1 from rfl, load_store_low]
    have : 0 ≤ def' % 256 := Int.emod_nonneg _ (by omega)
    push_cast
    have h5 : load m p (k + 1) % 256 ≤ load m p (k + 1) := Nat.mod_le _ _
    omega
  · have hlow : rdv m p .u8 = rdv m p t % 256 := by
      rw [hrd, hk, load_succ]
      have := (m p).isLt
      simp only [rdv, Ty.wrap, Ty.signed, Ty.size, Bool.false_eq_true, if_false, load, wrapU]
      push_cast
      omega
    have hlt : rdv m p .u8 < 2 ^ 8 ∧ 0 ≤ rdv m p .u8 := by
      have := rdv_range m p .u8
      simp only [InRange, Ty.signed, Ty.size, Bool.false_eq_true, if_false] at this
      omega
    rw [toLong]
    simp only [hty, hp]
    rw [wrapS, BitVec.toInt_ofInt, Int.bmod, ← hlow]
    split_ifs <;> omega

/-! ## C156 -/

/-- **C156** (partial). The argument `ptr` of the macros is a primary or unary expression (`&variable`, `array`): the handle's type is that of the
variable. It is also right for sums of pointers to types at least as wide as `int`. Missing: sums of pointers to narrower types (`C156_wrong`). -/
theorem C156_partial (sum : Bool) (t : Ty) (h : sum = false ∨ 4 ≤ t.size) (p : Nat) (min max def' step : Int) (level : BitVec 32) :
    (parameterStep 8 sum t p min max def' step level).type = t := by
  simp only [parameterStep]
  have h8 : t.size ≤ 8 := by cases t <;> simp [Ty.size]
  have : exprType sum t = t := by
    rcases h with rfl | h
    · rfl
    · cases t <;> simp only [Ty.size] at h <;> first | omega | (cases sum <;> rfl)
  rw [this, cfgType_small 8 t h8]

/-- **C156**, where it fails: `PARAMETER(array + i, …)` with 8 or 16 bit elements makes a parameter of type `int32_t`: setting it to
its default clears the bytes behind the element (and, if it has none, is undefined in C). -/
theorem C156_wrong (t : Ty) (ht : t.size < 4) (p : Nat) (min max def' step : Int) (level : BitVec 32) (m : Mem)
    (b : Nat) (hb : p + t.size ≤ b) (hb' : b < p + 4) :
    (parameterStep 8 true t p min max def' step level).type = .i32 ∧
    setDefault m (parameterStep 8 true t p min max def' step level) b = 0 := by
  have hty : (parameterStep 8 true t p min max def' step level).type = .i32 := by
    cases t <;> simp only [Ty.size] at ht <;> first | rfl | omega
  refine ⟨hty, ?_⟩
  have h8 : t.size ≤ 8 := by omega
  have hx : ∃ x : Nat, x < 256 ^ t.size ∧
      (parameterStep 8 true t p min max def' step level).defaultv = BitVec.ofNat 64 x := by
    refine ⟨(wrapU (8 * t.size) (cfgLimit 8 t def')).toNat, ?_, ?_⟩
    · have h0 : 0 ≤ wrapU (8 * t.size) (cfgLimit 8 t def') := Int.emod_nonneg _ (by positivity)
      have h2 : wrapU (8 * t.size) (cfgLimit 8 t def') < 2 ^ (8 * t.size) := Int.emod_lt_of_pos _ (by positivity)
      have h3 : (256 : Nat) ^ t.size = 2 ^ (8 * t.size) := by rw [pow_mul, show (2 : Nat) ^ 8 = 256 by rfl]
      rw [h3]
      zify
      rw [Int.toNat_of_nonneg h0]
      exact h2
    · simp only [parameterStep]
      rw [cfgType_small 8 t h8, ← BitVec.ofInt_natCast, Int.toNat_of_nonneg
        (show 0 ≤ wrapU (8 * t.size) (cfgLimit 8 t def') from Int.emod_nonneg _ (by positivity))]
  obtain ⟨x, hx, he⟩ := hx
  have hx4 : x < 256 ^ 2 := lt_of_lt_of_le hx (Nat.pow_le_pow_right (by omega) (by cases t <;> simp only [Ty.size] at ht ⊢ <;> omega))
  have hm : member .i32 (BitVec.ofNat 64 x) = x := by
    rw [member, BitVec.toNat_ofNat, Nat.mod_eq_of_lt (by omega)]
    refine wrap_of_range .i32 _ ?_
    simp only [InRange, Ty.signed, Ty.size, if_true]
    omega
  rw [setDefault, hty, he, hm, wrv, show Ty.i32.size = 4 from rfl, store]
  rw [if_pos (show _ ∧ _ from ⟨by show p ≤ b; omega, by show b < p + 4; omega⟩)]
  have hw : (wrapU (8 * 4) (x : Int)).toNat = x := by
    rw [wrapU, Int.emod_eq_of_lt (by omega) (by omega)]
    omega
  rw [hw, show (parameterStep 8 true t p min max def' step level).pointer = p from rfl]
  have : x / 256 ^ (b - p) = 0 := by
    refine Nat.div_eq_of_lt (lt_of_lt_of_le hx (Nat.pow_le_pow_right (by omega) (by omega)))
  rw [this]
  rfl

/-- A `uint16_t` variable of value 300, limits 0 and 1000, default 500, with `GEL_PARAMETER_MAX_SIZE` 1: reset to 256 + 244 = 500; of
value 700: reset to 512 + 244 = 756. Stepping 300 up by 200 gives 256 + 0, as 44 + 200 is more than 1000 % 256 = 232. And an array of bytes:
`PARAMETER(array + 1, …)`. -/
def bytes (l : List (BitVec 8)) : Mem := fun a => l.getD a 0

example : rdv (setDefault (bytes [44, 1]) (parameterStep 1 false .u16 0 0 1000 500 1 1)) 0 .u16 = 500 ∧
    rdv (setDefault (bytes [188, 2]) (parameterStep 1 false .u16 0 0 1000 500 1 1)) 0 .u16 = 756 ∧
    (List.range 5).map (setDefault (bytes [1, 2, 3, 4, 5]) (parameterStep 8 true .u8 1 0 10 7 1 1)) = [1, 7, 0, 0, 0] ∧
    (List.range 5).map (setDefault (bytes [1, 2, 3, 4, 5]) (parameterStep 8 false .u8 1 0 10 7 1 1)) = [1, 7, 3, 4, 5] := by
  decide

end Gel.Param
