import Verif.Param.Lemmas
import Verif.Time.CheckProps

/-!
# Parameter: properties C35 to C42, C93 and C94
-/
namespace Gel.Param

open Spec

/-! ## C35 and C36 -/

/-- The arithmetic of a step overflows no signed type. -/
def NoOverflow (t : Ty) (v s mod : Int) : Prop :=
  match t with
  | .u8 | .i8 | .u16 | .i16 | .i32 => InRange true 32 (s * mod) ∧ InRange true 32 (v + s * mod)
  | .i64 => InRange true 64 (s * mod) ∧ InRange true 64 (v + s * mod)
  | _ => True

theorem chkS_eq (w : Nat) (x : Int) : chkS w x = if InRange true w x then .ok x else .ub := by
  simp only [chkS, InRange, if_true]

theorem wrapU_mul (w : Nat) (v s mod : Int) : wrapU w (v + wrapU w (s * wrapU w mod)) = wrapU w (v + s * mod) := by
  simp [wrapU, Int.add_emod, Int.mul_emod]

theorem newValue_ok (F : Fl) (t : Ty) (v s mod : Int) (ht : t.isInt = true) (h : NoOverflow t v s mod) :
    newValue F t v s mod = .ok (t.wrap (v + s * mod)) := by
  cases t <;> simp only [NoOverflow] at h <;> first | cases ht | skip
  all_goals first
    | (simp only [newValue, chkS_eq, if_pos h.1, Res.ok_bind, if_pos h.2, Res.pure_eq]; done)
    | (simp only [newValue, wrapU_mul, Res.pure_eq]; rfl)

theorem newValue_ub (F : Fl) (t : Ty) (v s mod : Int) (ht : t.isInt = true) (h : ¬ NoOverflow t v s mod) :
    newValue F t v s mod = .ub := by
  cases t <;> simp only [NoOverflow, not_true_eq_false] at h <;> first | cases ht | skip
  all_goals
    simp only [newValue, chkS_eq]
    split_ifs with h1
    · simp only [Res.ok_bind]
      rw [if_neg (fun h2 => h ⟨h1, h2⟩)]; rfl
    · rfl

theorem checkRangeAgainst_int (F : Fl) (m : Mem) (h : Handle) (x : Int) (ht : h.type.isInt = true) :
    checkRangeAgainst F m h x = 0 ↔ lo m h ≤ x ∧ x ≤ hi m h := by
  simp only [checkRangeAgainst, gt, lt, ht, if_true, decide_eq_true_iff]
  split_ifs
  · constructor
    · intro h; cases h
    · intro h; omega
  · constructor
    · intro h; cases h
    · intro h; omega
  · constructor
    · intro; omega
    · intro; rfl

/-- What a step does to an integer parameter, exactly. -/
theorem operator_eq (F : Fl) (m : Mem) (h : Handle) (mod : Int) (ht : h.type.isInt = true)
    (ho : NoOverflow h.type (rdv m h.pointer h.type) (member h.type h.step) mod) :
    operator F m (some h) mod = .ok (wrv m h.pointer h.type
      (let x := h.type.wrap (rdv m h.pointer h.type + member h.type h.step * mod)
       if lo m h ≤ x ∧ x ≤ hi m h then x else if mod > 0 then lo m h else if mod < 0 then hi m h else x), 0) := by
  simp only [operator, applyOperator, newValue_ok F _ _ _ _ ht ho, Res.ok_bind]
  have hc := checkRangeAgainst_int F m h (h.type.wrap (rdv m h.pointer h.type + member h.type h.step * mod)) ht
  by_cases hin : lo m h ≤ h.type.wrap (rdv m h.pointer h.type + member h.type h.step * mod) ∧
      h.type.wrap (rdv m h.pointer h.type + member h.type h.step * mod) ≤ hi m h
  · rw [if_neg (fun hh => hh.1 (hc.2 hin)), if_neg (fun hh => hh.1 (hc.2 hin)), if_pos hin]; rfl
  · rw [if_neg hin]
    have hc' := fun hh => hin (hc.1 hh)
    by_cases h1 : mod > 0
    · rw [if_pos ⟨hc', h1⟩, if_pos h1]; rfl
    · rw [if_neg (fun hh => h1 hh.2), if_neg h1]
      by_cases h2 : mod < 0
      · rw [if_pos ⟨hc', h2⟩, if_pos h2]; rfl
      · rw [if_neg (fun hh => h2 hh.2), if_neg h2]; rfl

/-- **C35.** After a step with `mod ≠ 0` the value is between the limits (as they were before the call, static or
dynamic), whatever it was before; only the bytes of the parameter's variable change. NULL is refused. -/
theorem C35_limits (F : Fl) (m m' : Mem) (h : Handle) (mod r : Int) (ht : h.type.isInt = true) (hm : mod ≠ 0)
    (hr : operator F m (some h) mod = .ok (m', r)) :
    (lo m h ≤ hi m h → lo m h ≤ rdv m' h.pointer h.type ∧ rdv m' h.pointer h.type ≤ hi m h) ∧
    (∀ b, b < h.pointer ∨ h.pointer + h.type.size ≤ b → m' b = m b) ∧ r = 0 := by
  by_cases ho : NoOverflow h.type (rdv m h.pointer h.type) (member h.type h.step) mod
  · rw [operator_eq F m h mod ht ho] at hr
    injection hr with hr
    injection hr with h1 h2
    subst h1 h2
    refine ⟨?_, fun b hb => wrv_frame _ _ _ _ _ hb, rfl⟩
    intro hle
    rw [rdv_wrv]
    have e1 := wrap_of_range _ _ (lo_range m h)
    have e2 := wrap_of_range _ _ (hi_range m h)
    simp only
    split_ifs with c1 c2 c3
    · rw [wrap_of_range _ _ (wrap_range _ _)]; exact c1
    · rw [e1]; omega
    · rw [e2]; omega
    · omega
  · simp only [operator, applyOperator, newValue_ub F _ _ _ _ ht ho, Res.ub_bind] at hr
    cases hr

theorem C35_null (F : Fl) (m : Mem) (mod : Int) : operator F m none mod = .ok (m, -1) := rfl

/-- Floating point operations of the examples: none of them is used. -/
def F0 : Fl := ⟨fun _ _ _ => false, fun _ _ _ => false, fun _ _ _ _ => 0, fun _ _ _ => .ub⟩

/-- A handle for a variable at 100 and a memory. -/
def hnd (t : Ty) (min max step : BitVec 64) : Handle := ⟨t, 100, none, none, min, max, 7, step, 1, 0, none, 0⟩
def mem (x : BitVec 8) : Mem := fun a => if a = 100 then x else if a = 200 then 5 else 0xEE

def valueAfter (r : Res (Mem × Int)) (t : Ty) : Res Int := do
  let (m, _) ← r
  pure (rdv m 100 t)

example : valueAfter (operator F0 (mem 8) (some (hnd .u8 2 10 1)) 3) .u8 = .ok 2 ∧
    valueAfter (operator F0 (mem 8) (some (hnd .u8 2 10 1)) (-3)) .u8 = .ok 5 ∧
    valueAfter (operator F0 (mem 8) (some { hnd .i8 0xFE 10 1 with pmax := some 200 }) (-20)) .i8 = .ok 5 := by decide

/-- **C36** (partial). If the product and the sum overflow no type involved (in particular the exact sum is a value of
the parameter's type), the new value is the exact sum if it is within the limits and the opposite limit otherwise.
Missing: sums that are no value of the type, for which it is false (`C36_wrong`) or undefined (`C36_undefined`). -/
theorem C36_partial (F : Fl) (m : Mem) (h : Handle) (mod : Int) (ht : h.type.isInt = true)
    (ho : NoOverflow h.type (rdv m h.pointer h.type) (member h.type h.step) mod)
    (hs : InRange h.type.signed (8 * h.type.size) (rdv m h.pointer h.type + member h.type h.step * mod)) :
    ∃ m', operator F m (some h) mod = .ok (m', 0) ∧ rdv m' h.pointer h.type =
      stepped (lo m h) (hi m h) (rdv m h.pointer h.type) (member h.type h.step) mod := by
  refine ⟨_, operator_eq F m h mod ht ho, ?_⟩
  rw [rdv_wrv]
  simp only [wrap_of_range _ _ hs, stepped]
  have e1 := wrap_of_range _ _ (lo_range m h)
  have e2 := wrap_of_range _ _ (hi_range m h)
  split_ifs with c1 c2 c3
  · exact wrap_of_range _ _ hs
  · exact e1
  · exact e2
  · have : mod = 0 := by omega
    subst this
    rw [Int.mul_zero, Int.add_zero] at hs ⊢
    exact wrap_of_range _ _ hs

/-- **C36**, where it fails: if the exact sum is no value of the type (and `int` does not overflow) but what remains of
it in the type is within the limits, the parameter gets that remainder, not the limit. -/
theorem C36_wrong (F : Fl) (m : Mem) (h : Handle) (mod : Int) (ht : h.type.isInt = true)
    (ho : NoOverflow h.type (rdv m h.pointer h.type) (member h.type h.step) mod)
    (hs : ¬ InRange h.type.signed (8 * h.type.size) (rdv m h.pointer h.type + member h.type h.step * mod))
    (hl : lo m h < h.type.wrap (rdv m h.pointer h.type + member h.type h.step * mod))
    (hh : h.type.wrap (rdv m h.pointer h.type + member h.type h.step * mod) < hi m h) :
    ∃ m', operator F m (some h) mod = .ok (m', 0) ∧
      rdv m' h.pointer h.type = h.type.wrap (rdv m h.pointer h.type + member h.type h.step * mod) ∧
      rdv m' h.pointer h.type ≠ stepped (lo m h) (hi m h) (rdv m h.pointer h.type) (member h.type h.step) mod := by
  refine ⟨_, operator_eq F m h mod ht ho, ?_⟩
  rw [rdv_wrv]
  simp only
  rw [if_pos ⟨by omega, by omega⟩, wrap_of_range _ _ (wrap_range _ _)]
  refine ⟨rfl, ?_⟩
  rw [stepped, if_neg]
  · have hne : mod ≠ 0 := by
      rintro rfl
      rw [Int.mul_zero, Int.add_zero] at hs
      exact hs (rdv_range _ _ _)
    split_ifs <;> omega
  · rintro ⟨a, b⟩
    apply hs
    have h1 := lo_range m h
    have h2 := hi_range m h
    revert h1 h2
    unfold InRange
    split <;> intro h1 h2 <;> omega

/-- **C36**, where it is undefined: `int32_t` and `int64_t` parameters whose exact sum is no value of the type. -/
theorem C36_undefined (F : Fl) (m : Mem) (h : Handle) (mod : Int) (ht : h.type = .i32 ∨ h.type = .i64)
    (hs : ¬ InRange true (8 * h.type.size) (rdv m h.pointer h.type + member h.type h.step * mod)) :
    operator F m (some h) mod = .ub := by
  have hi : h.type.isInt = true := by rcases ht with ht | ht <;> rw [ht] <;> rfl
  have : ¬ NoOverflow h.type (rdv m h.pointer h.type) (member h.type h.step) mod := by
    rcases ht with ht | ht <;> rw [ht] at hs ⊢ <;> exact fun hh => hs hh.2
  simp only [operator, applyOperator, newValue_ub F _ _ _ _ hi this, Res.ub_bind]

-- 250 + 10 with limits 2..255 becomes 4, not 2; 120 + 10 in int8_t with limits -128..127 becomes -126
example : valueAfter (operator F0 (mem 250) (some (hnd .u8 2 255 10)) 1) .u8 = .ok 4 ∧
    stepped 2 255 250 10 1 = 2 ∧
    valueAfter (operator F0 (mem 120) (some (hnd .i8 0x80 127 10)) 1) .i8 = .ok (-126) := by decide

/-! ## C37 and C38 -/

/-- The value `x` of a parameter's type is outside the limits. -/
def outside (F : Fl) (m : Mem) (h : Handle) (x : Int) : Bool := gt F h.type x (hi m h) || lt F h.type x (lo m h)

/-- For integer types this is what one expects. -/
theorem outside_int (F : Fl) (m : Mem) (h : Handle) (x : Int) (ht : h.type.isInt = true) :
    outside F m h x = true ↔ x < lo m h ∨ hi m h < x := by
  simp only [outside, gt, lt, ht, if_true, Bool.or_eq_true, decide_eq_true_iff]; omega

theorem checkRange_eq (F : Fl) (m : Mem) (h : Handle) :
    checkRange F m h ≠ 0 ↔ outside F m h (rdv m h.pointer h.type) = true := by
  rw [checkRange, outside, Bool.or_eq_true]
  split_ifs with h1 h2
  · simp [h1]
  · simp [h2]
  · simp [h1, h2]

/-- The variables of two handles have no byte in common. -/
def Separate (a b : Handle) : Prop := Apart a.pointer a.type.size b.pointer b.type.size

/-- The dynamic limits of `h` have no byte in common with the variable of `k`. -/
def LimitsApart (h k : Handle) : Prop :=
  ∀ a, h.pmin = some a ∨ h.pmax = some a → Apart k.pointer k.type.size a h.type.size

theorem lo_frame (m m' : Mem) (h k : Handle) (hl : LimitsApart h k)
    (hf : ∀ b, b < k.pointer ∨ k.pointer + k.type.size ≤ b → m' b = m b) : lo m' h = lo m h := by
  rw [lo, lo]
  cases hp : h.pmin with
  | none => rfl
  | some a =>
    exact rdv_congr _ _ _ _ fun b h1 h2 => hf b (by rcases hl a (Or.inl hp) with hh | hh <;> omega)

theorem hi_frame (m m' : Mem) (h k : Handle) (hl : LimitsApart h k)
    (hf : ∀ b, b < k.pointer ∨ k.pointer + k.type.size ≤ b → m' b = m b) : hi m' h = hi m h := by
  rw [hi, hi]
  cases hp : h.pmax with
  | none => rfl
  | some a =>
    exact rdv_congr _ _ _ _ fun b h1 h2 => hf b (by rcases hl a (Or.inr hp) with hh | hh <;> omega)

/-- The byte `b` is in no variable of the handles. -/
def Elsewhere (hs : List Handle) (b : Nat) : Prop := ∀ h ∈ hs, b < h.pointer ∨ h.pointer + h.type.size ≤ b

theorem setDefault_value (m : Mem) (h : Handle) :
    rdv (setDefault m h) h.pointer h.type = member h.type h.defaultv := by
  rw [setDefault, rdv_wrv, wrap_of_range _ _ (member_range _ _)]

theorem setDefault_frame (m : Mem) (h : Handle) (b : Nat) (hb : b < h.pointer ∨ h.pointer + h.type.size ≤ b) :
    setDefault m h b = m b := wrv_frame _ _ _ _ _ hb

theorem each_check (F : Fl) (hs : List Handle) : ∀ (m : Mem) (c : Int), hs.Pairwise Separate →
    (∀ h ∈ hs, ∀ k ∈ hs, LimitsApart h k) → 0 ≤ c → c + hs.length < 2 ^ 31 →
    ∃ m', each (checkBody F) hs (m, c) =
        .ok (m', c + hs.countP (fun h => outside F m h (rdv m h.pointer h.type))) ∧
      (∀ h ∈ hs, rdv m' h.pointer h.type = if outside F m h (rdv m h.pointer h.type) then member h.type h.defaultv
        else rdv m h.pointer h.type) ∧
      (∀ b, Elsewhere hs b → m' b = m b) := by
  induction hs with
  | nil => intro m c _ _ _ _; exact ⟨m, by simp [each], by simp, fun _ _ => rfl⟩
  | cons h hs ih =>
    intro m c hp hl h0 h1
    obtain ⟨hp1, hp2⟩ := List.pairwise_cons.1 hp
    simp only [List.length_cons] at h1
    -- the memory after the first handle
    have hb : ∃ m1 c1, checkBody F h (m, c) = .ok (m1, c1) ∧
        (c1 = if outside F m h (rdv m h.pointer h.type) then c + 1 else c) ∧
        rdv m1 h.pointer h.type = (if outside F m h (rdv m h.pointer h.type) then member h.type h.defaultv
          else rdv m h.pointer h.type) ∧
        (∀ b, b < h.pointer ∨ h.pointer + h.type.size ≤ b → m1 b = m b) := by
      have hc := checkRange_eq F m h
      cases ho : outside F m h (rdv m h.pointer h.type) with
      | true =>
        refine ⟨setDefault m h, c + 1, ?_, by simp, by simpa using setDefault_value m h, setDefault_frame m h⟩
        rw [checkBody, if_pos (hc.2 ho), chkS, if_pos (by omega)]; rfl
      | false =>
        refine ⟨m, c, ?_, by simp, by simp, fun _ _ => rfl⟩
        rw [checkBody, if_neg (fun hh => by rw [hc.1 hh] at ho; cases ho)]; rfl
    obtain ⟨m1, c1, e1, hc1, hv1, hf1⟩ := hb
    obtain ⟨m', e2, hv, hf⟩ := ih m1 c1 hp2 (fun a ha b hb => hl a (by simp [ha]) b (by simp [hb]))
      (by rw [hc1]; split_ifs <;> omega) (by rw [hc1]; push_cast at h1 ⊢; split_ifs <;> omega)
    have same : ∀ k ∈ hs, rdv m1 k.pointer k.type = rdv m k.pointer k.type ∧ lo m1 k = lo m k ∧ hi m1 k = hi m k := by
      intro k hk
      refine ⟨rdv_congr _ _ _ _ fun b b1 b2 => hf1 b (by
          rcases hp1 k hk with hh | hh <;> omega), ?_, ?_⟩
      · exact lo_frame m m1 k h (hl k (by simp [hk]) h (by simp)) hf1
      · exact hi_frame m m1 k h (hl k (by simp [hk]) h (by simp)) hf1
    have souts : ∀ k ∈ hs, ∀ x, outside F m1 k x = outside F m k x := by
      intro k hk x
      rw [outside, outside, (same k hk).2.1, (same k hk).2.2]
    refine ⟨m', ?_, ?_, ?_⟩
    · rw [each, e1, Res.ok_bind, e2, List.countP_cons]
      congr 2
      have : hs.countP (fun h => outside F m1 h (rdv m1 h.pointer h.type)) =
          hs.countP (fun h => outside F m h (rdv m h.pointer h.type)) := by
        apply List.countP_congr
        intro k hk
        rw [souts k hk, (same k hk).1]
      rw [this, hc1]
      split_ifs <;> push_cast <;> ring
    · intro k hk
      rcases List.mem_cons.1 hk with rfl | hk
      · rw [← hv1]
        exact rdv_congr _ _ _ _ fun b b1 b2 => hf b fun j hj => by
          rcases hp1 j hj with hh | hh <;> omega
      · rw [hv k hk, souts k hk, (same k hk).1]
    · intro b hb
      rw [hf b (fun j hj => hb j (by simp [hj])), hf1 b (hb h (by simp))]

theorem each_reset (hs : List Handle) : ∀ (m : Mem) (c : Int), hs.Pairwise Separate →
    ∃ m', each resetBody hs (m, c) = .ok (m', c) ∧ (∀ h ∈ hs, rdv m' h.pointer h.type = member h.type h.defaultv) ∧
      (∀ b, Elsewhere hs b → m' b = m b) := by
  induction hs with
  | nil => intro m c _; exact ⟨m, rfl, by simp, fun _ _ => rfl⟩
  | cons h hs ih =>
    intro m c hp
    obtain ⟨hp1, hp2⟩ := List.pairwise_cons.1 hp
    obtain ⟨m', e2, hv, hf⟩ := ih (setDefault m h) c hp2
    refine ⟨m', ?_, ?_, ?_⟩
    · rw [each, resetBody, Res.ok_bind, e2]
    · intro k hk
      rcases List.mem_cons.1 hk with rfl | hk
      · rw [← setDefault_value m k]
        exact rdv_congr _ _ _ _ fun b b1 b2 => hf b fun j hj => by
          rcases hp1 j hj with hh | hh <;> omega
      · exact hv k hk
    · intro b hb
      rw [hf b (fun j hj => hb j (by simp [hj])), setDefault_frame m h b (hb h (by simp))]

/-- **C37.** `parameter_check_ranges` for handles with separate variables whose dynamic limits are stored elsewhere (the
handles as their own `runtime` callbacks leave them): it returns the number of parameters outside their limits, sets
exactly those to their default and changes no other byte. If the defaults are within the limits and the callbacks do not
change a handle a second time, a second call returns 0 and changes nothing. -/
theorem C37_repair (env : Env) (g : Nat → Handle → Handle) (hl : Local env g) (F : Fl) (ps : List Handle) (m : Mem)
    (hp : (ps.map (upd g)).Pairwise Separate) (ha : ∀ h ∈ ps.map (upd g), ∀ k ∈ ps.map (upd g), LimitsApart h k)
    (hlen : ps.length < 2 ^ 31) :
    ∃ ps' m', checkRanges env F (ps, m) =
        .ok ((ps', m'), (ps.map (upd g)).countP (fun h => outside F m h (rdv m h.pointer h.type))) ∧
      (∀ h ∈ ps.map (upd g), rdv m' h.pointer h.type =
        if outside F m h (rdv m h.pointer h.type) then member h.type h.defaultv else rdv m h.pointer h.type) ∧
      (∀ b, Elsewhere (ps.map (upd g)) b → m' b = m b) ∧
      ((∀ h ∈ ps.map (upd g), outside F m h (member h.type h.defaultv) = false) →
        (∀ h ∈ ps, upd g (upd g h) = upd g h) → checkRanges env F (ps', m') = .ok ((ps', m'), 0)) := by
  obtain ⟨ps', e, l, p⟩ := eachLoop_eq hl (checkBody F) ps.length 0 ps m 0 (by omega)
  obtain ⟨m', e', hv, hf⟩ := each_check F (ps.map (upd g)) m 0 hp ha (Int.le_refl _) (by simp; omega)
  rw [List.drop_zero, e', Res.ok_bind] at e
  refine ⟨ps', m', ?_, hv, hf, ?_⟩
  · rw [checkRanges, e]; simp
  · intro hd hid
    -- the second call works on the same handles
    have hid' : ∀ h ∈ ps, ∀ n, updN g (n + 1) h = upd g h := by
      intro h hh n
      induction n with
      | zero => rfl
      | succ n ih =>
        rw [updN, Function.iterate_succ', Function.comp]
        rw [updN] at ih
        rw [ih, hid h hh]
    have hps : ps' = ps.map (upd g) := by
      apply List.ext_getElem?
      intro j
      by_cases hj : j < ps.length
      · rw [p j hj, if_pos (Nat.zero_le _), List.getElem?_map, List.getElem?_eq_getElem hj]
        show some (updN g (ps.length - j) ps[j]) = some (upd g ps[j])
        rw [show ps.length - j = (ps.length - j - 1) + 1 by omega, hid' _ (List.getElem_mem _)]
      · rw [List.getElem?_eq_none (by omega), List.getElem?_eq_none (by simp; omega)]
    have hmap : ps'.map (upd g) = ps' := by
      rw [hps, List.map_map]
      exact List.map_congr_left fun h hh => hid h hh
    -- nothing is outside any more
    have hlim : ∀ h ∈ ps.map (upd g), ∀ x, outside F m' h x = outside F m h x := by
      intro h hh x
      have e1 : lo m' h = lo m h := by
        rw [lo, lo]
        cases hq : h.pmin with
        | none => rfl
        | some a =>
          refine rdv_congr _ _ _ _ fun b h1 h2 => hf b fun k hk => ?_
          rcases ha h hh k hk a (Or.inl hq) with hh | hh <;> omega
      have e2 : hi m' h = hi m h := by
        rw [hi, hi]
        cases hq : h.pmax with
        | none => rfl
        | some a =>
          refine rdv_congr _ _ _ _ fun b h1 h2 => hf b fun k hk => ?_
          rcases ha h hh k hk a (Or.inr hq) with hh | hh <;> omega
      rw [outside, outside, e1, e2]
    have hno : ∀ h ∈ ps', outside F m' h (rdv m' h.pointer h.type) = false := by
      intro h hh
      rw [hps] at hh
      rw [hlim h hh, hv h hh]
      split_ifs with ho
      · exact hd h hh
      · simpa using ho
    have hnop : ∀ (hs : List Handle), (∀ h ∈ hs, outside F m' h (rdv m' h.pointer h.type) = false) →
        each (checkBody F) hs (m', 0) = .ok (m', 0) := by
      intro hs
      induction hs with
      | nil => intro _; rfl
      | cons h hs ih =>
        intro hh
        rw [each, checkBody, if_neg]
        · rw [Res.pure_eq, Res.ok_bind]; exact ih fun k hk => hh k (by simp [hk])
        · rw [checkRange_eq, hh h (by simp)]; simp
    obtain ⟨ps'', e2, l2, p2⟩ := eachLoop_eq hl (checkBody F) ps'.length 0 ps' m' 0 (by omega)
    rw [List.drop_zero, hmap, hnop ps' hno, Res.ok_bind] at e2
    have : ps'' = ps' := by
      apply List.ext_getElem?
      intro j
      by_cases hj : j < ps'.length
      · rw [p2 j hj, if_pos (Nat.zero_le _), List.getElem?_eq_getElem hj]
        show some (updN g (ps'.length - j) ps'[j]) = some ps'[j]
        have hm : upd g ps'[j] = ps'[j] := by
          have : (ps'.map (upd g))[j]? = ps'[j]? := by rw [hmap]
          rw [List.getElem?_map, List.getElem?_eq_getElem hj] at this
          exact Option.some.inj this
        have : ∀ n, updN g n ps'[j] = ps'[j] := by
          intro n
          induction n with
          | zero => rfl
          | succ n ih => rw [updN, Function.iterate_succ', Function.comp]; rw [updN] at ih; rw [ih, hm]
        rw [this]
      · rw [List.getElem?_eq_none (by omega), List.getElem?_eq_none (by omega)]
    rw [checkRanges, e2, this]; rfl

/-- A table without callbacks for the examples. -/
def noCalls : Env := fun _ _ s => s
def tableOf (l1 l2 : BitVec 32) : List Handle :=
  [{ hnd .u8 2 10 1 with level := l1 }, { hnd .i16 0xFFFE 10 1 with pointer := 300, level := l2 }]

example : (do let ((_, m), c) ← checkRanges noCalls F0 (tableOf 1 2, mem 99)
              pure (c, rdv m 100 .u8, rdv m 300 .i16)) = .ok (2, 7, 7) ∧
    (do let ((_, m), c) ← checkRanges noCalls F0 (tableOf 1 2, mem 9)
        pure (c, rdv m 100 .u8, rdv m 300 .i16)) = .ok (1, 9, 7) := by decide

/-- **C38.** `parameter_reset_to_defaults` sets every parameter of the list to its default, whatever its access level,
and changes no other byte; the list itself is left alone if it has no callbacks. -/
theorem C38_defaults (env : Env) (g : Nat → Handle → Handle) (hl : Local env g) (ps : List Handle) (m : Mem)
    (hp : (ps.map (upd g)).Pairwise Separate) :
    ∃ ps' m', resetToDefaults env (ps, m) = .ok (ps', m') ∧
      (∀ h ∈ ps.map (upd g), rdv m' h.pointer h.type = member h.type h.defaultv) ∧
      (∀ b, Elsewhere (ps.map (upd g)) b → m' b = m b) ∧
      ((∀ h ∈ ps, h.runtime = none) → ps' = ps) := by
  obtain ⟨ps', e, l, p⟩ := eachLoop_eq hl resetBody ps.length 0 ps m 0 (by omega)
  obtain ⟨m', e', hv, hf⟩ := each_reset (ps.map (upd g)) m 0 hp
  rw [List.drop_zero, e', Res.ok_bind] at e
  refine ⟨ps', m', ?_, hv, hf, ?_⟩
  · rw [resetToDefaults, e]; rfl
  · intro hn
    apply List.ext_getElem?
    intro j
    by_cases hj : j < ps.length
    · rw [p j hj, List.getElem?_eq_getElem hj]
      have hm : upd g ps[j] = ps[j] := by rw [upd, hn _ (List.getElem_mem _)]
      have : ∀ n, updN g n ps[j] = ps[j] := by
        intro n
        induction n with
        | zero => rfl
        | succ n ih => rw [updN, Function.iterate_succ', Function.comp]; rw [updN] at ih; rw [ih, hm]
      simp [this]
    · rw [List.getElem?_eq_none (by omega), List.getElem?_eq_none (by omega)]

example : (do let (_, m) ← resetToDefaults noCalls (tableOf 0 8, mem 99)
              pure (rdv m 100 .u8, rdv m 300 .i16, m 302)) = .ok (7, 7, 0xEE) := by decide

/-! ## C39 -/

/-- Accessible at the levels `al`. -/
def accessible (al : BitVec 32) (h : Handle) : Bool := h.level &&& al ≠ 0

theorem pos_iff (x : BitVec 32) : x > 0 ↔ x ≠ 0 := by
  rw [gt_iff_lt, BitVec.lt_def]
  have : x.toNat ≠ 0 ↔ x ≠ 0 := by
    constructor
    · rintro h rfl; exact h rfl
    · intro h h'; exact h (BitVec.eq_of_toNat_eq (by simpa using h'))
  rw [← this]
  exact Nat.pos_iff_ne_zero

theorem pos_iff' (x : BitVec 32) : 0#32 < x ↔ ¬ x = 0#32 := pos_iff x

theorem open_iff (al : BitVec 32) (h : Handle) : open' al h = (decide (h.level = 0) || accessible al h) := by
  rw [open', accessible, Bool.eq_iff_iff]
  simp [pos_iff']

/-- What the two functions do, exactly: lookup also finds the handles without a level, counting leaves them out. -/
theorem C39_exact (env : Env) (g : Nat → Handle → Handle) (hl : Local env g) (ps : List Handle) (m : Mem)
    (al : BitVec 32) :
    (∃ ps', getCount env (ps, m) al = .ok ((ps', m), (ps.map (upd g)).countP (accessible al))) ∧
    (∀ num, num < ps.length → ∃ ps' r, getHandle env (ps, m) num al = .ok ((ps', m), r) ∧
      (∀ k, r = some k → (∃ h, (ps.map (upd g))[k]? = some h ∧ (h.level = 0 ∨ accessible al h = true)) ∧
        ((ps.map (upd g)).take k).countP (fun h => decide (h.level = 0) || accessible al h) = num) ∧
      (r = none → (ps.map (upd g)).countP (fun h => decide (h.level = 0) || accessible al h) ≤ num)) ∧
    (∀ num, ps.length ≤ num → getHandle env (ps, m) num al = .abort) := by
  have ho : open' al = fun h => decide (h.level = 0) || accessible al h := funext fun h => open_iff al h
  refine ⟨?_, ?_, ?_⟩
  · obtain ⟨ps', e, _⟩ := countLoop_eq hl al ps.length 0 0 ps m (by omega)
    refine ⟨ps', ?_⟩
    rw [getCount, e, List.drop_zero, Nat.zero_add]
    congr 2
    apply List.countP_congr
    intro h _
    simp [accessible, pos_iff']
  · intro num hn
    obtain ⟨ps', r, e, _, _, q, w⟩ := getLoop_eq hl al ps.length 0 num ps m (by omega)
    refine ⟨ps', r, ?_, ?_, ?_⟩
    · rw [getHandle, cassert, if_pos (by simpa using hn)]; exact e
    · intro k hk
      obtain ⟨_, _, ⟨h, q1, q2⟩, q3⟩ := q k hk
      refine ⟨⟨upd g h, by rw [List.getElem?_map, q1]; rfl, ?_⟩, ?_⟩
      · rw [open_iff] at q2; simpa using q2
      · rw [← ho, ← List.map_take]; simpa using q3
    · intro hr; rw [← ho]; simpa using w hr
  · intro num hn
    rw [getHandle, cassert, if_neg (by simpa using hn)]; rfl

/-- **C39** (partial). If every handle has a level, counting and lookup agree: `parameter_get_count` is the number of
accessible ones, lookup number `num` (less than the length of the list, otherwise the assertion fails) is the accessible
one with `num` accessible ones before it, or NULL if `num` is not less than the count. Missing: handles with level 0
(`C39_wrong`). -/
theorem C39_partial (env : Env) (g : Nat → Handle → Handle) (hl : Local env g) (ps : List Handle) (m : Mem)
    (al : BitVec 32) (h0 : ∀ h ∈ ps.map (upd g), h.level ≠ 0) :
    (∃ ps', getCount env (ps, m) al = .ok ((ps', m), (ps.map (upd g)).countP (accessible al))) ∧
    (∀ num, num < ps.length → ∃ ps' r, getHandle env (ps, m) num al = .ok ((ps', m), r) ∧
      (∀ k, r = some k → (∃ h, (ps.map (upd g))[k]? = some h ∧ accessible al h = true) ∧
        ((ps.map (upd g)).take k).countP (accessible al) = num) ∧
      (r = none ↔ (ps.map (upd g)).countP (accessible al) ≤ num)) := by
  obtain ⟨h1, h2, _⟩ := C39_exact env g hl ps m al
  refine ⟨h1, fun num hn => ?_⟩
  obtain ⟨ps', r, e, q, w⟩ := h2 num hn
  have hc : ∀ l : List Handle, (∀ h ∈ l, h ∈ ps.map (upd g)) →
      l.countP (fun h => decide (h.level = 0) || accessible al h) = l.countP (accessible al) := by
    intro l hl
    apply List.countP_congr
    intro h hh
    rw [decide_eq_false (h0 h (hl h hh)), Bool.false_or]
  have q' : ∀ k, r = some k → (∃ h, (ps.map (upd g))[k]? = some h ∧ accessible al h = true) ∧
        ((ps.map (upd g)).take k).countP (accessible al) = num := by
    intro k hk
    obtain ⟨⟨h, q1, q2⟩, q3⟩ := q k hk
    refine ⟨⟨h, q1, ?_⟩, ?_⟩
    · rcases q2 with q2 | q2
      · exact absurd q2 (h0 h (List.mem_of_getElem? q1))
      · exact q2
    · rw [← hc _ (fun h hh => List.mem_of_mem_take hh)]; exact q3
  refine ⟨ps', r, e, q', ?_⟩
  constructor
  · intro hr; rw [← hc _ (fun h hh => hh)]; exact w hr
  · intro hle
    cases r with
    | none => rfl
    | some k =>
      exfalso
      obtain ⟨⟨h, q1, q2⟩, q3⟩ := q' k rfl
      obtain ⟨hk, hk2⟩ := List.getElem?_eq_some_iff.1 q1
      have : (ps.map (upd g)).countP (accessible al) =
          ((ps.map (upd g)).take k).countP (accessible al) + ((ps.map (upd g)).drop k).countP (accessible al) := by
        rw [← List.countP_append, List.take_append_drop]
      rw [List.drop_eq_getElem_cons hk, List.countP_cons, hk2, q2, q3, if_pos rfl] at this
      omega

/-- **C39**, where it fails: if some handle has level 0, the lookup whose number is the count still finds a handle. -/
theorem C39_wrong (env : Env) (g : Nat → Handle → Handle) (hl : Local env g) (ps : List Handle) (m : Mem)
    (al : BitVec 32) (h : Handle) (hh : h ∈ ps.map (upd g)) (h0 : h.level = 0) :
    ∃ ps1 ps2 c k, getCount env (ps, m) al = .ok ((ps1, m), c) ∧ getHandle env (ps, m) c al = .ok ((ps2, m), some k) := by
  obtain ⟨⟨ps1, h1⟩, h2, _⟩ := C39_exact env g hl ps m al
  have hacc : accessible al h = false := by simp [accessible, h0]
  have hlt : ∀ l : List Handle, h ∈ l → l.countP (accessible al) <
      l.countP (fun h => decide (h.level = 0) || accessible al h) := by
    intro l
    induction l with
    | nil => simp
    | cons a l ih =>
      intro ha
      have hle : l.countP (accessible al) ≤ l.countP (fun h => decide (h.level = 0) || accessible al h) :=
        List.countP_mono_left fun x _ hx => by simp [hx]
      rw [List.countP_cons, List.countP_cons]
      rcases List.mem_cons.1 ha with rfl | ha
      · rw [hacc, decide_eq_true h0, Bool.true_or, if_pos rfl, if_neg (by simp)]; omega
      · have := ih ha
        cases hx : accessible al a
        · rw [if_neg (by simp)]; split_ifs <;> omega
        · rw [Bool.or_true, if_pos rfl]; omega
  have hc := hlt _ hh
  have hle : (ps.map (upd g)).countP (fun h => decide (h.level = 0) || accessible al h) ≤ ps.length := by
    have := List.countP_le_length (p := fun h => decide (h.level = 0) || accessible al h) (l := ps.map (upd g))
    simpa using this
  obtain ⟨ps2, r, e, _, w⟩ := h2 _ (Nat.lt_of_lt_of_le hc hle)
  cases r with
  | none => have := w rfl; omega
  | some k => exact ⟨ps1, ps2, _, k, h1, e⟩

example : (do let (_, c) ← getCount noCalls (tableOf 0 2, mem 0) 2
              pure c) = .ok 1 ∧
    (do let (_, r) ← getHandle noCalls (tableOf 0 2, mem 0) 1 2
        pure r) = .ok (some 1) ∧
    (do let (_, r) ← getHandle noCalls (tableOf 1 2, mem 0) 0 2
        pure r) = .ok (some 1) := by decide

/-! ## C40, C41 and C94 -/

theorem wrapS_id (w : Nat) (hw : 0 < w) (x : Int) (h : InRange true w x) : wrapS w x = x := by
  rw [wrapS, BitVec.toInt_ofInt]
  simp only [InRange, if_true] at h
  have h2 : (2 : Int) ^ w = 2 * 2 ^ (w - 1) := by rw [← pow_succ']; congr 1; omega
  exact Time.bmod_small x w (by rw [h2]; omega) (by rw [h2]; omega)

/-- **C40** (partial). `parameter_to_long` of an integer parameter whose value fits in `long` is that value. Missing:
negative `int8_t` values, for which it is false (`C40_wrong`). -/
theorem C40_partial (lw : Nat) (hw : 0 < lw) (m : Mem) (h : Handle) (ht : h.type.isInt = true)
    (hf : InRange true lw (rdv m h.pointer h.type)) (h8 : h.type = .i8 → 0 ≤ rdv m h.pointer .i8) :
    toLong lw m (some h) = rdv m h.pointer h.type := by
  have key : rdv m h.pointer .i8 < 0 ∨ rdv m h.pointer .u8 = rdv m h.pointer .i8 := by
    simp only [rdv, Ty.wrap, Ty.signed, Ty.size, wrapS, wrapU, BitVec.toInt_ofInt, Int.bmod, if_true,
      Bool.false_eq_true, if_false]
    split_ifs <;> omega
  cases hty : h.type <;> rw [hty] at ht hf <;> first | cases ht | skip
  all_goals simp only [toLong, hty]
  case i8 =>
    rcases key with key | key
    · have := h8 hty; omega
    · rw [key]; exact wrapS_id lw hw _ hf
  all_goals exact wrapS_id lw hw _ hf

/-- **C40**, where it fails: every negative `int8_t` parameter is reported 256 too large. -/
theorem C40_wrong (lw : Nat) (hw : 9 ≤ lw) (m : Mem) (h : Handle) (ht : h.type = .i8)
    (hn : rdv m h.pointer .i8 < 0) : toLong lw m (some h) = rdv m h.pointer h.type + 256 := by
  have key : rdv m h.pointer .i8 < 0 → rdv m h.pointer .u8 = rdv m h.pointer .i8 + 256 := by
    simp only [rdv, Ty.wrap, Ty.signed, Ty.size, wrapS, wrapU, BitVec.toInt_ofInt, Int.bmod, if_true,
      Bool.false_eq_true, if_false]
    split_ifs <;> omega
  have hr := rdv_range m h.pointer .u8
  simp only [toLong, ht]
  rw [← key hn]
  apply wrapS_id lw (by omega)
  simp only [InRange, Ty.signed, Ty.size, Bool.false_eq_true, if_false, if_true] at hr ⊢
  have : (2 : Int) ^ 8 ≤ 2 ^ (lw - 1) := pow_le_pow_right₀ (by norm_num) (by omega)
  omega

example : toLong 64 (mem 0xFE) (some (hnd .i8 0 0 0)) = 254 ∧ toLong 64 (mem 0xFE) (some (hnd .u8 0 0 0)) = 254 ∧
    toLong 32 (mem 0x7E) (some (hnd .i8 0 0 0)) = 126 := by decide

/-- The largest number of values that the arithmetic of `GET_RANGE` can give, plus one. -/
def rangeBound : Ty → Int
  | .u8 | .i8 | .u16 | .i16 | .i32 => 2 ^ 31
  | .u32 => 2 ^ 32
  | .u64 => 2 ^ 64
  | .i64 => 2 ^ 63
  | .flt | .dbl => 0

/-- **C41** (partial). `parameter_get_total_values` of an integer parameter with `min ≤ max` is `max - min + 1` if that
fits in `size_t` and in the type of the arithmetic (which it always does for 8 and 16 bit types). Missing: larger 32 and
64 bit ranges (`C41_wrong`). -/
theorem C41_partial (F : Fl) (sz : Nat) (m : Mem) (h : Handle) (ht : h.type.isInt = true) (hle : lo m h ≤ hi m h)
    (hs : hi m h - lo m h + 1 < 2 ^ sz) (hb : hi m h - lo m h + 1 < rangeBound h.type) :
    getTotalValues F sz m (some h) = .ok (hi m h - lo m h + 1) := by
  have hz : wrapU sz (hi m h - lo m h + 1) = hi m h - lo m h + 1 := Int.emod_eq_of_lt (by omega) hs
  simp only [getTotalValues]
  generalize hx : lo m h = x at *
  generalize hy : hi m h = y at *
  cases hty : h.type <;> rw [hty] at ht hb <;> first | cases ht | skip
  all_goals simp only [rangeBound] at hb
  case u32 =>
    simp only [getRange, Res.pure_eq]
    rw [show wrapU 32 (wrapU 32 (y - x) + 1) = y - x + 1 by simp only [wrapU]; omega, hz]
  case u64 =>
    simp only [getRange, Res.pure_eq]
    rw [show wrapU 64 (wrapU 64 (y - x) + 1) = y - x + 1 by simp only [wrapU]; omega, hz]
  all_goals
    simp only [getRange, chkS]
    rw [if_pos (by omega), Res.ok_bind, if_pos (by omega), Res.ok_bind, hz]; rfl

/-- The 8 and 16 bit types are never affected. -/
theorem C41_small (m : Mem) (h : Handle) (ht : h.type.size ≤ 2) : hi m h - lo m h + 1 < rangeBound h.type := by
  have h1 := lo_range m h
  have h2 := hi_range m h
  generalize lo m h = x at *
  generalize hi m h = y at *
  cases hty : h.type <;> rw [hty] at h1 h2 ht <;>
    simp only [Ty.size, Ty.signed, InRange, rangeBound, if_true, Bool.false_eq_true, if_false] at * <;> omega

/-- **C41**, where it fails although the number fits in a 64-bit `size_t`: the full range of `uint32_t` gives 0, ranges
of `int32_t` (`int64_t`) with 2^31 (2^63) or more values are undefined. -/
theorem C41_wrong (F : Fl) (m : Mem) (h : Handle) (hle : lo m h ≤ hi m h) (hb : rangeBound h.type ≤ hi m h - lo m h + 1) :
    (h.type = .u32 → getTotalValues F 64 m (some h) = .ok 0 ∧ hi m h - lo m h + 1 = 2 ^ 32) ∧
    (h.type = .i32 ∨ h.type = .i64 → getTotalValues F 64 m (some h) = .ub ∧ hi m h - lo m h + 1 ≤ 2 ^ 64) := by
  have h1 := lo_range m h
  have h2 := hi_range m h
  simp only [getTotalValues]
  generalize lo m h = x at *
  generalize hi m h = y at *
  constructor
  · intro ht
    simp only [ht, rangeBound, Ty.size, Ty.signed, InRange, if_true, Bool.false_eq_true, if_false] at *
    have : y - x + 1 = 2 ^ 32 := by omega
    refine ⟨?_, this⟩
    simp only [getRange, Res.pure_eq, wrapU]
    congr 1
    omega
  · rintro (ht | ht)
    · simp only [ht, rangeBound, Ty.size, Ty.signed, InRange, if_true, Bool.false_eq_true, if_false] at *
      refine ⟨?_, by omega⟩
      simp only [getRange, chkS]
      split_ifs with c1
      · rw [Res.ok_bind, if_neg (by omega)]; rfl
      · rfl
    · simp only [ht, rangeBound, Ty.size, Ty.signed, InRange, if_true, Bool.false_eq_true, if_false] at *
      refine ⟨?_, by omega⟩
      simp only [getRange, chkS]
      split_ifs with c1
      · rw [Res.ok_bind, if_neg (by omega)]; rfl
      · rfl

example : getTotalValues F0 64 (mem 0) (some (hnd .i8 0x80 127 1)) = .ok 256 ∧
    getTotalValues F0 64 (mem 0) (some (hnd .u32 0 0xFFFFFFFF 1)) = .ok 0 ∧
    getTotalValues F0 64 (mem 0) (some (hnd .i32 0x80000000 0 1)) = .ub := by decide

/-- **C94** (partial). `parameter_to_bool` of an integer parameter is true exactly if its value is not zero, if the type
is no wider than `size_t`. Missing: 64-bit parameters with a 32-bit `size_t` (`C94_wrong`). -/
theorem C94_bool_partial (sz : Nat) (m : Mem) (h : Handle) (ht : h.type.isInt = true) (hs : 8 * h.type.size ≤ sz) :
    toBool sz m (some h) = true ↔ rdv m h.pointer h.type ≠ 0 := by
  have key : rdv m h.pointer .u8 = 0 ↔ rdv m h.pointer .i8 = 0 := by
    simp only [rdv, Ty.wrap, Ty.signed, Ty.size, wrapS, wrapU, BitVec.toInt_ofInt, Int.bmod, if_true,
      Bool.false_eq_true, if_false]
    split_ifs <;> omega
  have hp : (2 : Int) ^ (8 * h.type.size) ≤ 2 ^ sz := pow_le_pow_right₀ (by norm_num) hs
  have gen : ∀ x : Int, -(2 : Int) ^ sz < x → x < 2 ^ sz → (wrapU sz x > 0 ↔ x ≠ 0) := by
    intro x h1 h2
    rw [wrapU]
    have h3 := Int.emod_nonneg x (show (2 : Int) ^ sz ≠ 0 by omega)
    have h4 : x % 2 ^ sz = 0 ↔ x = 0 := by
      constructor
      · intro h
        obtain ⟨k, hk⟩ := Int.dvd_of_emod_eq_zero h
        rcases Int.lt_trichotomy k 0 with hk0 | hk0 | hk0
        · nlinarith
        · rw [hk, hk0]; simp
        · nlinarith
      · rintro rfl; simp
    omega
  have hr := rdv_range m h.pointer h.type
  have hr8 := rdv_range m h.pointer .u8
  rw [toBool, decide_eq_true_iff]
  cases hty : h.type <;> rw [hty] at ht hr hp <;> first | cases ht | skip
  case i8 =>
    simp only [toIndex, hty, Ty.size, Ty.signed, InRange, if_true, Bool.false_eq_true, if_false] at *
    rw [gen _ (by omega) (by omega), ne_eq, ne_eq, key]
  all_goals
    simp only [toIndex, hty, Ty.size, Ty.signed, InRange, if_true, Bool.false_eq_true, if_false] at *
    exact gen _ (by omega) (by omega)

/-- **C94**, where it fails: multiples of 2^32 with a 32-bit `size_t`. -/
theorem C94_bool_wrong (m : Mem) (h : Handle) (ht : h.type = .u64 ∨ h.type = .i64)
    (hz : rdv m h.pointer h.type % 2 ^ 32 = 0) : toBool 32 m (some h) = false := by
  rw [toBool, decide_eq_false_iff_not]
  rcases ht with ht | ht <;> rw [ht] at hz <;> simp only [toIndex, ht, wrapU, hz] <;> decide

/-- **C94.** For every `size_t` of at least 8 bits: true exactly if the value is no multiple of 2^sz. -/
theorem C94_bool_exact (sz : Nat) (m : Mem) (h : Handle) (ht : h.type.isInt = true) (hs : 8 ≤ sz) :
    toBool sz m (some h) = true ↔ ¬ (2 : Int) ^ sz ∣ rdv m h.pointer h.type := by
  have hp : (2 : Int) ^ 8 ≤ 2 ^ sz := pow_le_pow_right₀ (by norm_num) hs
  have gen : ∀ x : Int, wrapU sz x > 0 ↔ ¬ (2 : Int) ^ sz ∣ x := by
    intro x
    rw [wrapU, Int.dvd_iff_emod_eq_zero]
    have := Int.emod_nonneg x (show (2 : Int) ^ sz ≠ 0 by omega)
    omega
  have hdvd : (2 : Int) ^ 8 ∣ 2 ^ sz := pow_dvd_pow _ hs
  have key : (2 : Int) ^ sz ∣ rdv m h.pointer .u8 ↔ (2 : Int) ^ sz ∣ rdv m h.pointer .i8 := by
    have h1 := rdv_range m h.pointer .u8
    have h2 := rdv_range m h.pointer .i8
    have h3 : rdv m h.pointer .u8 = 0 ↔ rdv m h.pointer .i8 = 0 := by
      simp only [rdv, Ty.wrap, Ty.signed, Ty.size, wrapS, wrapU, BitVec.toInt_ofInt, Int.bmod, if_true,
        Bool.false_eq_true, if_false]
      split_ifs <;> omega
    simp only [Ty.size, Ty.signed, InRange, if_true, Bool.false_eq_true, if_false] at h1 h2
    constructor
    · intro hd
      have : rdv m h.pointer .u8 = 0 := by
        have := hdvd.trans hd
        omega
      rw [h3.1 this]; exact dvd_zero _
    · intro hd
      have : rdv m h.pointer .i8 = 0 := by
        have := hdvd.trans hd
        omega
      rw [h3.2 this]; exact dvd_zero _
  rw [toBool, decide_eq_true_iff]
  cases hty : h.type <;> rw [hty] at ht <;> first | cases ht | skip
  case i8 => simp only [toIndex, hty]; rw [gen, key]
  all_goals simp only [toIndex, hty]; exact gen _

example : toBool 64 (mem 0xFE) (some (hnd .i8 0 0 0)) = true ∧
    toBool 32 (fun a => if a = 104 then 1 else 0) (some (hnd .u64 0 0 0)) = false ∧
    toBool 64 (fun a => if a = 104 then 1 else 0) (some (hnd .u64 0 0 0)) = true := by decide

/-! ## C42 -/

theorem copyBytes_rdv (m : Mem) (d s : Nat) (t : Ty) (h : Apart d t.size s t.size) :
    ∃ m', copyBytes m d s t.size = .ok m' ∧ rdv m' d t = rdv m s t ∧ rdv m' s t = rdv m s t ∧
      (∀ b, b < d ∨ d + t.size ≤ b → m' b = m b) := by
  refine ⟨_, by rw [copyBytes, if_pos (by rcases h with h | h <;> omega)], ?_, ?_, ?_⟩
  · rw [rdv, rdv]
    congr 2
    have : ∀ n k, k + n ≤ t.size → load (fun b => if d ≤ b ∧ b < d + t.size then m (s + (b - d)) else m b) (d + k) n =
        load m (s + k) n := by
      intro n
      induction n with
      | zero => intro k _; rfl
      | succ n ih =>
        intro k hk
        rw [load, load, show d + k + 1 = d + (k + 1) by omega, ih (k + 1) (by omega),
          if_pos (by omega), show s + (d + k - d) = s + k by omega]
        rfl
    exact this t.size 0 (by omega)
  · refine rdv_congr _ _ _ _ fun b h1 h2 => ?_
    rw [if_neg]
    rcases h with h | h <;> omega
  · intro b hb
    rw [if_neg (by omega)]

/-- **C42.** Copies between separate variables: the destination gets the value, no other byte changes, different types
(and NULL) are refused, and later steps of one do not change the other. -/
theorem C42_copies (F : Fl) (m : Mem) (s : Handle) :
    (∀ d : Handle, d.type = s.type → Separate d s → ∃ m', copyValue m (some d) (some s) = .ok (m', 0) ∧
      rdv m' d.pointer d.type = rdv m s.pointer s.type ∧ rdv m' s.pointer s.type = rdv m s.pointer s.type ∧
      (∀ b, b < d.pointer ∨ d.pointer + d.type.size ≤ b → m' b = m b)) ∧
    (∀ d : Handle, d.type ≠ s.type → copyValue m (some d) (some s) = .ok (m, -1)) ∧
    (∀ x, copyValue m none x = .ok (m, -1) ∧ copyValue m x none = .ok (m, -1)) ∧
    (∀ p, Apart p s.type.size s.pointer s.type.size →
      (∃ m', clone m true (some s) (some p) = (m', some { s with pointer := p }) ∧
        rdv m' p s.type = rdv m s.pointer s.type ∧ (∀ b, b < p ∨ p + s.type.size ≤ b → m' b = m b)) ∧
      (∃ m', cloneWithBuffer m s p = .ok (m', { s with pointer := p }) ∧
        rdv m' p s.type = rdv m s.pointer s.type ∧ (∀ b, b < p ∨ p + s.type.size ≤ b → m' b = m b)) ∧
      (∀ m1 m2 mod r, s.type.isInt = true →
        (operator F m1 (some { s with pointer := p }) mod = .ok (m2, r) →
          rdv m2 s.pointer s.type = rdv m1 s.pointer s.type) ∧
        (operator F m1 (some s) mod = .ok (m2, r) → rdv m2 p s.type = rdv m1 p s.type))) := by
  have hlen : ∀ t : Ty, copyLen t = t.size := by intro t; cases t <;> rfl
  have hcopy : ∀ d : Handle, d.type = s.type → Separate d s → ∃ m', copyValue m (some d) (some s) = .ok (m', 0) ∧
      rdv m' d.pointer d.type = rdv m s.pointer s.type ∧ rdv m' s.pointer s.type = rdv m s.pointer s.type ∧
      (∀ b, b < d.pointer ∨ d.pointer + d.type.size ≤ b → m' b = m b) := by
    intro d ht ha
    rw [Separate, ht] at ha
    obtain ⟨m', e, h1, h2, h3⟩ := copyBytes_rdv m d.pointer s.pointer s.type ha
    refine ⟨m', ?_, by rw [ht]; exact h1, h2, by rw [ht]; exact h3⟩
    simp only [copyValue, if_pos ht.symm, hlen s.type, e, Res.ok_bind, Res.pure_eq]
  have hop : ∀ (h : Handle) (m1 m2 : Mem) (mod r : Int), h.type.isInt = true → operator F m1 (some h) mod = .ok (m2, r) →
      ∀ b, b < h.pointer ∨ h.pointer + h.type.size ≤ b → m2 b = m1 b := by
    intro h m1 m2 mod r ht hr b hb
    by_cases ho : NoOverflow h.type (rdv m1 h.pointer h.type) (member h.type h.step) mod
    · rw [operator_eq F m1 h mod ht ho] at hr
      injection hr with hr
      injection hr with h1 h2
      rw [← h1]; exact wrv_frame _ _ _ _ _ hb
    · simp only [operator, applyOperator, newValue_ub F _ _ _ _ ht ho, Res.ub_bind] at hr
      cases hr
  refine ⟨hcopy, ?_, ?_, ?_⟩
  · intro d ht
    simp only [copyValue]
    rw [if_neg (fun h => ht h.symm)]; rfl
  · intro x
    cases x <;> exact ⟨rfl, rfl⟩
  · intro p hp
    refine ⟨⟨_, rfl, ?_, ?_⟩, ?_, ?_⟩
    · rw [rdv_wrv, wrap_of_range _ _ (rdv_range _ _ _)]
    · intro b hb; exact wrv_frame _ _ _ _ _ hb
    · obtain ⟨m', e, h1, _, h3⟩ := hcopy { s with pointer := p } rfl hp
      exact ⟨m', by rw [cloneWithBuffer]; simp only [e, Res.ok_bind, Res.pure_eq], h1, h3⟩
    · intro m1 m2 mod r ht
      constructor
      · intro hr
        exact rdv_congr _ _ _ _ fun b h1 h2 => hop { s with pointer := p } m1 m2 mod r ht hr b (by
          show b < p ∨ p + s.type.size ≤ b
          rcases hp with hp | hp <;> omega)
      · intro hr
        exact rdv_congr _ _ _ _ fun b h1 h2 => hop s m1 m2 mod r ht hr b (by rcases hp with hp | hp <;> omega)

example : (do let (m, _) ← cloneWithBuffer (mem 42) (hnd .u16 0 0 0) 200
              pure (rdv m 200 .u16, rdv m 100 .u16, m 202)) = .ok (0xEE2A, 0xEE2A, 0xEE) := by decide

/-! ## C93 -/

/-- **C93** (partial). The macros `PARAMETER`, `PARAMETER_STEP`, `PARAMETER_DLIMITS` and `PARAMETER_FULL` store limits,
default and step unchanged for types of up to 32 bits, and for 64-bit types if they are between 0 and 2^32 - 1. Missing:
other values for 64-bit types (`C93_macro_wrong`). -/
theorem C93_macro_partial (t : Ty) (ht : t.isInt = true) (x : Int) (hx : InRange t.signed (8 * t.size) x)
    (h64 : t.size = 8 → 0 ≤ x ∧ x < 2 ^ 32) : limitValue t x = x := by
  cases t <;> first | cases ht | skip
  case u64 => have := h64 rfl; simp only [limitValue, cast64, wrapU]; omega
  case i64 =>
    have := h64 rfl
    simp only [limitValue, cast64, wrapS, wrapU, BitVec.toInt_ofInt, Int.bmod]
    split_ifs <;> omega
  all_goals
    simp only [limitValue, cast16, cast32, cast64, Ty.signed, Ty.size, InRange, wrapS, wrapU, BitVec.toInt_ofInt,
      Int.bmod, if_true, Bool.false_eq_true, if_false] at *
    (try split_ifs) <;> omega

/-- **C93**, where it fails: every other value of a 64-bit type loses its upper half. -/
theorem C93_macro_wrong (t : Ty) (ht : t = .u64 ∨ t = .i64) (x : Int) (hx : x < 0 ∨ 2 ^ 32 ≤ x) :
    limitValue t x = x % 2 ^ 32 ∧ limitValue t x ≠ x := by
  rcases ht with rfl | rfl <;>
    simp only [limitValue, cast64, wrapS, wrapU, BitVec.toInt_ofInt, Int.bmod] <;>
    (try split_ifs) <;> omega

-- a minimum of -1 becomes 4294967295, and 2^32 becomes 0
example : limitValue .i64 (-1) = 4294967295 ∧ limitValue .u64 (2 ^ 32) = 0 ∧ limitValue .i32 (-1) = -1 ∧
    limitValue .i8 (-128) = -128 := by decide

end Gel.Param
