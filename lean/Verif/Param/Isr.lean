import Verif.Param.Props

/-!
# Parameter: interrupt handlers (C208)

`parameter_operator` as a sequence of accesses to the variables, with a handler before each of them that runs to its end. A value is
loaded and stored in one step; the handle itself is not changed.
-/
namespace Gel.Param
open Spec

/-- `APPLY_OPERATOR`, parameter.c:44-57: the limits, parameter.c:47-48, the variable, :49, the limits again, parameter.c:19-20, and the store. -/
def applyOperatorI (F : Fl) (H : Nat → Mem → Mem) (m : Mem) (h : Handle) (mod : Int) : Res Mem := do
  let m := H 0 m
  let min := lo m h
  let m := H 1 m
  let max := hi m h
  let m := H 2 m
  let newv ← newValue F h.type (rdv m h.pointer h.type) (member h.type h.step) mod
  let m := H 3 m
  let min' := lo m h
  let m := H 4 m
  let max' := hi m h
  let res := if gt F h.type newv max' then 1 else if lt F h.type newv min' then -1 else (0 : Int)
  let m := H 5 m
  if res ≠ 0 ∧ mod > 0 then pure (wrv m h.pointer h.type min)
  else if res ≠ 0 ∧ mod < 0 then pure (wrv m h.pointer h.type max)
  else pure (wrv m h.pointer h.type newv)

/-- A handler at point `t` only. -/
def onceAt (t : Nat) (f : Mem → Mem) : Nat → Mem → Mem := fun u m => if u = t then f m else m

/-- **C208.** Without handlers this is the operator of the first model. -/
theorem C208_quiet (F : Fl) (m : Mem) (h : Handle) (mod : Int) : applyOperatorI F (fun _ m => m) m h mod = applyOperator F m h mod := rfl

/-- The state after point `u`. -/
theorem onceAt_succ {t : Nat} {f : Mem → Mem} {m m' : Mem} (hf : f m = m') (u : Nat) :
    onceAt t f (u + 1) (if t ≤ u then m' else m) = if t ≤ u + 1 then m' else m := by
  rw [onceAt]
  by_cases h : u + 1 = t
  · subst h; simp [hf]
  · rw [if_neg h]
    by_cases h' : t ≤ u
    · rw [if_pos h', if_pos (by omega)]
    · rw [if_neg h', if_neg (by omega)]

theorem onceAt_zero {t : Nat} {f : Mem → Mem} {m m' : Mem} (hf : f m = m') : onceAt t f 0 m = if t ≤ 0 then m' else m := by
  rw [onceAt]
  by_cases h : 0 = t
  · subst h; simp [hf]
  · rw [if_neg h, if_neg (by omega)]

/-- What the call does to the memory if the handler makes `m'` of `m` at point `t`. -/
theorem applyOperatorI_once (F : Fl) {m m' : Mem} {f : Mem → Mem} (hf : f m = m') (h : Handle) (mod : Int) (t : Nat) :
    applyOperatorI F (onceAt t f) m h mod = (do
      let newv ← newValue F h.type (rdv (if t ≤ 2 then m' else m) h.pointer h.type) (member h.type h.step) mod
      let bad := gt F h.type newv (hi (if t ≤ 4 then m' else m) h) || lt F h.type newv (lo (if t ≤ 3 then m' else m) h)
      pure (wrv (if t ≤ 5 then m' else m) h.pointer h.type
        (if bad ∧ mod > 0 then lo (if t ≤ 0 then m' else m) h else if bad ∧ mod < 0 then hi (if t ≤ 1 then m' else m) h else newv))) := by
  rw [applyOperatorI]
  simp only [onceAt_zero hf]
  rw [onceAt_succ hf 0, onceAt_succ hf (0 + 1), onceAt_succ hf (0 + 1 + 1), onceAt_succ hf (0 + 1 + 1 + 1), onceAt_succ hf (0 + 1 + 1 + 1 + 1)]
  simp only [Nat.zero_add, Nat.reduceAdd]
  congr 1
  funext newv
  cases hg : gt F h.type newv (hi (if t ≤ 4 then m' else m) h) <;> cases hl : lt F h.type newv (lo (if t ≤ 3 then m' else m) h) <;>
    by_cases h1 : mod > 0 <;> by_cases h2 : mod < 0 <;> simp [h1, h2]

/-- **C208** (partial). A handler that changes at most one of the limits, and anything else: the value stored is within the limits as they
were before the handler or as it left them. Missing: handlers that change both limits, for which it is false (`C208_both_wrong`). -/
theorem C208_partial (F : Fl) {m m' : Mem} {f : Mem → Mem} (hf : f m = m') {h : Handle} {mod : Int} (hm : mod ≠ 0) (ht : h.type.isInt = true) (t : Nat)
    (h1 : lo m h ≤ hi m h) (h2 : lo m' h ≤ hi m' h) (hone : lo m' h = lo m h ∨ hi m' h = hi m h) {m'' : Mem}
    (e : applyOperatorI F (onceAt t f) m h mod = .ok m'') :
    (lo m h ≤ rdv m'' h.pointer h.type ∧ rdv m'' h.pointer h.type ≤ hi m h) ∨
    (lo m' h ≤ rdv m'' h.pointer h.type ∧ rdv m'' h.pointer h.type ≤ hi m' h) := by
  rw [applyOperatorI_once F hf] at e
  cases hv : newValue F h.type (rdv (if t ≤ 2 then m' else m) h.pointer h.type) (member h.type h.step) mod with
  | ok newv =>
    have hr : h.type.wrap newv = newv := by
      have : newv = h.type.wrap (rdv (if t ≤ 2 then m' else m) h.pointer h.type + member h.type h.step * mod) := by
        by_cases hno : NoOverflow h.type (rdv (if t ≤ 2 then m' else m) h.pointer h.type) (member h.type h.step) mod
        · rw [newValue_ok F _ _ _ _ ht hno] at hv; cases hv; rfl
        · rw [newValue_ub F _ _ _ _ ht hno] at hv; cases hv
      rw [this, wrap_of_range _ _ (wrap_range _ _)]
    rw [hv] at e
    simp only [Res.ok_bind, Res.pure_eq, Res.ok.injEq] at e
    rw [← e, rdv_wrv]
    simp only [gt, lt, ht, if_true, Bool.or_eq_true, decide_eq_true_eq]
    have wl : ∀ m, h.type.wrap (lo m h) = lo m h := fun m => wrap_of_range _ _ (lo_range m h)
    have wh : ∀ m, h.type.wrap (hi m h) = hi m h := fun m => wrap_of_range _ _ (hi_range m h)
    by_cases hb : newv > hi (if t ≤ 4 then m' else m) h ∨ newv < lo (if t ≤ 3 then m' else m) h
    · by_cases hp : mod > 0
      · rw [if_pos ⟨hb, hp⟩, wl]
        split_ifs
        · exact .inr ⟨le_refl _, h2⟩
        · exact .inl ⟨le_refl _, h1⟩
      · rw [if_neg (fun c => hp c.2), if_pos ⟨hb, by omega⟩, wh]
        split_ifs
        · exact .inr ⟨h2, le_refl _⟩
        · exact .inl ⟨h1, le_refl _⟩
    · rw [if_neg (fun c => hb c.1), if_neg (fun c => hb c.1), hr]
      rw [not_or, not_lt, not_lt] at hb
      by_cases c3 : t ≤ 3
      · rw [if_pos c3, if_pos (show t ≤ 4 by omega)] at hb
        exact .inr ⟨hb.2, hb.1⟩
      · rw [if_neg c3] at hb
        by_cases c4 : t ≤ 4
        · rw [if_pos c4] at hb
          rcases hone with ho | ho
          · exact .inr ⟨by rw [ho]; exact hb.2, hb.1⟩
          · exact .inl ⟨hb.2, by rw [← ho]; exact hb.1⟩
        · rw [if_neg c4] at hb
          exact .inl ⟨hb.2, hb.1⟩
  | ub => rw [hv] at e; simp at e
  | abort => rw [hv] at e; cases e
  | diverge => rw [hv] at e; cases e

/-- **C208**, where it fails: the handler changes both limits between the loads of the check. A new value between the limits before and
those afterwards is stored although it is within neither. -/
theorem C208_both_wrong (F : Fl) {m m' : Mem} {f : Mem → Mem} (hf : f m = m') {h : Handle} {mod : Int} (ht : h.type.isInt = true) {v : Int}
    (hv : newValue F h.type (rdv m h.pointer h.type) (member h.type h.step) mod = .ok v) (h1 : hi m h < v) (h2 : v < lo m' h) (h3 : lo m' h ≤ hi m' h)
    (h4 : lo m h ≤ hi m h) : ∃ m'', applyOperatorI F (onceAt 4 f) m h mod = .ok m'' ∧ hi m h < rdv m'' h.pointer h.type ∧ rdv m'' h.pointer h.type < lo m' h := by
  have hr : h.type.wrap v = v := by
    have : v = h.type.wrap (rdv m h.pointer h.type + member h.type h.step * mod) := by
      by_cases hno : NoOverflow h.type (rdv m h.pointer h.type) (member h.type h.step) mod
      · rw [newValue_ok F _ _ _ _ ht hno] at hv; cases hv; rfl
      · rw [newValue_ub F _ _ _ _ ht hno] at hv; cases hv
    rw [this, wrap_of_range _ _ (wrap_range _ _)]
  rw [applyOperatorI_once F hf]
  have n2 : ¬ 4 ≤ 2 := by decide
  have n3 : ¬ 4 ≤ 3 := by decide
  simp only [if_neg n2, hv, Res.ok_bind, if_neg n3, le_refl, if_true, gt, lt, ht, Res.pure_eq, Bool.or_eq_true, decide_eq_true_eq]
  refine ⟨_, rfl, ?_⟩
  rw [rdv_wrv, if_neg (by rintro ⟨c | c, -⟩ <;> omega), if_neg (by rintro ⟨c | c, -⟩ <;> omega), hr]
  exact ⟨h1, h2⟩

/-- **C208**, why the variable is not to be changed: what a handler stores to the variable after it was loaded is lost. The call sets the
variable as if there were no handler (that leaves the limits as they are). -/
theorem C208_lost_wrong (F : Fl) {m m' : Mem} {f : Mem → Mem} (hf : f m = m') {h : Handle} {mod : Int} (hl : lo m' h = lo m h) (hh : hi m' h = hi m h)
    (t : Nat) (h3 : 3 ≤ t) (h5 : t ≤ 5) {mq : Mem} (e : applyOperator F m h mod = .ok mq) :
    ∃ m'', applyOperatorI F (onceAt t f) m h mod = .ok m'' ∧ rdv m'' h.pointer h.type = rdv mq h.pointer h.type := by
  rw [← C208_quiet] at e
  have q := applyOperatorI_once F (m := m) (m' := m) (f := fun m => m) rfl h mod 0
  have : onceAt 0 (fun m : Mem => m) = fun _ m => m := by funext u m; rw [onceAt]; split_ifs <;> rfl
  rw [this, e] at q
  rw [applyOperatorI_once F hf]
  simp only [if_neg (show ¬ t ≤ 2 by omega), if_neg (show ¬ t ≤ 0 by omega), if_neg (show ¬ t ≤ 1 by omega), if_pos h5, ite_self] at q ⊢
  have el : lo (if t ≤ 3 then m' else m) h = lo m h := by split_ifs <;> simp [hl]
  have eh : hi (if t ≤ 4 then m' else m) h = hi m h := by split_ifs <;> simp [hh]
  rw [el, eh]
  cases hv : newValue F h.type (rdv m h.pointer h.type) (member h.type h.step) mod with
  | ok v =>
    rw [hv] at q
    simp only [Res.ok_bind, Res.pure_eq, Res.ok.injEq] at q ⊢
    exact ⟨_, rfl, by rw [q, rdv_wrv, rdv_wrv]⟩
  | ub => rw [hv] at q; simp at q
  | abort => rw [hv] at q; cases q
  | diverge => rw [hv] at q; cases q

/-! ## Example: a byte at 0 with its limits at 1 and 2, in steps of 1 -/

def exP : Handle := ⟨.u8, 0, some 1, some 2, 0, 0, 0, 1, 0, 0, none, 0⟩
def exM (v a b : Nat) : Mem := fun i => if i = 0 then BitVec.ofNat 8 v else if i = 1 then BitVec.ofNat 8 a else if i = 2 then BitVec.ofNat 8 b else 0
def seenI (t : Nat) (f : Mem → Mem) (v a b : Nat) (mod : Int) : Res (Int × Int × Int) :=
  (applyOperatorI ⟨fun _ _ _ => false, fun _ _ _ => false, fun _ _ _ _ => 0, fun _ _ _ => .ub⟩ (onceAt t f) (exM v a b) exP mod).bind
    fun m => .ok (rdv m 0 .u8, rdv m 1 .u8, rdv m 2 .u8)

example : seenI 4 (fun _ => exM 10 20 30) 10 0 10 1 = .ok (11, 20, 30) := by decide
example : seenI 4 (fun _ => exM 10 0 5) 10 0 10 (-1) = .ok (10, 0, 5) := by decide
example : seenI 3 (fun _ => exM 7 0 10) 3 0 10 1 = .ok (4, 0, 10) := by decide

end Gel.Param
