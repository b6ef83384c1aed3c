import Verif.Pages.Props

/-!
# Page manager: the views returned

What an update callback returns is a parameter: any function of the page and of the number of callback places passed before,
so that it may differ from call to call. `none` is `PMAN_VIEW_NULL`.
-/
namespace Gel.Pages
open Spec

variable {δ ξ ν : Type}

/-! ## Model -/

/-- `return page->update(...)` or `return PMAN_VIEW_NULL`, e.g. page_manager.c:59-67, for the update that is the last entry of
the trace. -/
def returned (c : Conf δ) (vw : Page δ ξ → Nat → ν) (m : Pm δ ξ) (q : Page δ ξ) : Option ν :=
  if c.upd && q.tmpl.update then some (vw q (m.trace.length - 1)) else none

/-- The calls with what they return; `pman_process_page_event` returns no view. -/
def stepView (c : Conf δ) (vw : Page δ ξ → Nat → ν) (m : Pm δ ξ) : Op ξ → Res (Pm δ ξ × Option ν)
  -- page_manager.c:193-203
  | .change t e => do
    let m' ← change c m t e
    let q ← current m'
    pure (m', returned c vw m' q)
  -- page_manager.c:59-67
  | .swap t e => do
    let m' ← swap c m t e
    let q ← current m'
    pure (m', returned c vw m' q)
  -- page_manager.c:144-152
  | .rebase t e => do
    let m' ← rebase c m t e
    let q ← current m'
    pure (m', returned c vw m' q)
  -- page_manager.c:229-236
  | .back => do
    let m' ← back c m
    match m.stack with
    | [] => pure (m', none)
    | _ :: _ => do
      let q ← current m'
      pure (m', returned c vw m' q)
  -- page_manager.c:100-108 and 114-115
  | .reset id => do
    let r ← reset c m id
    if r.2 then do
      let q ← current r.1
      pure (r.1, returned c vw r.1 q)
    else pure (r.1, none)
  -- page_manager.c:242-250
  | .update => do
    let m' ← update c m
    if c.upd then do
      let q ← current m'
      pure (m', returned c vw m' q)
    else pure (m', none)
  | .process => do
    let m' ← process c m
    pure (m', none)

/-- The states are those of `step`. -/
theorem stepView_step (c : Conf δ) (vw : Page δ ξ → Nat → ν) (m m' : Pm δ ξ) (o : Op ξ) (r : Option ν)
    (h : stepView c vw m o = .ok (m', r)) : step c m o = .ok m' := by
  cases o <;> simp only [stepView, step] at h ⊢
  case change t e =>
    cases hc : change c m t e <;> rw [hc] at h <;> simp at h ⊢
    next a => cases ha : current a <;> rw [ha] at h <;> simp at h; exact h.1
  case swap t e =>
    cases hc : swap c m t e <;> rw [hc] at h <;> simp at h ⊢
    next a => cases ha : current a <;> rw [ha] at h <;> simp at h; exact h.1
  case rebase t e =>
    cases hc : rebase c m t e <;> rw [hc] at h <;> simp at h ⊢
    next a => cases ha : current a <;> rw [ha] at h <;> simp at h; exact h.1
  case back =>
    cases hc : back c m <;> rw [hc] at h <;> simp at h ⊢
    next a =>
      cases hs : m.stack <;> rw [hs] at h <;> simp at h
      · exact h.1
      · cases ha : current a <;> rw [ha] at h <;> simp at h; exact h.1
  case reset id =>
    cases hc : reset c m id <;> rw [hc] at h <;> simp at h ⊢
    next a =>
      split at h
      · cases ha : current a.1 <;> rw [ha] at h <;> simp at h; exact h.1
      · simp at h; exact h.1
  case update =>
    cases hc : update c m <;> rw [hc] at h <;> simp at h ⊢
    next a =>
      split at h
      · cases ha : current a <;> rw [ha] at h <;> simp at h; exact h.1
      · simp at h; exact h.1
  case process =>
    cases hc : process c m <;> rw [hc] at h <;> simp at h ⊢
    exact h.1

/-! ## Specification -/

/-- The call shows the current page: it returns what the update callback of that page returned, called in the course of the
call and after all other callbacks, and the null view if there is no such callback, or if updates are not compiled in. -/
def Spec.Shows (c : Conf δ) (vw : Page δ ξ → Nat → ν) (m m' : Pm δ ξ) (r : Option ν) : Prop :=
  if c.upd then ∃ q, m'.cur = some q ∧
    if q.tmpl.has .update then
      ∃ evs, m'.trace = evs ++ [⟨.update, q⟩] ∧ m.trace.length ≤ evs.length ∧ r = some (vw q evs.length)
    else r = none
  else r = none

theorem shows_updates (c : Conf δ) (vw : Page δ ξ → Nat → ν) (m m' : Pm δ ξ) (q : Page δ ξ) (evs : List (Ev δ ξ))
    (hc : m'.cur = some q) (ht : m'.trace = m.trace ++ (evs ++ c.updates q)) :
    Shows c vw m m' (returned c vw m' q) := by
  cases hu : c.upd
  · simp [Shows, returned, hu]
  · rw [Conf.updates, if_pos hu] at ht
    rw [Shows, if_pos hu]
    refine ⟨q, hc, ?_⟩
    by_cases hq : q.tmpl.update = true
    · rw [if_pos (show q.tmpl.has .update = true from hq)]
      refine ⟨m.trace ++ evs, by rw [ht, List.append_assoc], by simp, ?_⟩
      rw [returned, hu, hq, ht]
      simp
    · rw [if_neg (show ¬ q.tmpl.has .update = true from hq)]
      simp [returned, hq]

/-- **C164.** Every navigation shows the page that is current afterwards, except back on the bottom page and a reset that
finds no page. -/
theorem C164_partial (c : Conf δ) (vw : Page δ ξ → Nat → ν) (m m' : Pm δ ξ) (o : Op ξ) (r : Option ν)
    (h : stepView c vw m o = .ok (m', r)) (hp : o ≠ .process) (hb : o = .back → m.stack ≠ [])
    (hf : ∀ id, o = .reset id → m'.init = true) : Shows c vw m m' r := by
  cases o <;> simp only [stepView] at h
  case change t e =>
    unfold change at h
    cases hi : m.init
    · simp only [hi, Bool.false_eq_true, if_false, current, Res.pure_eq, Res.ok_bind, Res.ok.injEq, Prod.mk.injEq] at h
      obtain ⟨rfl, rfl⟩ := h
      refine shows_updates c vw _ _ _ [⟨.create, c.install t e m.next⟩, ⟨.open, c.install t e m.next⟩] rfl ?_
      simp [Conf.show]
    · simp only [hi, if_true] at h
      cases hcur : current m <;> rw [hcur] at h <;> simp only [Res.ok_bind, Res.ub_bind, Res.abort_bind, Res.diverge_bind, reduceCtorEq] at h
      next p =>
        cases hs : pushAssert c m.stack p <;> rw [hs] at h <;>
          simp only [current, Res.pure_eq, Res.ok_bind, Res.ub_bind, Res.abort_bind, Res.diverge_bind, Res.ok.injEq, Prod.mk.injEq, reduceCtorEq] at h
        obtain ⟨rfl, rfl⟩ := h
        refine shows_updates c vw _ _ _ [⟨.close, p⟩, ⟨.create, c.install t e m.next⟩, ⟨.open, c.install t e m.next⟩] rfl ?_
        simp [Conf.show]
  case swap t e =>
    unfold swap at h
    cases hcur : current m <;> rw [hcur] at h <;>
      simp only [current, Res.pure_eq, Res.ok_bind, Res.ub_bind, Res.abort_bind, Res.diverge_bind, Res.ok.injEq, Prod.mk.injEq, reduceCtorEq] at h
    rename_i p
    obtain ⟨rfl, rfl⟩ := h
    refine shows_updates c vw _ _ _ (leave p ++ [⟨.create, c.install t e m.next⟩, ⟨.open, c.install t e m.next⟩]) rfl ?_
    simp [Conf.show]
  case rebase t e =>
    unfold rebase at h
    cases hcur : current m <;> rw [hcur] at h <;>
      simp only [current, Res.pure_eq, Res.ok_bind, Res.ub_bind, Res.abort_bind, Res.diverge_bind, Res.ok.injEq, Prod.mk.injEq, reduceCtorEq] at h
    rename_i p
    obtain ⟨rfl, rfl⟩ := h
    refine shows_updates c vw _ _ _ (leave p ++ (clearStack m.stack ++ [⟨.create, c.install t e m.next⟩, ⟨.open, c.install t e m.next⟩])) rfl ?_
    simp [Conf.show]
  case back =>
    unfold back at h
    have hs := hb rfl
    cases hst : m.stack with
    | nil => exact absurd hst hs
    | cons q rest =>
      rw [hst] at h
      cases ha : c.assert m.init <;> rw [ha] at h <;>
        simp only [Res.ok_bind, Res.ub_bind, Res.abort_bind, Res.diverge_bind, reduceCtorEq] at h
      cases hcur : current m <;> rw [hcur] at h <;>
        simp only [current, Res.pure_eq, Res.ok_bind, Res.ub_bind, Res.abort_bind, Res.diverge_bind, Res.ok.injEq, Prod.mk.injEq, reduceCtorEq] at h
      rename_i p
      obtain ⟨rfl, rfl⟩ := h
      exact shows_updates c vw _ _ _ (leave p ++ [⟨.open, q⟩]) rfl (by simp)
  case reset id =>
    have hf := hf id rfl
    unfold reset at h
    cases hcur : current m <;> rw [hcur] at h <;>
      simp only [Res.pure_eq, Res.ok_bind, Res.ub_bind, Res.abort_bind, Res.diverge_bind, reduceCtorEq] at h
    next p =>
      generalize hl : resetLoop id m.stack = l at h
      obtain ⟨evs, _ | ⟨q, rest⟩⟩ := l
      · simp only [resetEnd, Bool.false_eq_true, if_false, Res.ok.injEq, Prod.mk.injEq] at h
        rw [← h.1] at hf
        simp at hf
      · simp only [resetEnd, if_true, current, Res.ok_bind, Res.ok.injEq, Prod.mk.injEq] at h
        obtain ⟨rfl, rfl⟩ := h
        exact shows_updates c vw _ _ _ (leave p ++ (evs ++ [⟨.open, q⟩])) rfl (by simp)
  case update =>
    unfold update at h
    cases ha : c.assert m.init <;> rw [ha] at h <;>
      simp only [Res.ok_bind, Res.ub_bind, Res.abort_bind, Res.diverge_bind, reduceCtorEq] at h
    cases hu : c.upd
    · simp only [hu, Bool.false_eq_true, if_false, Res.pure_eq, Res.ok_bind, Res.ok.injEq, Prod.mk.injEq] at h
      rw [Shows, if_neg (by rw [hu]; decide)]
      exact h.2.symm
    · simp only [hu, if_true] at h
      cases hcur : m.cur with
      | none => simp [current, hcur] at h
      | some p =>
        simp only [current, hcur, Res.ok_bind, Res.pure_eq, Res.ok.injEq, Prod.mk.injEq] at h
        obtain ⟨rfl, rfl⟩ := h
        refine shows_updates c vw _ _ p [] rfl ?_
        simp [Conf.updates, hu]
  case process => exact absurd rfl hp

/-- **C164.** Back on the bottom page returns the null view, although the page stays shown and has an update callback, and
although an update returns a view. -/
theorem C164_back_wrong (c : Conf δ) (vw : Page δ ξ → Nat → ν) (m : Pm δ ξ) (p : Page δ ξ) (hi : m.init = true)
    (hs : m.stack = []) (hc : m.cur = some p) (hu : c.upd = true) (hp : p.tmpl.update = true) :
    stepView c vw m .back = .ok (m, none) ∧ ¬ Shows c vw m m none ∧
      ∃ m', stepView c vw m .update = .ok (m', some (vw p m.trace.length)) ∧ m'.cur = some p := by
  have ha : c.assert m.init = .ok () := by rw [hi, Conf.assert]; cases c.ndebug <;> rfl
  refine ⟨?_, ?_, ?_⟩
  · simp [stepView, back, ha, hs]
  · rw [Shows, if_pos hu]
    rintro ⟨q, hq, h⟩
    rw [hc] at hq
    injection hq with hq
    subst hq
    rw [if_pos (show p.tmpl.has .update from hp)] at h
    obtain ⟨_, _, _, h⟩ := h
    cases h
  · refine ⟨{ m with trace := m.trace ++ [⟨.update, p⟩] }, ?_, hc⟩
    simp [stepView, update, ha, hu, current, hc, returned, hp]

/-- **C164.** A reset that finds no page returns the null view, and there is no page. -/
theorem C164_not_found (c : Conf δ) (vw : Page δ ξ → Nat → ν) (m : Pm δ ξ) (p : Page δ ξ) (id : Int) (hc : m.cur = some p)
    (ha : ∀ r ∈ m.stack, r.tmpl.id ≠ id) : ∃ m', stepView c vw m (.reset id) = .ok (m', none) ∧ m'.init = false := by
  obtain ⟨m', h, hi, _⟩ := C72_not_found c m p id hc ha
  refine ⟨m', ?_, hi⟩
  simp [stepView, h]

/-- Page 1, then page 2, then twice back: the second time the null view. The view is the page's id and the time. -/
def views : Res (List (Option (Int × Nat))) :=
  let c : Conf Nat := ⟨4, true, false, 0, fun n => n⟩
  let vw := fun (p : Page Nat Unit) n => (p.tmpl.id, n)
  let t := fun id => (⟨id, true, true, true, true, true, true⟩ : Tmpl)
  do
    let (m, a) ← stepView c vw (init none) (.change (t 1) ())
    let (m, b) ← stepView c vw m (.change (t 2) ())
    let (m, d) ← stepView c vw m .back
    let (m, e) ← stepView c vw m .back
    let (_, f) ← stepView c vw m .update
    pure [a, b, d, e, f]
example : views = .ok [some (1, 2), some (2, 6), some (1, 10), none, some (1, 11)] := by decide +kernel

end Gel.Pages
