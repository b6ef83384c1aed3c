import Verif.Pages.Reent
import Mathlib.Tactic.SplitIfs

/-!
# Page manager: callbacks that navigate (C114)
-/
namespace Gel.Pages

variable {δ ξ : Type}

/-- The last callback of the navigation functions, and that of `pman_process_page_event`. -/
def Tail (c : Conf δ) (k : Kind) : Prop := k = .process ∨ if c.upd then k = .update else k = .open

/-- The callback is only recorded. -/
def record (k : Kind) (p : Page δ ξ) (m : Pm δ ξ) : Pm δ ξ := { m with trace := m.trace ++ [⟨k, p⟩] }

/-- The callback call of `execR` with `f` levels left. -/
def callOf (c : Conf δ) (b : Beh δ ξ) (f : Nat) : Call δ ξ := fun k p m =>
  if p.tmpl.has k then execR c b f (b.nav k p (m.trace ++ [⟨k, p⟩])) (record k p m) else .ok (record k p m)

theorem execR_nil (c : Conf δ) (b : Beh δ ξ) (f : Nat) (m : Pm δ ξ) : execR c b f [] m = .ok m := by
  cases f <;> rfl

theorem execR_cons (c : Conf δ) (b : Beh δ ξ) (f : Nat) (o : Op ξ) (os : List (Op ξ)) (m : Pm δ ξ) :
    execR c b (f + 1) (o :: os) m = (do let m ← opR (f + 1) (callOf c b f) c b m o; execR c b f os m) := rfl

/-- A callback that does not navigate. -/
theorem callOf_quiet {c : Conf δ} {b : Beh δ ξ} {f : Nat} {k : Kind} {p : Page δ ξ} {m : Pm δ ξ}
    (h : b.nav k p (m.trace ++ [⟨k, p⟩]) = []) : callOf c b f k p m = .ok (record k p m) := by
  unfold callOf
  split
  · rw [h, execR_nil]
  · rfl

/-- A callback called as the last thing. -/
theorem callOf_last {c : Conf δ} {b : Beh δ ξ} {f : Nat} {k : Kind} {p : Page δ ξ} {m m2 : Pm δ ξ}
    (h : callOf c b f k p m = .ok m2) :
    ∃ ops, execR c b f ops (record k p m) = .ok m2 ∧ (ops = [] ∨ p.tmpl.has k = true ∧ ops = b.nav k p (m.trace ++ [⟨k, p⟩])) := by
  unfold callOf at h
  split at h
  · rename_i hk
    exact ⟨_, h, Or.inr ⟨hk, rfl⟩⟩
  · cases h
    exact ⟨[], execR_nil .., Or.inl rfl⟩

/-- The statement for one call: first the call as without navigation in callbacks, then what the last callback does. -/
def After (c : Conf δ) (b : Beh δ ξ) (f : Nat) (m1 m2 : Pm δ ξ) : Prop :=
  ∃ ops, execR c b f ops m1 = .ok m2 ∧
    (ops = [] ∨ ∃ e, m1.trace.getLast? = some e ∧ e.page.tmpl.has e.kind = true ∧ ops = b.nav e.kind e.page m1.trace)

theorem After.refl (c : Conf δ) (b : Beh δ ξ) (f : Nat) (m : Pm δ ξ) : After c b f m m := ⟨[], execR_nil .., Or.inl rfl⟩

theorem callOf_after {c : Conf δ} {b : Beh δ ξ} {f : Nat} {k : Kind} {p : Page δ ξ} {m m2 : Pm δ ξ}
    (h : callOf c b f k p m = .ok m2) : After c b f (record k p m) m2 := by
  obtain ⟨ops, h1, h2⟩ := callOf_last h
  refine ⟨ops, h1, h2.imp_right fun ⟨h3, h4⟩ => ⟨⟨k, p⟩, ?_, h3, h4⟩⟩
  simp [record]

section
variable {c : Conf δ} {b : Beh δ ξ} (hq : ∀ k p tr, ¬ Tail c k → b.nav k p tr = [])
include hq

theorem nav_create (p : Page δ ξ) (tr : List (Ev δ ξ)) : b.nav .create p tr = [] := hq _ _ _ (by unfold Tail; split <;> simp)
theorem nav_close (p : Page δ ξ) (tr : List (Ev δ ξ)) : b.nav .close p tr = [] := hq _ _ _ (by unfold Tail; split <;> simp)
theorem nav_destroy (p : Page δ ξ) (tr : List (Ev δ ξ)) : b.nav .destroy p tr = [] := hq _ _ _ (by unfold Tail; split <;> simp)

theorem openR_after {f : Nat} {m m2 : Pm δ ξ} {p : Page δ ξ} (hp : m.cur = some p)
    (h : openR (callOf c b f) c m = .ok m2) :
    After c b f { m with trace := m.trace ++ [⟨.open, p⟩] ++ c.updates p } m2 := by
  have hc : current m = .ok p := by rw [current, hp]
  rw [openR, hc, Res.ok_bind] at h
  cases hu : c.upd with
  | true =>
    have hn : b.nav .open p (m.trace ++ [⟨.open, p⟩]) = [] := hq _ _ _ (by unfold Tail; simp [hu])
    rw [callOf_quiet hn, Res.ok_bind] at h
    have hc2 : current (record .open p m) = .ok p := by rw [current]; simp only [record, hp]
    rw [if_pos hu, hc2, Res.ok_bind] at h
    have := callOf_after h
    simpa [record, Conf.updates, hu] using this
  | false =>
    cases ho : callOf c b f .open p m with
    | ok m3 =>
      rw [ho, Res.ok_bind, if_neg (by simp [hu])] at h
      cases h
      have := callOf_after ho
      simpa [record, Conf.updates, hu] using this
    | ub => rw [ho] at h; cases h
    | abort => rw [ho] at h; cases h
    | diverge => rw [ho] at h; cases h

theorem showR_after {f : Nat} {m m2 : Pm δ ξ} {t : Tmpl} {e : ξ} (h : showR (callOf c b f) c b t e m = .ok m2) :
    After c b f { m with cur := some (c.install t e m.next), next := m.next + 1,
                         trace := m.trace ++ c.show (c.install t e m.next) } m2 := by
  rw [showR, createR, callOf_quiet (nav_create hq _ _)] at h
  simp only [Res.ok_bind, current, record, Res.pure_eq] at h
  have := openR_after hq (m := { m with cur := some (c.install t e m.next), next := m.next + 1,
                                        trace := m.trace ++ [⟨.create, c.install t e m.next⟩] }) rfl h
  simpa [Conf.show] using this

theorem leaveR_eq {f : Nat} {m : Pm δ ξ} :
    leaveR (callOf c b f) m = (do let p ← current m; pure { m with trace := m.trace ++ leave p }) := by
  rw [leaveR]
  cases hc : m.cur with
  | none => simp only [current, hc]; rfl
  | some p =>
    simp only [current, hc, Res.ok_bind, callOf_quiet (nav_close hq _ _), record, callOf_quiet (nav_destroy hq _ _), Res.pure_eq, leave]
    simp

theorem clearR_eq {f : Nat} : ∀ {g : Nat} {m m2 : Pm δ ξ}, clearR (callOf c b f) g m = .ok m2 →
    m2 = { m with stack := [], trace := m.trace ++ clearStack m.stack }
  | 0, m, m2, h => by cases h
  | g + 1, m, m2, h => by
    rw [clearR] at h
    cases hs : m.stack with
    | nil =>
      rw [hs] at h
      cases h
      obtain ⟨mi, mc, ms, mn, mt⟩ := m
      simp only at hs
      subst hs
      simp [clearStack]
    | cons p ps =>
      rw [hs] at h
      simp only [callOf_quiet (nav_destroy hq _ _), Res.ok_bind] at h
      rw [clearR_eq h]
      simp [record, clearStack]

theorem resetLoopR_after {f : Nat} {id : Int} {p0 : Page δ ξ} : ∀ {g : Nat} {m m1 m2 : Pm δ ξ} (pre : List (Ev δ ξ)), m.init = false →
    m.trace = m1.trace ++ leave p0 ++ pre → m.next = m1.next → m.cur = m1.cur →
    resetLoopR (callOf c b f) c id g m = .ok m2 →
    After c b f (resetEnd c m1 p0 (pre ++ (resetLoop id m.stack).1, (resetLoop id m.stack).2)).1 m2
  | 0, m, m1, m2, pre, hi, ht, hn, hc, h => by cases h
  | g + 1, m, m1, m2, pre, hi, ht, hn, hc, h => by
    rw [resetLoopR] at h
    cases hs : m.stack with
    | nil =>
      rw [hs] at h
      cases h
      have : (resetEnd c m1 p0 (pre ++ (resetLoop id ([] : List (Page δ ξ))).1, (resetLoop id []).2)).1 = m := by
        obtain ⟨mi, mc, ms, mn, mt⟩ := m
        simp only at hi ht hn hc hs
        subst hi ht hn hc hs
        simp [resetLoop, resetEnd]
      rw [this]
      exact After.refl ..
    | cons p ps =>
      rw [hs] at h
      simp only at h
      by_cases he : p.tmpl.id = id
      · rw [if_pos he] at h
        have := openR_after hq (m := { m with stack := ps, init := true, cur := some p }) rfl h
        simp only [resetLoop, if_pos he, resetEnd]
        rw [ht] at this
        rw [← hn]
        simpa using this
      · rw [if_neg he, callOf_quiet (nav_destroy hq _ _), Res.ok_bind] at h
        have := resetLoopR_after (g := g) (m1 := m1) (p0 := p0)
          (m := record .destroy p { m with stack := ps }) (pre ++ [⟨.destroy, p⟩]) hi (by simp [record, ht]) hn hc h
        simp only [record] at this
        simp only [resetLoop, if_neg he]
        simpa using this

/-- One call, if only the last callback navigates. -/
theorem opR_after {f g : Nat} {m m2 : Pm δ ξ} {o : Op ξ} (h : opR g (callOf c b f) c b m o = .ok m2) :
    ∃ m1, step c m o = .ok m1 ∧ After c b f m1 m2 := by
  cases o with
  | change t e =>
    simp only [opR] at h
    simp only [step, change]
    cases hi : m.init with
    | true =>
      rw [hi] at h
      simp only [if_true] at h ⊢
      cases hc : m.cur with
      | none => simp only [current, hc] at h; cases h
      | some p =>
        simp only [current, hc, Res.ok_bind, callOf_quiet (nav_close hq _ _), record] at h
        simp only [current, hc, Res.ok_bind]
        cases hst : pushAssert c m.stack p with
        | ok st =>
          rw [hst, Res.ok_bind] at h
          have := showR_after hq h
          refine ⟨_, rfl, ?_⟩
          simpa [hi] using this
        | ub => rw [hst] at h; cases h
        | abort => rw [hst] at h; cases h
        | diverge => rw [hst] at h; cases h
    | false =>
      rw [hi] at h
      simp only [Bool.false_eq_true, if_false] at h ⊢
      exact ⟨_, rfl, showR_after hq h⟩
  | swap t e =>
    simp only [opR, leaveR_eq hq] at h
    simp only [step, swap]
    cases hc : m.cur with
    | none => simp only [current, hc] at h; cases h
    | some p =>
      simp only [current, hc, Res.ok_bind, Res.pure_eq] at h ⊢
      exact ⟨_, rfl, showR_after hq h⟩
  | rebase t e =>
    simp only [opR, leaveR_eq hq] at h
    simp only [step, rebase]
    cases hc : m.cur with
    | none => simp only [current, hc] at h; cases h
    | some p =>
      simp only [current, hc, Res.ok_bind, Res.pure_eq] at h ⊢
      obtain ⟨m3, h3, h4⟩ := Res.bind_eq_ok.1 h
      have := clearR_eq hq h3
      subst this
      exact ⟨_, rfl, showR_after hq h4⟩
  | back =>
    simp only [opR] at h
    simp only [step, back]
    obtain ⟨u, h1, h2⟩ := Res.bind_eq_ok.1 h
    rw [h1, Res.ok_bind]
    cases hs : m.stack with
    | nil =>
      rw [hs] at h2
      cases h2
      exact ⟨_, rfl, After.refl ..⟩
    | cons q rest =>
      rw [hs] at h2
      simp only [leaveR_eq hq] at h2
      simp only
      cases hc : m.cur with
      | none => simp only [current, hc] at h2; cases h2
      | some p =>
        simp only [current, hc, Res.ok_bind, Res.pure_eq] at h2 ⊢
        exact ⟨_, rfl, openR_after hq rfl h2⟩
  | reset id =>
    simp only [opR, leaveR_eq hq] at h
    simp only [step, reset]
    cases hc : m.cur with
    | none => simp only [current, hc] at h; cases h
    | some p =>
      simp only [current, hc, Res.ok_bind, Res.pure_eq] at h ⊢
      refine ⟨_, rfl, ?_⟩
      have := resetLoopR_after hq (p0 := p) (m1 := m)
        (m := { m with init := false, cur := some p, trace := m.trace ++ leave p }) [] rfl (by simp) rfl (by simp [hc]) h
      simpa using this
  | update =>
    simp only [opR] at h
    simp only [step, update]
    obtain ⟨u, h1, h2⟩ := Res.bind_eq_ok.1 h
    rw [h1, Res.ok_bind]
    cases hu : c.upd with
    | true =>
      rw [hu] at h2
      simp only [if_true] at h2 ⊢
      cases hc : m.cur with
      | none => simp only [current, hc] at h2; cases h2
      | some p =>
        simp only [current, hc, Res.ok_bind, Res.pure_eq] at h2 ⊢
        exact ⟨_, rfl, by simpa [record, hc] using callOf_after h2⟩
    | false =>
      rw [hu] at h2
      simp only [Bool.false_eq_true, if_false] at h2 ⊢
      cases h2
      exact ⟨_, rfl, After.refl ..⟩
  | process =>
    simp only [opR] at h
    simp only [step, process]
    obtain ⟨u, h1, h2⟩ := Res.bind_eq_ok.1 h
    rw [h1, Res.ok_bind]
    cases hc : m.cur with
    | none => simp only [current, hc] at h2; cases h2
    | some p =>
      simp only [current, hc, Res.ok_bind] at h2 ⊢
      cases hp : p.tmpl.process with
      | true =>
        rw [hp] at h2
        simp only [if_true] at h2 ⊢
        exact ⟨_, rfl, by simpa [record, hc] using callOf_after h2⟩
      | false =>
        rw [hp] at h2
        cases h2

end

theorem run_append (c : Conf δ) (m : Pm δ ξ) (l l' : List (Op ξ)) : run c m (l ++ l') = (do let m ← run c m l; run c m l') := by
  induction l generalizing m with
  | nil => rfl
  | cons o l ih =>
    rw [List.cons_append, run, run]
    cases h : step c m o with
    | ok m1 => simp only [Res.ok_bind, ih]
    | ub => rfl
    | abort => rfl
    | diverge => rfl

/-! ## Callbacks that do not navigate (any more) -/

/-- From the time when more than `L` callbacks have been called, no callback navigates. -/
def Quiet (b : Beh δ ξ) (L : Nat) : Prop := ∀ k p tr, L < tr.length → b.nav k p tr = []

section
variable {c : Conf δ} {b : Beh δ ξ} {L : Nat} (hq : Quiet b L)
include hq

theorem Quiet.call {g : Nat} {k : Kind} {p : Page δ ξ} {m : Pm δ ξ} (h : L ≤ m.trace.length) :
    callOf c b g k p m = .ok (record k p m) :=
  callOf_quiet (hq _ _ _ (by simpa using Nat.lt_succ_of_le h))

theorem Quiet.openR {g : Nat} {m : Pm δ ξ} {p : Page δ ξ} (h : L ≤ m.trace.length) (hp : m.cur = some p) :
    openR (callOf c b g) c m = .ok { m with trace := m.trace ++ [⟨.open, p⟩] ++ c.updates p } := by
  simp only [Pages.openR, current, hp, Res.ok_bind, hq.call h, record]
  cases hu : c.upd with
  | true =>
    rw [if_pos rfl, hq.call (by simp only [List.length_append]; omega)]
    simp [record, Conf.updates, hu]
  | false => simp [Conf.updates, hu]

theorem Quiet.showR {g : Nat} {m : Pm δ ξ} {t : Tmpl} {e : ξ} (h : L ≤ m.trace.length) :
    showR (callOf c b g) c b t e m =
      .ok { m with cur := some (c.install t e m.next), next := m.next + 1,
                   trace := m.trace ++ c.show (c.install t e m.next) } := by
  rw [Pages.showR, createR, hq.call (by exact h)]
  simp only [Res.ok_bind, record, current, Res.pure_eq]
  rw [hq.openR (by simp only [List.length_append]; omega) rfl]
  simp [Conf.show, Conf.install]

theorem Quiet.leaveR {g : Nat} {m : Pm δ ξ} {p : Page δ ξ} (h : L ≤ m.trace.length) (hp : m.cur = some p) :
    leaveR (callOf c b g) m = .ok { m with trace := m.trace ++ leave p } := by
  simp only [Pages.leaveR, current, hp, Res.ok_bind, hq.call h, record]
  rw [hq.call (by simp only [List.length_append]; omega)]
  simp [record, leave]

theorem Quiet.clearR {g : Nat} : ∀ {f : Nat} {m : Pm δ ξ}, L ≤ m.trace.length → m.stack.length < f →
    clearR (callOf c b g) f m = .ok { m with stack := [], trace := m.trace ++ clearStack m.stack }
  | 0, m, _, h => by omega
  | f + 1, ⟨mi, mc, [], mn, mt⟩, _, h => by simp [Pages.clearR, clearStack]
  | f + 1, ⟨mi, mc, p :: ps, mn, mt⟩, hL, h => by
    simp only at hL
    simp only [Pages.clearR]
    rw [hq.call hL, Res.ok_bind, Quiet.clearR (by simp only [record, List.length_append]; omega) (by simpa [record] using h)]
    simp [record, clearStack]

theorem Quiet.resetLoopR {g : Nat} {id : Int} {p0 : Page δ ξ} {m1 : Pm δ ξ} : ∀ {f : Nat} {m : Pm δ ξ} (pre : List (Ev δ ξ)),
    L ≤ m.trace.length → m.stack.length < f → m.init = false → m.trace = m1.trace ++ leave p0 ++ pre → m.next = m1.next →
    m.cur = m1.cur → resetLoopR (callOf c b g) c id f m =
      .ok (resetEnd c m1 p0 (pre ++ (resetLoop id m.stack).1, (resetLoop id m.stack).2)).1
  | 0, m, _, _, h, _, _, _, _ => by omega
  | f + 1, ⟨mi, mc, [], mn, mt⟩, pre, hL, h, h1, h2, h3, h4 => by
    simp only at h1 h2 h3 h4
    subst h1 h2 h3 h4
    simp [Pages.resetLoopR, resetLoop, resetEnd]
  | f + 1, ⟨mi, mc, p :: ps, mn, mt⟩, pre, hL, h, h1, h2, h3, h4 => by
    simp only at h1 h2 h3 h4 hL
    subst h1 h2 h3 h4
    simp only [Pages.resetLoopR, resetLoop]
    by_cases he : p.tmpl.id = id
    · rw [if_pos he, if_pos he, hq.openR hL rfl]
      simp [resetEnd]
    · rw [if_neg he, if_neg he, hq.call hL, Res.ok_bind]
      rw [Quiet.resetLoopR (m := record .destroy p ⟨false, m1.cur, ps, m1.next, m1.trace ++ leave p0 ++ pre⟩) (m1 := m1) (p0 := p0)
        (pre ++ [⟨.destroy, p⟩]) (by simp only [record, List.length_append] at hL ⊢; omega)
        (by simpa [record] using h) rfl (by simp [record]) rfl rfl]
      simp [record]

end

theorem bind_nil (c : Conf δ) (b : Beh δ ξ) (f : Nat) (r : Res (Pm δ ξ)) : (do let m ← r; execR c b f [] m) = r := by
  cases r with
  | ok m => rw [Res.ok_bind, execR_nil]
  | ub => rfl
  | abort => rfl
  | diverge => rfl

/-- If no callback navigates any more, a call does what it does in the model of C68-C73, provided the number bounds the
stack. -/
theorem C114_quiet (c : Conf δ) (b : Beh δ ξ) (m : Pm δ ξ) (hq : Quiet b m.trace.length) (f : Nat)
    (hf : m.stack.length ≤ f) (o : Op ξ) : execR c b (f + 1) [o] m = step c m o := by
  rw [execR_cons, bind_nil]
  obtain ⟨mi, mc, ms, mn, mt⟩ := m
  simp only at hq hf
  have hL : mt.length ≤ mt.length := Nat.le_refl _
  have hL1 : ∀ l : List (Ev δ ξ), mt.length ≤ (mt ++ l).length := fun l => by simp
  cases o with
  | change t e =>
    simp only [opR, step, change]
    cases mi with
    | true =>
      simp only [if_true]
      cases mc with
      | none => rfl
      | some p =>
        simp only [current, Res.ok_bind]
        rw [hq.call hL]
        simp only [Res.ok_bind, record]
        cases pushAssert c ms p with
        | ok st => rw [Res.ok_bind, hq.showR (hL1 _)]; rfl
        | ub => rfl
        | abort => rfl
        | diverge => rfl
    | false =>
      simp only [Bool.false_eq_true, if_false]
      rw [hq.showR hL]
      rfl
  | swap t e =>
    simp only [opR, step, swap]
    cases mc with
    | none => rfl
    | some p => rw [hq.leaveR hL rfl, Res.ok_bind, hq.showR (hL1 _)]; rfl
  | rebase t e =>
    simp only [opR, step, rebase]
    cases mc with
    | none => rfl
    | some p =>
      rw [hq.leaveR hL rfl, Res.ok_bind, hq.clearR (hL1 _) (Nat.lt_succ_of_le hf), Res.ok_bind, hq.showR (by simp [Nat.add_assoc])]
      rfl
  | back =>
    simp only [opR, step, back]
    cases c.assert mi with
    | ok u =>
      cases ms with
      | nil => rfl
      | cons q ps =>
        simp only [Res.ok_bind]
        cases mc with
        | none => rfl
        | some p => rw [hq.leaveR hL rfl, Res.ok_bind, hq.openR (hL1 _) rfl]; rfl
    | ub => rfl
    | abort => rfl
    | diverge => rfl
  | reset id =>
    simp only [opR, step, reset]
    cases mc with
    | none => rfl
    | some p =>
      rw [hq.leaveR hL rfl, Res.ok_bind]
      rw [hq.resetLoopR (m := ⟨false, some p, ms, mn, mt ++ leave p⟩) (m1 := ⟨mi, some p, ms, mn, mt⟩) (p0 := p) []
        (hL1 _) (Nat.lt_succ_of_le hf) rfl (by simp) rfl rfl]
      rfl
  | update =>
    simp only [opR, step, update]
    cases c.assert mi with
    | ok u =>
      cases c.upd with
      | true =>
        cases mc with
        | none => rfl
        | some p => simp only [Res.ok_bind, if_true, current]; rw [hq.call hL]; rfl
      | false => rfl
    | ub => rfl
    | abort => rfl
    | diverge => rfl
  | process =>
    simp only [opR, step, process]
    cases c.assert mi with
    | ok u =>
      cases mc with
      | none => rfl
      | some p =>
        simp only [Res.ok_bind, current]
        cases p.tmpl.process with
        | true => rw [if_pos rfl, if_pos rfl, hq.call hL]; rfl
        | false => rfl
    | ub => rfl
    | abort => rfl
    | diverge => rfl

/-- If only the last callbacks of the functions navigate (`update`, or `open` in the configuration without `update`, and
`process_event`), a call does first what it does without navigation in callbacks, then what the last callback asks for. -/
theorem C114_after_partial (c : Conf δ) (b : Beh δ ξ) (hq : ∀ k p tr, ¬ Tail c k → b.nav k p tr = []) (f : Nat) (o : Op ξ)
    (m m2 : Pm δ ξ) (h : execR c b (f + 1) [o] m = .ok m2) :
    ∃ m1 ops, step c m o = .ok m1 ∧ execR c b f ops m1 = .ok m2 ∧
      (ops = [] ∨ ∃ e, m1.trace.getLast? = some e ∧ e.page.tmpl.has e.kind = true ∧ ops = b.nav e.kind e.page m1.trace) := by
  rw [execR_cons] at h
  obtain ⟨m3, h1, h2⟩ := Res.bind_eq_ok.1 h
  rw [execR_nil] at h2
  cases h2
  obtain ⟨m1, h3, ops, h4, h5⟩ := opR_after hq h1
  exact ⟨m1, ops, h3, h4, h5⟩

/-- So the whole is a history of calls none of which is nested, and C68, C69, C71 and C72 apply to it. -/
theorem C114_history_partial (c : Conf δ) (b : Beh δ ξ) (hq : ∀ k p tr, ¬ Tail c k → b.nav k p tr = []) :
    ∀ (f : Nat) (ops : List (Op ξ)) (m m' : Pm δ ξ), execR c b f ops m = .ok m' →
      ∃ flat, ops.Sublist flat ∧ run c m flat = .ok m'
  | f, [], m, m', h => by
    rw [execR_nil] at h
    cases h
    exact ⟨[], List.Sublist.refl _, rfl⟩
  | 0, o :: os, m, m', h => by cases h
  | f + 1, o :: os, m, m', h => by
    rw [execR_cons] at h
    obtain ⟨m3, h1, h2⟩ := Res.bind_eq_ok.1 h
    obtain ⟨m1, h3, ops, h4, -⟩ := opR_after hq h1
    obtain ⟨f1, -, r1⟩ := C114_history_partial c b hq f ops m1 m3 h4
    obtain ⟨f2, s2, r2⟩ := C114_history_partial c b hq f os m3 m' h2
    refine ⟨o :: (f1 ++ f2), List.Sublist.cons_cons _ (s2.trans (List.sublist_append_right _ _)), ?_⟩
    rw [run, h3, Res.ok_bind, run_append, r1, Res.ok_bind, r2]

/-- A page whose `close` always navigates: leaving it never ends, since every nested call closes it again. -/
theorem C114_close_wrong (c : Conf δ) (b : Beh δ ξ) (p : Page δ ξ) (hc : p.tmpl.close = true) (t : Tmpl) (e : ξ)
    (hn : ∀ tr, b.nav .close p tr = [.change t e]) (t' : Tmpl) (e' : ξ) :
    ∀ (f : Nat) (m : Pm δ ξ), m.init = true → m.cur = some p → execR c b f [.change t' e'] m = .diverge := by
  intro f
  induction f generalizing t' e' with
  | zero => intro m _ _; rfl
  | succ f ih =>
    intro m hi hp
    rw [execR_cons]
    simp only [opR, hi, if_true, current, hp, Res.ok_bind]
    have : callOf c b f .close p m = .diverge := by
      unfold callOf
      rw [if_pos (by simpa [Tmpl.has] using hc), hn]
      exact ih t e (record .close p m) hi hp
    rw [this]
    rfl

/-! ## One callback navigates once -/

/-- Only the `L`-th callback call navigates: it changes to page `B`. -/
def Shot (b : Beh δ ξ) (L : Nat) (B : Tmpl) (eB : ξ) : Prop :=
  ∀ k p tr, b.nav k p tr = if tr.length = L then [.change B eB] else []

theorem Shot.quiet {b : Beh δ ξ} {L : Nat} {B : Tmpl} {eB : ξ} (h : Shot b L B eB) : Quiet b L := fun k p tr hL => by
  rw [h, if_neg (by omega)]

section
variable {c : Conf δ} {b : Beh δ ξ} {L : Nat} {B : Tmpl} {eB : ξ} (hs : Shot b L B eB)
include hs

theorem Shot.other {g : Nat} {k : Kind} {p : Page δ ξ} {m : Pm δ ξ} (h : m.trace.length + 1 ≠ L) :
    callOf c b g k p m = .ok (record k p m) :=
  callOf_quiet (by rw [hs, if_neg (by simpa using h)])

theorem Shot.fires {f : Nat} {k : Kind} {p : Page δ ξ} {m : Pm δ ξ} (h : m.trace.length + 1 = L) (hk : p.tmpl.has k = true)
    (hf : m.stack.length ≤ f) : callOf c b (f + 1) k p m = change c (record k p m) B eB := by
  unfold callOf
  rw [if_pos hk, hs, if_pos (by simpa using h), C114_quiet c b (record k p m) (fun k p tr hL => hs.quiet k p tr (by simp [record] at hL; omega)) f hf]
  rfl

end

/-- `change` on an initialised manager that is not full. -/
theorem change_ok {c : Conf δ} {m : Pm δ ξ} {p : Page δ ξ} {B : Tmpl} {eB : ξ} (hi : m.init = true) (hp : m.cur = some p)
    (hdb : c.ndebug = false) (hd : m.stack.length ≠ c.depth) :
    change c m B eB = .ok { m with cur := some (c.install B eB m.next), stack := p :: m.stack, next := m.next + 1,
                                   trace := m.trace ++ [⟨.close, p⟩] ++ c.show (c.install B eB m.next) } := by
  rw [change, if_pos hi, current, hp]
  simp only [Res.ok_bind, pushAssert, hdb, Bool.false_eq_true, if_false, if_neg hd, Res.pure_eq]

/-- `change` on a manager that is not initialised. -/
theorem change_first {c : Conf δ} {m : Pm δ ξ} {B : Tmpl} {eB : ξ} (hi : m.init = false) :
    change c m B eB = .ok { m with init := true, cur := some (c.install B eB m.next), next := m.next + 1,
                                   trace := m.trace ++ c.show (c.install B eB m.next) } := by
  rw [change, if_neg (by simp [hi])]
  rfl

/-- `create` of a new page `A` changes to page `B`: `A` is closed before it was opened, with data that `create` has not
made; `B` is then given the data of `A`, and opened with it a second time. -/
theorem C114_create_wrong (c : Conf δ) (hdb : c.ndebug = false) (b : Beh δ ξ) (m : Pm δ ξ) (hi : m.init = false)
    (hd : m.stack.length ≠ c.depth) (A B : Tmpl) (eA eB : ξ) (hA : A.create = true) (hs : Shot b (m.trace.length + 1) B eB)
    (f : Nat) (hf : m.stack.length ≤ f) :
    let A0 : Page δ ξ := ⟨A, m.next, b.raw m.next, eA⟩
    let B1 := c.install B eB (m.next + 1)
    let B2 := { B1 with data := c.made m.next }
    execR c b (f + 2) [.change A eA] m = .ok ⟨true, some B2, A0 :: m.stack, m.next + 2,
      m.trace ++ [⟨.create, c.install A eA m.next⟩, ⟨.close, A0⟩] ++ c.show B1 ++ [⟨.open, B2⟩] ++ c.updates B2⟩ := by
  intro A0 B1 B2
  rw [execR_cons, bind_nil]
  simp only [opR, hi, Bool.false_eq_true, if_false, showR, createR]
  rw [hs.fires (by rfl) (by simpa [Tmpl.has, Conf.install] using hA) (by exact hf),
    change_ok (p := A0) rfl rfl hdb (by exact hd)]
  simp only [Res.ok_bind, current, record, Res.pure_eq, if_pos hA]
  rw [hs.quiet.openR (by simp) rfl]
  simp [A0, B1, B2, Conf.install]

/-- `open` of a new page `A` changes to page `B`, if there are update callbacks: `B` is updated twice, `A` never. -/
theorem C114_open (c : Conf δ) (hdb : c.ndebug = false) (hu : c.upd = true) (b : Beh δ ξ) (m : Pm δ ξ) (hi : m.init = false)
    (hd : m.stack.length ≠ c.depth) (A B : Tmpl) (eA eB : ξ) (hA : A.open = true) (hs : Shot b (m.trace.length + 2) B eB)
    (f : Nat) (hf : m.stack.length ≤ f) :
    let A1 := c.install A eA m.next
    let B1 := c.install B eB (m.next + 1)
    execR c b (f + 2) [.change A eA] m = .ok ⟨true, some B1, A1 :: m.stack, m.next + 2,
      m.trace ++ [⟨.create, A1⟩, ⟨.open, A1⟩, ⟨.close, A1⟩, ⟨.create, B1⟩, ⟨.open, B1⟩, ⟨.update, B1⟩, ⟨.update, B1⟩]⟩ := by
  intro A1 B1
  rw [execR_cons, bind_nil]
  simp only [opR, hi, Bool.false_eq_true, if_false, showR, createR]
  rw [hs.other (by simp)]
  simp only [Res.ok_bind, current, record, Res.pure_eq, openR]
  rw [hs.fires (by simp) (by simpa [Tmpl.has, Conf.install] using hA) (by exact hf),
    change_ok (p := A1) rfl rfl hdb (by exact hd)]
  simp only [Res.ok_bind, hu, if_true, record]
  rw [hs.quiet.call (by simp)]
  simp [A1, B1, record, Conf.show, Conf.updates, hu, Conf.install]

/-- `close` of the current page `p` changes to `B` (once), when the user changes to `C`: `p` is closed twice, and `B` goes
to the navigation stack without having been closed. -/
theorem C114_close_change_wrong (c : Conf δ) (hdb : c.ndebug = false) (b : Beh δ ξ) (m : Pm δ ξ) (hi : m.init = true)
    (hd : m.stack.length + 1 < c.depth) (p : Page δ ξ) (hp : m.cur = some p) (hc : p.tmpl.close = true) (B C : Tmpl) (eB eC : ξ)
    (hs : Shot b (m.trace.length + 1) B eB) (f : Nat) (hf : m.stack.length ≤ f) :
    let B1 := c.install B eB m.next
    let C1 := c.install C eC (m.next + 1)
    execR c b (f + 2) [.change C eC] m = .ok ⟨true, some C1, B1 :: p :: m.stack, m.next + 2,
      m.trace ++ [⟨.close, p⟩, ⟨.close, p⟩] ++ c.show B1 ++ c.show C1⟩ := by
  intro B1 C1
  rw [execR_cons, bind_nil]
  simp only [opR, hi, if_true, current, hp, Res.ok_bind]
  rw [hs.fires (by rfl) (by simpa [Tmpl.has] using hc) (by exact hf), change_ok (p := p) (by exact hi) (by exact hp) hdb (by simp only [record]; omega)]
  simp only [Res.ok_bind, record, pushAssert, hdb, Bool.false_eq_true, if_false, List.length_cons]
  rw [if_neg (by omega), Res.ok_bind, hs.quiet.showR (by simp)]
  simp [B1, C1, hi]

/-- The same when the user swaps to `C`: `B` is destroyed without having been closed, `p` is closed twice and not
destroyed. -/
theorem C114_close_swap_wrong (c : Conf δ) (hdb : c.ndebug = false) (b : Beh δ ξ) (m : Pm δ ξ) (hi : m.init = true)
    (hd : m.stack.length ≠ c.depth) (p : Page δ ξ) (hp : m.cur = some p) (hc : p.tmpl.close = true) (B C : Tmpl) (eB eC : ξ)
    (hs : Shot b (m.trace.length + 1) B eB) (f : Nat) (hf : m.stack.length ≤ f) :
    let B1 := c.install B eB m.next
    let C1 := c.install C eC (m.next + 1)
    execR c b (f + 2) [.swap C eC] m = .ok ⟨true, some C1, p :: m.stack, m.next + 2,
      m.trace ++ [⟨.close, p⟩, ⟨.close, p⟩] ++ c.show B1 ++ [⟨.destroy, B1⟩] ++ c.show C1⟩ := by
  intro B1 C1
  rw [execR_cons, bind_nil]
  simp only [opR, leaveR, current, hp, Res.ok_bind]
  rw [hs.fires (by rfl) (by simpa [Tmpl.has] using hc) (by exact hf), change_ok (p := p) (by exact hi) (by exact hp) hdb (by exact hd)]
  simp only [Res.ok_bind, record]
  rw [hs.quiet.call (by simp), Res.ok_bind, hs.quiet.showR (by simp [record])]
  simp [B1, C1, hi, record]

/-- `destroy` of the current page `p` changes to `B`, when the user swaps to `C`: the destroyed page is closed again and
goes to the navigation stack, and `B` is dropped without being closed or destroyed. -/
theorem C114_destroy_wrong (c : Conf δ) (hdb : c.ndebug = false) (b : Beh δ ξ) (m : Pm δ ξ) (hi : m.init = true)
    (hd : m.stack.length ≠ c.depth) (p : Page δ ξ) (hp : m.cur = some p) (hpd : p.tmpl.destroy = true) (B C : Tmpl) (eB eC : ξ)
    (hs : Shot b (m.trace.length + 2) B eB) (f : Nat) (hf : m.stack.length ≤ f) :
    let B1 := c.install B eB m.next
    let C1 := c.install C eC (m.next + 1)
    execR c b (f + 2) [.swap C eC] m = .ok ⟨true, some C1, p :: m.stack, m.next + 2,
      m.trace ++ [⟨.close, p⟩, ⟨.destroy, p⟩, ⟨.close, p⟩] ++ c.show B1 ++ c.show C1⟩ := by
  intro B1 C1
  rw [execR_cons, bind_nil]
  simp only [opR, leaveR, current, hp, Res.ok_bind]
  rw [hs.other (by simp)]
  simp only [Res.ok_bind, record, hp]
  rw [hs.fires (by simp) (by simpa [Tmpl.has] using hpd) (by exact hf), change_ok (p := p) (by exact hi) (by rfl) hdb (by exact hd), Res.ok_bind,
    hs.quiet.showR (by simp [record])]
  simp [B1, C1, hi, record]

/-- `destroy` of the page `q` on top of the navigation stack changes to `B`, when the user rebases to `C`: `p` is closed and
destroyed twice, and `B` is dropped without being closed or destroyed. -/
theorem C114_rebase_wrong (c : Conf δ) (hdb : c.ndebug = false) (b : Beh δ ξ) (m : Pm δ ξ) (hi : m.init = true)
    (p q : Page δ ξ) (rest : List (Page δ ξ)) (hst : m.stack = q :: rest) (hd : rest.length ≠ c.depth) (hp : m.cur = some p)
    (hqd : q.tmpl.destroy = true) (B C : Tmpl) (eB eC : ξ) (hs : Shot b (m.trace.length + 3) B eB) (f : Nat)
    (hf : m.stack.length ≤ f) :
    let B1 := c.install B eB m.next
    let C1 := c.install C eC (m.next + 1)
    execR c b (f + 2) [.rebase C eC] m = .ok ⟨true, some C1, [], m.next + 2,
      m.trace ++ [⟨.close, p⟩, ⟨.destroy, p⟩, ⟨.destroy, q⟩, ⟨.close, p⟩] ++ c.show B1 ++ [⟨.destroy, p⟩] ++ clearStack rest ++
        c.show C1⟩ := by
  intro B1 C1
  rw [hst, List.length_cons] at hf
  rw [execR_cons, bind_nil]
  simp only [opR, leaveR, current, hp, Res.ok_bind]
  rw [hs.other (by simp)]
  simp only [Res.ok_bind, record, hp]
  rw [hs.other (by simp)]
  simp only [Res.ok_bind, record, hst]
  rw [clearR]
  simp only
  rw [hs.fires (by simp) (by simpa [Tmpl.has] using hqd) (by simp only; omega), change_ok (p := p) (by exact hi) (by rfl) hdb (by exact hd), Res.ok_bind,
    hs.quiet.clearR (by simp [record]) (by simp only [record, List.length_cons]; omega), Res.ok_bind,
    hs.quiet.showR (by simp [record])]
  simp [B1, C1, hi, record, clearStack]

/-- `destroy` of the page `q` on top of the navigation stack changes to `B`, when the user resets to the page `r` below:
`B` is dropped without being closed or destroyed. -/
theorem C114_reset_wrong (c : Conf δ) (b : Beh δ ξ) (m : Pm δ ξ) (p q r : Page δ ξ) (rest : List (Page δ ξ))
    (hst : m.stack = q :: r :: rest) (hp : m.cur = some p) (hqd : q.tmpl.destroy = true) (hne : q.tmpl.id ≠ r.tmpl.id)
    (B : Tmpl) (eB : ξ) (hs : Shot b (m.trace.length + 3) B eB) (f : Nat) (hf : m.stack.length ≤ f) :
    let B1 := c.install B eB m.next
    execR c b (f + 2) [.reset r.tmpl.id] m = .ok ⟨true, some r, rest, m.next + 1,
      m.trace ++ [⟨.close, p⟩, ⟨.destroy, p⟩, ⟨.destroy, q⟩] ++ c.show B1 ++ [⟨.open, r⟩] ++ c.updates r⟩ := by
  intro B1
  rw [hst, List.length_cons] at hf
  rw [execR_cons, bind_nil]
  simp only [opR, leaveR, current, hp, Res.ok_bind]
  rw [hs.other (by simp)]
  simp only [Res.ok_bind, record, hp]
  rw [hs.other (by simp)]
  simp only [Res.ok_bind, record, resetLoopR, hst, if_neg hne]
  rw [hs.fires (by simp) (by simpa [Tmpl.has] using hqd) (by simp only; omega), change_first (by rfl), Res.ok_bind]
  simp only [record, if_true]
  rw [hs.quiet.openR (by simp) rfl]
  simp [B1]

/-- `close` of the current page `p` changes to `B`, when the user goes back to `q`: `B` is destroyed without having been
closed, `p` is closed twice and is then below `q`. -/
theorem C114_back_wrong (c : Conf δ) (hdb : c.ndebug = false) (b : Beh δ ξ) (m : Pm δ ξ) (hi : m.init = true)
    (p q : Page δ ξ) (rest : List (Page δ ξ)) (hst : m.stack = q :: rest) (hd : rest.length ≠ c.depth) (hp : m.cur = some p)
    (hc : p.tmpl.close = true) (B : Tmpl) (eB : ξ) (hs : Shot b (m.trace.length + 1) B eB) (f : Nat) (hf : m.stack.length ≤ f) :
    let B1 := c.install B eB m.next
    execR c b (f + 2) [.back] m = .ok ⟨true, some q, p :: rest, m.next + 1,
      m.trace ++ [⟨.close, p⟩, ⟨.close, p⟩] ++ c.show B1 ++ [⟨.destroy, B1⟩, ⟨.open, q⟩] ++ c.updates q⟩ := by
  intro B1
  rw [hst, List.length_cons] at hf
  rw [execR_cons, bind_nil]
  simp only [opR, hi, Conf.assert, hdb, Bool.false_eq_true, if_false, cassert, if_true, Res.ok_bind, hst, leaveR, current, hp]
  rw [hs.fires (by rfl) (by simpa [Tmpl.has] using hc) (by simp only; omega), change_ok (p := p) (by rfl) (by rfl) hdb (by exact hd)]
  simp only [Res.ok_bind, record]
  rw [hs.quiet.call (by simp), Res.ok_bind]
  simp only [record]
  rw [hs.quiet.openR (by simp) rfl]
  simp [B1]

/-! ## Examples -/

/-- All callbacks are there. -/
def allCb (id : Int) : Tmpl := ⟨id, true, true, true, true, true, true⟩

/-- Page number 0 (a splash screen) changes to the main page on its second event. -/
def splash : Beh Nat Nat where
  nav := fun k p tr => if k = .process ∧ p.inst = 0 ∧ (tr.filter fun e => e.kind == .process).length = 2 then
    [.change (allCb 2) 20] else []
  raw := fun _ => 0

def demo : Conf Nat := ⟨4, true, false, 0, fun i => 100 + i⟩

def seen (r : Res (Pm Nat Nat)) : Option (List (Kind × Int × Nat) × List Int) :=
  match r with
  | .ok m => some (m.trace.map (fun e => (e.kind, e.page.tmpl.id, e.page.data)), m.stack.map fun p => p.tmpl.id)
  | _ => none

example : seen (execR demo splash 5 [.change (allCb 1) 10, .process, .process] (init none)) =
    some ([(.create, 1, 100), (.open, 1, 100), (.update, 1, 100), (.process, 1, 100), (.process, 1, 100), (.close, 1, 100),
      (.create, 2, 101), (.open, 2, 101), (.update, 2, 101)], [1]) := by decide

example : ∀ k p tr, ¬ Tail demo k → splash.nav k p tr = [] := by
  intro k p tr h
  unfold splash
  simp only
  split
  · rename_i hc
    exact absurd (Or.inl hc.1) h
  · rfl

/-- The `L`-th callback changes to page 2. -/
def shot (L : Nat) : Beh Nat Nat where
  nav := fun _ _ tr => if tr.length = L then [.change (allCb 2) 20] else []
  raw := fun _ => 55

example (L : Nat) : Shot (shot L) L (allCb 2) 20 := fun _ _ _ => rfl

example : seen (execR { demo with upd := false } (shot 1) 5 [.change (allCb 1) 10] (init none)) =
    some ([(.create, 1, 100), (.close, 1, 55), (.create, 2, 101), (.open, 2, 101), (.open, 2, 100)], [1]) := by decide

example : seen (execR { demo with upd := false } (shot 3) 5 [.change (allCb 1) 10, .change (allCb 3) 30] (init none)) =
    some ([(.create, 1, 100), (.open, 1, 100), (.close, 1, 100), (.close, 1, 100), (.create, 2, 101), (.open, 2, 101),
      (.create, 3, 102), (.open, 3, 102)], [2, 1]) := by decide

example : seen (execR { demo with upd := false } (shot 4) 5 [.change (allCb 1) 10, .swap (allCb 3) 30] (init none)) =
    some ([(.create, 1, 100), (.open, 1, 100), (.close, 1, 100), (.destroy, 1, 100), (.close, 1, 100), (.create, 2, 101),
      (.open, 2, 101), (.create, 3, 102), (.open, 3, 102)], [1]) := by decide

/-- A page whose `close` always navigates. -/
def sticky : Beh Nat Nat where
  nav := fun k _ _ => if k = .close then [.change (allCb 2) 20] else []
  raw := fun _ => 55

example : seen (execR demo sticky 9 [.change (allCb 1) 10] (init none)) ≠ none ∧
    execR demo sticky 9 [.change (allCb 1) 10, .change (allCb 3) 30] (init none) = .diverge := by decide

end Gel.Pages
