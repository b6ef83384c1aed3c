import Verif.StateMachine.Props

/-!
# State machine: property C148, managers that send events to their own machine

A second model of gel/state_machine/state_machine.h: `name_sm_send_event` reads `sm->state` before it calls the manager, and
writes it after the call, so that a manager that has access to the machine may call it again.
-/
namespace Gel.StateMachine

/-- What a manager does: it returns a number, leaving the model as given, or sends an event, and goes on with the model and the
answer it gets. -/
inductive Prog (μ ε : Type) where
  | ret (m : μ) (r : Int)
  | send (m : μ) (e : ε) (k : μ → Int → Prog μ ε)

variable {μ ε : Type}

/-- The execution of a manager while the machine is in the state `s`: the model, the state the machine is in and the result. -/
def Prog.exec (snd : Nat → μ → ε → Res (μ × Nat × Int)) : Nat → Prog μ ε → Res (μ × Nat × Int)
  | s, .ret m r => .ok (m, s, r)
  | s, .send m e k => do
    let (m, s, a) ← snd s m e
    (k m a).exec snd s

/-- `name_sm_send_event`, state_machine.h:16-24, with nested calls up to the given depth. -/
def sendNested (managers : List (μ → ε → Prog μ ε)) : Nat → Nat → μ → ε → Res (μ × Nat × Int)
  | 0, _, _, _ => .diverge
  | f + 1, state, model, event => do
    let manager ← rd managers state
    let (model, s, r) ← (manager model event).exec (sendNested managers f) state
    if r ≥ 0 then pure (model, (wrapU 32 r).toNat, 1) else pure (model, s, 0)

/-! ## Specification -/

/-- The managers only return states of the table, or negative numbers. -/
inductive Prog.Within (n : Nat) : Prog μ ε → Prop
  | ret (m : μ) (r : Int) : r < n → Within n (.ret m r)
  | send (m e k) : (∀ m a, Within n (k m a)) → Within n (.send m e k)

/-- Sending events one after the other. -/
def sendAll (managers : List (μ → ε → Prog μ ε)) (f : Nat) : Nat → μ → List ε → Res (μ × Nat)
  | s, m, [] => .ok (m, s)
  | s, m, e :: es => do
    let (m, s, _) ← sendNested managers f s m e
    sendAll managers f s m es

/-- A manager that sends these events and returns `r`. -/
def Prog.chain (r : Int) : List ε → μ → Prog μ ε
  | [], m => .ret m r
  | e :: es, m => .send m e fun m _ => chain r es m

/-- A manager that sends no events. -/
def Prog.silent (x : μ × Int) : Prog μ ε := .ret x.1 x.2

/-! ## Theorems -/

theorem exec_chain (managers : List (μ → ε → Prog μ ε)) (f : Nat) (r : Int) : ∀ (es : List ε) (s : Nat) (m : μ),
    (Prog.chain r es m).exec (sendNested managers f) s = do
      let (m, s) ← sendAll managers f s m es
      pure (m, s, r)
  | [], s, m => rfl
  | e :: es, s, m => by
    rw [Prog.chain, Prog.exec, sendAll]
    cases h : sendNested managers f s m e with
    | ok x => exact exec_chain managers f r es x.2.1 x.1
    | ub => rfl
    | abort => rfl
    | diverge => rfl

/-- **C148.** Managers that send nothing: the machine of C67. -/
theorem C148_silent (managers : List (Manager μ ε)) (f state : Nat) (model : μ) (e : ε) :
    sendNested (managers.map fun g m e => Prog.silent (g m e)) (f + 1) state model e = sendEvent managers state model e := by
  rw [sendNested, sendEvent, rd, rd, List.getElem?_map]
  cases managers[state]? <;> rfl

/-- **C148** (partial). The manager of the state sends the events `es` and returns a negative number: they are handled one after
the other, starting in the state the machine was in, and the state they lead to is kept (the answer is 0 nevertheless).
Missing: managers that return a state (`C148_lost_wrong`). -/
theorem C148_kept_partial (managers : List (μ → ε → Prog μ ε)) (f state : Nat) (model m : μ) (e : ε) (es : List ε) (r : Int)
    (hr : r < 0) (g : μ → ε → Prog μ ε) (hg : managers[state]? = some g) (hp : g model e = .chain r es m) :
    sendNested managers (f + 1) state model e = (do
      let (m, s) ← sendAll managers f state m es
      pure (m, s, 0)) := by
  have h1 : rd managers state = .ok g := by rw [rd, hg]
  rw [sendNested, h1, Res.ok_bind, hp, exec_chain, bind_assoc]
  congr 1
  funext x
  simp only [Res.pure_eq, Res.ok_bind]
  rw [if_neg (by omega)]

/-- **C148**, where it fails: if the manager then returns a state, the states that the events lead to are lost, whatever they
are. -/
theorem C148_lost_wrong (managers : List (μ → ε → Prog μ ε)) (f state : Nat) (model m : μ) (e : ε) (es : List ε) (t : Nat)
    (ht : t < 2 ^ 31) (g : μ → ε → Prog μ ε) (hg : managers[state]? = some g) (hp : g model e = .chain t es m) (m' : μ) (s' : Nat)
    (hs : sendAll managers f state m es = .ok (m', s')) :
    sendNested managers (f + 1) state model e = .ok (m', t, 1) := by
  have h1 : rd managers state = .ok g := by rw [rd, hg]
  rw [sendNested, h1, Res.ok_bind, hp, exec_chain, bind_assoc, hs]
  simp only [Res.pure_eq, Res.ok_bind]
  rw [if_pos (by omega), wrapU, Int.emod_eq_of_lt (by omega) (by omega)]
  rfl

/-- **C148**, where it fails: a manager that sends an event that it has to handle itself, and in doing so sends one again,
and so on, never returns. -/
theorem C148_loop_wrong (managers : List (μ → ε → Prog μ ε)) (state : Nat) (g : μ → ε → Prog μ ε) (hg : managers[state]? = some g)
    (P : ε → Prop) (hp : ∀ m e, P e → ∃ m' e' k, P e' ∧ g m e = .send m' e' k) (f : Nat) :
    ∀ (model : μ) (e : ε), P e → sendNested managers f state model e = .diverge := by
  have h1 : rd managers state = .ok g := by rw [rd, hg]
  induction f with
  | zero => exact fun _ _ _ => rfl
  | succ f ih =>
    intro model e he
    obtain ⟨m', e', k, h2, h3⟩ := hp model e he
    rw [sendNested, h1, Res.ok_bind, h3, Prog.exec, ih m' e' h2]
    rfl

/-- **C148.** Whatever the managers send, if they only return states of the table, the machine never leaves the table: the call
returns, in a state of the table, or never ends. -/
theorem C148_safe (managers : List (μ → ε → Prog μ ε)) (hn : managers.length < 2 ^ 31)
    (hw : ∀ g ∈ managers, ∀ m e, (g m e).Within managers.length) (f : Nat) :
    ∀ (state : Nat) (model : μ) (e : ε), state < managers.length →
      sendNested managers f state model e = .diverge ∨
      ∃ m s a, sendNested managers f state model e = .ok (m, s, a) ∧ s < managers.length ∧ (a = 0 ∨ a = 1) := by
  induction f with
  | zero => exact fun _ _ _ _ => .inl rfl
  | succ f ih =>
    intro state model e hs
    have h1 : rd managers state = .ok managers[state] := by rw [rd, List.getElem?_eq_getElem hs]
    have hex : ∀ (p : Prog μ ε), p.Within managers.length → ∀ s, s < managers.length →
        p.exec (sendNested managers f) s = .diverge ∨
        ∃ m s', ∃ r : Int, p.exec (sendNested managers f) s = .ok (m, s', r) ∧ s' < managers.length ∧ r < managers.length := by
      intro p hp
      induction hp with
      | ret m r hr => exact fun s hs => .inr ⟨m, s, r, rfl, hs, hr⟩
      | send m e k _ ihk =>
        intro s hs
        rw [Prog.exec]
        rcases ih s m e hs with h | ⟨m', s', a, h, hs', -⟩
        · rw [h]
          exact .inl rfl
        · rw [h]
          exact ihk m' a s' hs'
    rw [sendNested, h1, Res.ok_bind]
    rcases hex _ (hw _ (List.getElem_mem hs) model e) state hs with h | ⟨m, s', r, h, hs', hr⟩
    · rw [h]
      exact .inl rfl
    · rw [h, Res.ok_bind]
      simp only [Res.pure_eq]
      by_cases h0 : r ≥ 0
      · rw [if_pos h0, wrapU, Int.emod_eq_of_lt h0 (by omega)]
        exact .inr ⟨m, r.toNat, 1, rfl, by omega, .inr rfl⟩
      · rw [if_neg h0]
        exact .inr ⟨m, s', 0, rfl, hs', .inl rfl⟩

/-- A door: state 0 is closed, 1 open, 2 alarm. In state 0 the event 0 opens it, and event 1 sets off the alarm. The manager of
state 0 sends event 1 if the model says so when it handles event 0: it is then open, and the alarm is lost; the manager of
state 1 that passes an event on and returns -1 does not lose the alarm. -/
def door : List (Bool → Nat → Prog Bool Nat) :=
  [fun m e => if e = 0 then (if m then .chain 1 [1] m else .ret m 1) else .ret m 2,
   fun m e => if e = 0 then .chain (-1) [1] m else .ret m 2,
   fun m _ => .ret m (-1)]

example : sendNested door 2 0 true 0 = .ok (true, 1, 1) ∧ sendNested door 2 0 true 1 = .ok (true, 2, 1) ∧
    sendNested door 2 1 true 0 = .ok (true, 2, 0) ∧
    sendNested [fun (m : Unit) (e : Nat) => Prog.chain 0 [e] m] 10 0 () 5 = .diverge := by
  decide

end Gel.StateMachine
