import Verif.StateMachine.Props
import Mathlib.Tactic.SplitIfs

/-!
# State machine: an event sent by an interrupt handler (C223)

`name_sm_send_event` (state_machine.h:16-24) as a sequence of accesses: the load of `sm->state`, what the manager does to the model step by
step, and the store of `sm->state`. Before each of them an interrupt handler may run to its end, which itself sends an event to the machine.
-/
namespace Gel.StateMachine

variable {μ ε : Type}

/-! ## Model -/

/-- A manager in progress: it returns a number, or does something to the model and goes on, knowing the model it found. -/
inductive Acts (μ : Type) where
  | ret (r : Int)
  | act (f : μ → μ) (k : μ → Acts μ)

/-- A manager as the steps it consists of. -/
abbrev Stepwise (μ ε : Type) := ε → Acts μ

/-- The manager without handlers. -/
def Acts.quiet : Acts μ → μ → μ × Int
  | .ret r, m => (m, r)
  | .act f k, m => (k m).quiet (f m)

/-- The same manager for the model of C67. -/
def atomic (g : Stepwise μ ε) : Manager μ ε := fun m e => (g e).quiet m

/-- The machine's state and the model. -/
abbrev Conf (μ : Type) := μ × Nat

/-- The steps of a manager, with the handler `H t` before step number `t`; returns the number and the point that is next. -/
def Acts.exec (H : Nat → Conf μ → Res (Conf μ)) : Nat → Acts μ → Conf μ → Res (Conf μ × Int × Nat)
  | t, .ret r, s => .ok (s, r, t)
  | t, .act f k, s => do
    let s ← H t s
    (k s.1).exec H (t + 1) (f s.1, s.2)

/-- `name_sm_send_event`, state_machine.h:16-24: `H 0` before the load of the state, `H 1`, ... within the manager and the last one before
the result is looked at and the state is stored. -/
def sendI (managers : List (Stepwise μ ε)) (H : Nat → Conf μ → Res (Conf μ)) (s : Conf μ) (e : ε) : Res (Conf μ × Int) := do
  let s ← H 0 s
  let g ← rd managers s.2
  let (s, r, t) ← (g e).exec H 1 s
  let s ← H t s
  if r ≥ 0 then pure ((s.1, (wrapU 32 r).toNat), 1) else pure (s, 0)

/-- A handler at one point. -/
def onceAt (t : Nat) (h : Conf μ → Res (Conf μ)) : Nat → Conf μ → Res (Conf μ) := fun u s => if u = t then h s else .ok s

/-- A handler that sends `e`. It is not interrupted. -/
def sends (managers : List (Stepwise μ ε)) (e : ε) (s : Conf μ) : Res (Conf μ) := do
  let (m, q, _) ← sendEvent (managers.map atomic) s.2 s.1 e
  pure (m, q)

/-! ## Specification -/

/-- The first `n` steps of a manager: the model after them and the rest. -/
def Acts.split : Nat → Acts μ → μ → μ × Acts μ
  | 0, p, m => (m, p)
  | _, .ret r, m => (m, .ret r)
  | n + 1, .act f k, m => (k m).split n (f m)

/-- The number of steps it takes. -/
def Acts.steps : Acts μ → μ → Nat
  | .ret _, _ => 0
  | .act f k, m => (k m).steps (f m) + 1

/-- The state after a manager has answered `r`. -/
def goes (q : Nat) (r : Int) : Nat := if r ≥ 0 then (wrapU 32 r).toNat else q

/-- Both events, that of the handler after `n` steps of the manager: it is handled by the manager `g` of the state `q` too, and what the machine does
next is for the main program's manager to say, if it says something. -/
def sendBoth (g : Stepwise μ ε) (q : Nat) (m : μ) (e e' : ε) (n : Nat) : Conf μ × Int :=
  let (m1, rest) := (g e).split n m
  let (m2, r') := (g e').quiet m1
  let (m3, r) := rest.quiet m2
  ((m3, goes (goes q r') r), if r ≥ 0 then 1 else 0)

/-! ## Theorems -/

theorem exec_quiet : ∀ (p : Acts μ) (t : Nat) (s : Conf μ),
    p.exec (fun _ s => .ok s) t s = .ok (((p.quiet s.1).1, s.2), (p.quiet s.1).2, t + p.steps s.1)
  | .ret r, t, s => rfl
  | .act f k, t, s => by
    rw [Acts.exec, Res.ok_bind, exec_quiet (k s.1) (t + 1) (f s.1, s.2), Acts.quiet, Acts.steps]
    simp only [Res.ok.injEq, Prod.mk.injEq, true_and]
    omega

/-- **C223.** Without handlers this is the model of C67. -/
theorem C223_quiet (managers : List (Stepwise μ ε)) (s : Conf μ) (e : ε) :
    sendI managers (fun _ s => .ok s) s e = (do
      let (m, q, r) ← sendEvent (managers.map atomic) s.2 s.1 e
      pure ((m, q), r)) := by
  simp only [sendI, sendEvent, Res.ok_bind, rd, List.getElem?_map]
  cases managers[s.2]? with
  | none => rfl
  | some g =>
    simp only [Option.map_some, Res.ok_bind, exec_quiet, atomic]
    by_cases hr : ((g e).quiet s.1).2 ≥ 0 <;> simp [hr]

/-- After the point of the handler the rest is as without one. -/
theorem exec_after {h : Conf μ → Res (Conf μ)} {t : Nat} : ∀ (p : Acts μ) (u : Nat) (s : Conf μ), t < u →
    p.exec (onceAt t h) u s = .ok (((p.quiet s.1).1, s.2), (p.quiet s.1).2, u + p.steps s.1)
  | .ret r, u, s, _ => rfl
  | .act f k, u, s, hu => by
    rw [Acts.exec, onceAt, if_neg (by omega), Res.ok_bind, exec_after (k s.1) (u + 1) (f s.1, s.2) (by omega), Acts.quiet, Acts.steps]
    simp only [Res.ok.injEq, Prod.mk.injEq, true_and]
    omega

/-- A handler within the manager. -/
theorem exec_within {h : Conf μ → Res (Conf μ)} : ∀ (n : Nat) (p : Acts μ) (u : Nat) (m : μ) (q : Nat), n < p.steps m →
    p.exec (onceAt (u + n) h) u (m, q) = (do
      let s ← h ((p.split n m).1, q)
      pure ((((p.split n m).2.quiet s.1).1, s.2), ((p.split n m).2.quiet s.1).2, u + n + (p.split n m).2.steps s.1)) := by
  intro n
  induction n with
  | zero =>
    intro p u m q hn
    cases p with
    | ret r => simp [Acts.steps] at hn
    | act f k =>
      rw [Acts.exec, Nat.add_zero, onceAt, if_pos rfl, Acts.split]
      cases h (m, q) with
      | ok s =>
        simp only [Res.ok_bind]
        rw [exec_after _ _ _ (Nat.lt_succ_self u)]
        simp only [Acts.quiet, Acts.steps, Res.pure_eq, Res.ok.injEq, Prod.mk.injEq, true_and]
        omega
      | ub => rfl
      | abort => rfl
      | diverge => rfl
  | succ n ih =>
    intro p u m q hn
    cases p with
    | ret r => simp [Acts.steps] at hn
    | act f k =>
      rw [Acts.steps] at hn
      rw [Acts.exec, onceAt, if_neg (by omega), Res.ok_bind, Acts.split]
      have := ih (k m) (u + 1) (f m) q (by omega)
      rw [show u + 1 + n = u + (n + 1) by omega] at this
      exact this

/-- A handler later than the manager. -/
theorem exec_before {h : Conf μ → Res (Conf μ)} : ∀ (p : Acts μ) (u t : Nat) (s : Conf μ), u + p.steps s.1 ≤ t →
    p.exec (onceAt t h) u s = .ok (((p.quiet s.1).1, s.2), (p.quiet s.1).2, u + p.steps s.1)
  | .ret r, u, t, s, _ => rfl
  | .act f k, u, t, s, hu => by
    rw [Acts.steps] at hu
    rw [Acts.exec, onceAt, if_neg (by omega), Res.ok_bind, exec_before (k s.1) (u + 1) t (f s.1, s.2) (by simp only; omega), Acts.quiet,
      Acts.steps]
    simp only [Res.ok.injEq, Prod.mk.injEq, true_and]
    omega

theorem split_all : ∀ (p : Acts μ) (m : μ), (p.split (p.steps m) m) = ((p.quiet m).1, .ret (p.quiet m).2)
  | .ret r, m => rfl
  | .act f k, m => by rw [Acts.steps, Acts.split, split_all (k m) (f m), Acts.quiet]

/-- A manager that has not taken all its steps has one more to take, whatever happens to the model. -/
theorem split_steps : ∀ (n : Nat) (p : Acts μ) (m : μ), n < p.steps m → ∀ m', 0 < (p.split n m).2.steps m'
  | 0, .ret r, m, h, _ => by simp [Acts.steps] at h
  | 0, .act f k, m, _, m' => by simp [Acts.split, Acts.steps]
  | n + 1, .ret r, m, h, _ => by simp [Acts.steps] at h
  | n + 1, .act f k, m, h, m' => by
    rw [Acts.steps] at h
    rw [Acts.split]
    exact split_steps n (k m) (f m) (by omega) m'

theorem sends_ok {managers : List (Stepwise μ ε)} {g : Stepwise μ ε} {q : Nat} (hg : managers[q]? = some g) (m : μ) (e : ε) :
    sends managers e (m, q) = .ok (((g e).quiet m).1, goes q ((g e).quiet m).2) := by
  simp only [sends, sendEvent, rd, List.getElem?_map, hg, Option.map_some, Res.ok_bind, atomic, goes]
  by_cases hr : ((g e).quiet m).2 ≥ 0 <;> simp [hr]

/-- **C223.** An event before the state is loaded: both events one after the other, that of the handler first. -/
theorem C223_early (managers : List (Stepwise μ ε)) (s : Conf μ) (e e' : ε) :
    sendI managers (onceAt 0 (sends managers e')) s e = (do
      let s ← sends managers e' s
      sendI managers (fun _ s => .ok s) s e) := by
  simp only [sendI, onceAt, if_true, Res.ok_bind]
  cases sends managers e' s with
  | ok s =>
    simp only [Res.ok_bind]
    cases rd managers s.2 with
    | ok g =>
      simp only [Res.ok_bind]
      have h1 := exec_after (h := sends managers e') (t := 0) (g e) 1 s (by omega)
      rw [h1, exec_quiet]
      simp only [Res.ok_bind]
      rw [if_neg (by omega), Res.ok_bind]
    | ub => rfl
    | abort => rfl
    | diverge => rfl
  | ub => rfl
  | abort => rfl
  | diverge => rfl

/-- **C223.** An event at any later point, after `n` of the steps that the manager takes: what becomes of the model, of the state and of the
answer. -/
theorem C223_exact (managers : List (Stepwise μ ε)) {g : Stepwise μ ε} {q : Nat} (hg : managers[q]? = some g) (m : μ) (e e' : ε) {n : Nat}
    (hn : n ≤ (g e).steps m) :
    sendI managers (onceAt (n + 1) (sends managers e')) (m, q) e = .ok (sendBoth g q m e e' n) := by
  simp only [sendI]
  rw [onceAt, if_neg (by omega), Res.ok_bind]
  simp only [rd, hg, Res.ok_bind]
  rcases Nat.lt_or_eq_of_le hn with hlt | heq
  · have h1 := exec_within (h := sends managers e') n (g e) 1 m q hlt
    rw [Nat.add_comm 1 n] at h1
    rw [h1, sends_ok hg]
    simp only [Res.ok_bind, Res.pure_eq, sendBoth]
    have h2 := split_steps n (g e) m hlt ((g e').quiet ((g e).split n m).1).1
    rw [onceAt, if_neg (by omega), Res.ok_bind]
    simp only [goes]
    split_ifs <;> rfl
  · have h1 := exec_before (h := sends managers e') (g e) 1 (n + 1) (m, q) (by simp only; omega)
    rw [h1]
    simp only [Res.ok_bind]
    rw [onceAt, if_pos (by omega), sends_ok hg]
    simp only [Res.ok_bind, sendBoth, heq, split_all, Acts.quiet, goes]
    split_ifs <;> rfl

/-- **C223** (partial). An event just before the store, if the main program's event leads to no state: both events one after the other, that
of the main program first. Missing: events that lead to a state, for which it is false (`C223_lost_wrong`), and events that come earlier
(`C223_state_wrong`). -/
theorem C223_last_partial (managers : List (Stepwise μ ε)) {g : Stepwise μ ε} {q : Nat} (hg : managers[q]? = some g) (m : μ) (e e' : ε)
    (hr : ((g e).quiet m).2 < 0) :
    ∃ s s', sendI managers (fun _ s => .ok s) (m, q) e = .ok (s, 0) ∧ sends managers e' s = .ok s' ∧
      sendI managers (onceAt ((g e).steps m + 1) (sends managers e')) (m, q) e = .ok (s', 0) := by
  refine ⟨(((g e).quiet m).1, q), _, ?_, sends_ok hg _ _, ?_⟩
  · simp only [sendI, Res.ok_bind, rd, hg, exec_quiet]
    rw [if_neg (by omega)]
    rfl
  · rw [C223_exact managers hg m e e' (Nat.le_refl _)]
    simp only [sendBoth, split_all, Acts.quiet]
    rw [if_neg (by omega), goes, if_neg (by omega)]

/-- **C223** (partial). An event that leads to no state and leaves the model as it is does no harm at any point. -/
theorem C223_ignored_partial (managers : List (Stepwise μ ε)) {g : Stepwise μ ε} {q : Nat} (hg : managers[q]? = some g) (m : μ) (e e' : ε)
    {n : Nat} (hn : n ≤ (g e).steps m) (hi : ∀ m, ((g e').quiet m).1 = m ∧ ((g e').quiet m).2 < 0) :
    sendI managers (onceAt (n + 1) (sends managers e')) (m, q) e = sendI managers (fun _ s => .ok s) (m, q) e := by
  have hsp : ∀ (n : Nat) (p : Acts μ) (m : μ), ((p.split n m).2.quiet (p.split n m).1) = p.quiet m := by
    intro n
    induction n with
    | zero => intro p m; cases p <;> rfl
    | succ n ih =>
      intro p m
      cases p with
      | ret r => rfl
      | act f k => exact ih (k m) (f m)
  rw [C223_exact managers hg m e e' hn]
  simp only [sendBoth, (hi _).1, hsp]
  have : goes q ((g e').quiet ((g e).split n m).1).2 = q := by
    rw [goes, if_neg (by have := (hi ((g e).split n m).1).2; omega)]
  rw [this]
  simp only [sendI, Res.ok_bind, rd, hg, exec_quiet, goes]
  split_ifs <;> rfl

/-- **C223**, where it fails: if the main program's event leads to a state, the state that the handler's event led to is lost, at every point
after the state is loaded. -/
theorem C223_lost_wrong (managers : List (Stepwise μ ε)) {g : Stepwise μ ε} {q : Nat} (hg : managers[q]? = some g) (m : μ) (e e' : ε) {n : Nat}
    (hn : n ≤ (g e).steps m) {r : Nat} (hr : r < 2 ^ 31)
    (ha : (((g e).split n m).2.quiet ((g e').quiet ((g e).split n m).1).1).2 = (r : Int)) :
    ∃ m', sendI managers (onceAt (n + 1) (sends managers e')) (m, q) e = .ok ((m', r), 1) := by
  rw [C223_exact managers hg m e e' hn]
  simp only [sendBoth, ha, goes]
  rw [if_pos (by omega), if_pos (by omega)]
  have : (wrapU 32 (r : Int)).toNat = r := by
    rw [wrapU]; omega
  rw [this]
  exact ⟨_, rfl⟩

/-- **C223**, where it fails: the handler's event is handled by the manager of the state before, even when the manager of the main program's
event has done all its work; and if the main program's event leads to a state in which the handler's event would lead to another one, the
machine is in neither of the states that the events lead to one after the other. -/
theorem C223_state_wrong (managers : List (Stepwise μ ε)) {g : Stepwise μ ε} {q : Nat} (hg : managers[q]? = some g) (m : μ) (e e' : ε)
    {r : Nat} (hr : r < 2 ^ 31) (ha : ∀ m, ((g e).quiet m).2 = (r : Int)) {g1 : Stepwise μ ε} (hg1 : managers[r]? = some g1) {r1 : Nat}
    (hr1 : r1 < 2 ^ 31) (ha1 : ∀ m, ((g1 e').quiet m).2 = (r1 : Int)) (hne : r1 ≠ r) {q1 : Nat} (hq1 : q1 < 2 ^ 31)
    (ha2 : ∀ m, ((g e').quiet m).2 = (q1 : Int)) {g2 : Stepwise μ ε} (hg2 : managers[q1]? = some g2) {r2 : Nat} (hr2 : r2 < 2 ^ 31)
    (ha3 : ∀ m, ((g2 e).quiet m).2 = (r2 : Int)) (hne2 : r2 ≠ r) :
    ∃ m', sendI managers (onceAt ((g e).steps m + 1) (sends managers e')) (m, q) e = .ok ((m', r), 1) ∧
      m' = ((g e').quiet ((g e).quiet m).1).1 ∧
      (∀ s, (do let s ← sends managers e (m, q); sends managers e' s) = .ok s → s.2 ≠ r) ∧
      (∀ s, (do let s ← sends managers e' (m, q); sends managers e s) = .ok s → s.2 ≠ r) := by
  have hw : ∀ x : Nat, x < 2 ^ 31 → (wrapU 32 (x : Int)).toNat = x := by
    intro x hx
    rw [wrapU]; omega
  have hgo : ∀ (y x : Nat), x < 2 ^ 31 → goes y (x : Int) = x := by
    intro y x hx
    rw [goes, if_pos (by omega), hw x hx]
  refine ⟨_, ?_, rfl, ?_, ?_⟩
  · rw [C223_exact managers hg m e e' (Nat.le_refl _)]
    simp only [sendBoth, split_all, Acts.quiet, ha, hgo _ r hr]
    rw [if_pos (by omega)]
  · intro s hs
    rw [sends_ok hg, Res.ok_bind, ha, hgo _ r hr, sends_ok hg1, ha1, hgo _ r1 hr1] at hs
    cases hs
    exact hne
  · intro s hs
    rw [sends_ok hg, Res.ok_bind, ha2, hgo _ q1 hq1, sends_ok hg2, ha3, hgo _ r2 hr2] at hs
    cases hs
    exact hne2

/-- A door with the states closed (0), open (1), locked (2) and alarm (3). The event "open" takes two steps, logging and counting; the
event "lock" locks a closed door and sounds the alarm at an open one. Locked in the midst of being opened: the handler locks, the answer
is 1, and the door is open. -/
example :
    let closed : Stepwise (List Nat) Bool := fun e =>
      if e then .act (· ++ [1]) fun _ => .act (· ++ [2]) fun _ => .ret 1 else .act (· ++ [7]) fun _ => .ret 2
    let opened : Stepwise (List Nat) Bool := fun e => if e then .ret (-1) else .ret 3
    let locked : Stepwise (List Nat) Bool := fun _ => .ret (-1)
    let table := [closed, opened, locked, locked]
    sendI table (onceAt 2 (sends table false)) ([], 0) true = .ok (([1, 7, 2], 1), 1) ∧
    sendI table (onceAt 0 (sends table false)) ([], 0) true = .ok (([7], 2), 0) ∧
    (do let s ← sends table true ([], 0); sends table false s) = .ok ([1, 2], 3) := by decide

end Gel.StateMachine
