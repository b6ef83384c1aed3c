import Verif.Time.TimerNested

/-!
# Timer: an interrupt handler controls a timer that the main program polls (C198)

A third model of `gel_timer_manage_callback`: the sequence of its accesses to the timer. An interrupt handler may run before
each of them, and runs to its end. The loads of stopwatch.c:144 and 145 are taken from left to right; a compiler may merge
the two pairs, which gives executions of this model (no handler between them). The callback, with the handlers that run
while it does, is one step.
-/
namespace Gel.Timer

open Stopwatch Time

variable {w : Nat} {κ : Type}

/-- The accesses of a poll, in the order of the program. -/
inductive Pt where
  | mode | total | elapsed | total2 | elapsed2 | starting | callback | call | autoreload
  | clrStarting | clrElapsed | clrMode | mode2 | setStarting | setMode
  deriving DecidableEq, Repr

/-- What is recorded: a call of the callback, and a `gel_timer_stop` of a handler. -/
inductive IEv (κ : Type) where
  | call (c : κ)
  | stop
  deriving DecidableEq, Repr

structure ISt (w : Nat) (κ : Type) where
  timer : Timer w κ
  log : List (IEv κ)
  deriving DecidableEq

/-- A sequence of accesses. -/
inductive IProg (σ ρ : Type) where
  | ret (r : ρ)
  | ub
  | load (p : Pt) (k : σ → IProg σ ρ)
  | store (p : Pt) (f : σ → σ) (k : IProg σ ρ)

/-- Its execution, if the handler does `h p` before the access `p`. -/
def IProg.exec (h : Pt → σ → σ) : IProg σ ρ → σ → Res (σ × ρ)
  | .ret r, s => .ok (s, r)
  | .ub, _ => .ub
  | .load p k, s => (k (h p s)).exec h (h p s)
  | .store p f k, s => k.exec h (f (h p s))

def ISt.watch (s : ISt w κ) : Watch w := s.timer.watch

def ISt.setWatch (f : Watch w → Watch w) (s : ISt w κ) : ISt w κ := { s with timer := { s.timer with watch := f s.timer.watch } }

/-- `stopwatch_stop`, stopwatch.c:53-58. -/
def stopP (k : IProg (ISt w κ) Bool) : IProg (ISt w κ) Bool :=
  .store .clrStarting (ISt.setWatch fun x => { x with starting := 0 }) <|
  .store .clrElapsed (ISt.setWatch fun x => { x with elapsed := 0 }) <|
  .store .clrMode (ISt.setWatch fun x => { x with mode := .stopped }) k

/-- `stopwatch_restart`, stopwatch.c:77-80, with `stopwatch_start`, stopwatch.c:36-49. -/
def restartP (now : BitVec w) : IProg (ISt w κ) Bool :=
  stopP <| .load .mode2 fun s =>
    if s.watch.mode = .counting then .ret true
    else
      .store .setStarting (ISt.setWatch fun x => { x with starting := now }) <|
      .store .setMode (ISt.setWatch fun x => { x with mode := .counting }) (.ret true)

/-- timer.c:72-78. -/
def fireP (env : κ → Timer w κ → Timer w κ) (now : BitVec w) : IProg (ISt w κ) Bool :=
  .load .callback fun s => match s.timer.callback with
    | none => .ub
    | some c =>
      .store .call (fun s => ⟨env c s.timer, s.log ++ [.call c]⟩) <|
      .load .autoreload fun s => if s.timer.autoreload ≠ 0 then restartP now else stopP (.ret true)

/-- `gel_timer_manage_callback`, timer.c:70-82, with `stopwatch_is_timer_reached`, stopwatch.c:138-156. -/
def pollP (env : κ → Timer w κ → Timer w κ) (now : BitVec w) : IProg (ISt w κ) Bool :=
  .load .mode fun s => match s.watch.mode with
    | .stopped => .ret false
    | .counting =>
      .load .total fun a => .load .elapsed fun b =>
        if b.watch.elapsed < a.watch.total then
          .load .total2 fun c => .load .elapsed2 fun d => .load .starting fun e =>
            if isLooselyExpired e.watch.starting now (c.watch.total - d.watch.elapsed) then fireP env now else .ret false
        else fireP env now
    | .paused => .load .elapsed fun a => .load .total fun b =>
        if b.watch.total ≤ a.watch.elapsed then fireP env now else .ret false

/-- A poll with the handlers `h`. -/
def pollI (env : κ → Timer w κ → Timer w κ) (h : Pt → ISt w κ → ISt w κ) (now : BitVec w) (s : ISt w κ) : Res (ISt w κ × Bool) :=
  (pollP env now).exec h s

/-- A handler that runs once, before access `p`. -/
def onceAt (p : Pt) (f : ISt w κ → ISt w κ) : Pt → ISt w κ → ISt w κ := fun q => if q = p then f else id

/-- A handler that calls `gel_timer_stop`. -/
def stopH (s : ISt w κ) : ISt w κ := ⟨stop s.timer, s.log ++ [.stop]⟩

/-- A handler that calls `gel_timer_init`. -/
def initH (period now : BitVec w) (d : Option κ) (s : ISt w κ) : ISt w κ := ⟨init period now d, s.log⟩

/-! ## Without interrupts -/

theorem quiet_check (env : κ → Timer w κ → Timer w κ) (now : BitVec w) (s : ISt w κ) :
    pollI env (fun _ => id) now s =
      if isReached s.timer.watch now then (fireP env now).exec (fun _ => id) s else .ok (s, false) := by
  obtain ⟨⟨au, ⟨st, el, tot, m⟩, cb⟩, log⟩ := s
  cases m with
  | stopped => rfl
  | paused => by_cases h : tot ≤ el <;> simp [pollI, pollP, IProg.exec, ISt.watch, isReached, h]
  | counting =>
    by_cases h : el < tot
    · cases he : isLooselyExpired st now (tot - el) <;> simp [pollI, pollP, IProg.exec, ISt.watch, isReached, h, he]
    · simp [pollI, pollP, IProg.exec, ISt.watch, isReached, h]

/-- **C198.** If no handler does anything, this is the first model. -/
theorem C198_quiet (env : κ → Timer w κ → Timer w κ) (now : BitVec w) (s : ISt w κ) :
    pollI env (fun _ => id) now s = (do
      let (t, b) ← manage env s.timer now
      pure (⟨t, s.log ++ if b then s.timer.callback.toList.map .call else []⟩, b)) := by
  rw [quiet_check]
  unfold manage
  by_cases hr : isReached s.timer.watch now
  · rw [if_pos hr, if_pos hr]
    simp only [fireP, IProg.exec, id]
    cases hc : s.timer.callback with
    | none => rfl
    | some c =>
      simp only [IProg.exec, id]
      by_cases ha : (env c s.timer).autoreload = 0#8 <;>
        simp [ha, restartP, stopP, IProg.exec, ISt.setWatch, ISt.watch, restart, start, Stopwatch.stop]
  · rw [if_neg hr, if_neg hr]
    simp

/-! ## The handler stops the timer -/

/-- The points before the check has been done. -/
def Pt.check (p : Pt) : Prop := p = .total ∨ p = .elapsed ∨ p = .total2 ∨ p = .elapsed2 ∨ p = .starting

/-- **C198.** Stopped before the poll reads the state: not called, stopped. -/
theorem C198_early (env : κ → Timer w κ → Timer w κ) (now : BitVec w) (s : ISt w κ) :
    pollI env (onceAt .mode stopH) now s = .ok (stopH s, false) := by
  simp [pollI, pollP, IProg.exec, onceAt, stopH, stop, Stopwatch.stop, ISt.watch]

theorem stopP_stopped (h : Pt → ISt w κ → ISt w κ) (s : ISt w κ) :
    ∃ s', (stopP (.ret true)).exec h s = .ok (s', true) ∧ s'.watch.mode = .stopped ∧
      s'.log = (h .clrMode (ISt.setWatch (fun x => { x with elapsed := 0 }) (h .clrElapsed
        (ISt.setWatch (fun x => { x with starting := 0 }) (h .clrStarting s))))).log := ⟨_, rfl, rfl, rfl⟩

/-- The calls recorded. -/
def callsIn (l : List (IEv κ)) : Nat := l.countP fun e => match e with
  | .call _ => true
  | .stop => false

/-- Every handler stops the timer or does nothing. -/
def OnlyStops (h : Pt → ISt w κ → ISt w κ) : Prop := ∀ p, h p = id ∨ h p = stopH

theorem OnlyStops.cases {h : Pt → ISt w κ → ISt w κ} (hs : OnlyStops h) (p : Pt) (s : ISt w κ) :
    h p s = s ∨ h p s = stopH s := by
  rcases hs p with h | h <;> rw [h]
  · exact .inl rfl
  · exact .inr rfl

theorem OnlyStops.auto {h : Pt → ISt w κ → ISt w κ} (hs : OnlyStops h) (p : Pt) (s : ISt w κ) :
    (h p s).timer.autoreload = s.timer.autoreload ∧ (h p s).timer.callback = s.timer.callback ∧
      callsIn (h p s).log = callsIn s.log := by
  rcases hs.cases p s with e | e <;> rw [e]
  · exact ⟨rfl, rfl, rfl⟩
  · exact ⟨rfl, rfl, by simp [stopH, callsIn]⟩

/-- The timer is stopped, or no handler has stopped it. -/
def Kept (s0 s : ISt w κ) : Prop := s.watch.mode = .stopped ∨ s = s0

theorem OnlyStops.kept {h : Pt → ISt w κ → ISt w κ} (hs : OnlyStops h) (p : Pt) {s0 s : ISt w κ} (hk : Kept s0 s) :
    Kept s0 (h p s) := by
  rcases hs.cases p s with e | e <;> rw [e]
  · exact hk
  · exact .inl rfl

theorem fire_stopped {env : κ → Timer w κ → Timer w κ} {h : Pt → ISt w κ → ISt w κ} (hs : OnlyStops h) (now : BitVec w)
    (henv : ∀ c t, t.autoreload = 0 → (env c t).autoreload = 0) {s : ISt w κ} {c : κ} (hc : s.timer.callback = some c)
    (ha : s.timer.autoreload = 0) :
    ∃ s', (fireP env now).exec h s = .ok (s', true) ∧ s'.watch.mode = .stopped ∧ callsIn s'.log = callsIn s.log + 1 := by
  have h1 := hs.auto .callback s
  have h2 := hs.auto .call (h .callback s)
  have h3 : (env c (h .call (h .callback s)).timer).autoreload = 0 := henv _ _ (by rw [h2.1, h1.1, ha])
  have h4 := hs.auto .autoreload ⟨env c (h .call (h .callback s)).timer, (h .call (h .callback s)).log ++ [.call c]⟩
  have hx := stopP_stopped h (h .autoreload ⟨env c (h .call (h .callback s)).timer, (h .call (h .callback s)).log ++ [.call c]⟩)
  obtain ⟨s', e, hm, hl⟩ := hx
  refine ⟨s', ?_, hm, ?_⟩
  · simp only [fireP, IProg.exec, h1.2.1, hc]
    rw [if_neg (by rw [h4.1, h3]; simp)]
    exact e
  · rw [hl, (hs.auto .clrMode _).2.2]
    show callsIn (h .clrElapsed _).log = _
    rw [(hs.auto .clrElapsed _).2.2]
    show callsIn (h .clrStarting _).log = _
    rw [(hs.auto .clrStarting _).2.2, h4.2.2, ← h1.2.2, ← h2.2.2]
    simp [callsIn]

/-- **C198.** A timer without autoreload, handlers that stop it at any points of the poll (any number of them): the
callback is called at most once, and afterwards the timer is stopped — or no handler has run and it has not been reached. -/
theorem C198_oneshot_partial {env : κ → Timer w κ → Timer w κ} {h : Pt → ISt w κ → ISt w κ} (hs : OnlyStops h)
    (now : BitVec w) (henv : ∀ c t, t.autoreload = 0 → (env c t).autoreload = 0) {s : ISt w κ} {c : κ}
    (hc : s.timer.callback = some c) (ha : s.timer.autoreload = 0) :
    ∃ s' b, pollI env h now s = .ok (s', b) ∧ callsIn s'.log = callsIn s.log + (if b then 1 else 0) ∧
      (s'.watch.mode = .stopped ∨ (b = false ∧ s' = s)) := by
  have key : ∀ x : ISt w κ, x.timer.callback = some c → x.timer.autoreload = 0 → callsIn x.log = callsIn s.log →
      ∃ s' b, (fireP env now).exec h x = .ok (s', b) ∧ callsIn s'.log = callsIn s.log + (if b then 1 else 0) ∧
        (s'.watch.mode = .stopped ∨ (b = false ∧ s' = s)) := by
    intro x h1 h2 h3
    obtain ⟨s', e, hm, hl⟩ := fire_stopped hs now henv h1 h2
    exact ⟨s', true, e, by simp [hl, h3], .inl hm⟩
  have idle : ∀ x : ISt w κ, Kept s x → callsIn x.log = callsIn s.log →
      ∃ s' b, (IProg.ret false).exec h x = .ok (s', b) ∧ callsIn s'.log = callsIn s.log + (if b then 1 else 0) ∧
        (s'.watch.mode = .stopped ∨ (b = false ∧ s' = s)) := by
    intro x hk hl
    refine ⟨x, false, rfl, by simp [hl], ?_⟩
    rcases hk with h | h
    · exact .inl h
    · exact .inr ⟨rfl, h⟩
  -- what holds after any number of handlers
  have step : ∀ p (x : ISt w κ), (x.timer.callback = some c ∧ x.timer.autoreload = 0 ∧ callsIn x.log = callsIn s.log ∧ Kept s x) →
      ((h p x).timer.callback = some c ∧ (h p x).timer.autoreload = 0 ∧ callsIn (h p x).log = callsIn s.log ∧ Kept s (h p x)) := by
    rintro p x ⟨h1, h2, h3, h4⟩
    have a := hs.auto p x
    exact ⟨a.2.1.trans h1, a.1.trans h2, a.2.2.trans h3, hs.kept p h4⟩
  have i0 := step .mode s ⟨hc, ha, rfl, .inr rfl⟩
  simp only [pollI, pollP, IProg.exec]
  split
  · exact idle _ i0.2.2.2 i0.2.2.1
  · have i1 := step .total _ i0
    have i2 := step .elapsed _ i1
    simp only [IProg.exec]
    split
    · have i3 := step .total2 _ i2
      have i4 := step .elapsed2 _ i3
      have i5 := step .starting _ i4
      simp only [IProg.exec]
      split
      · exact key _ i5.1 i5.2.1 i5.2.2.1
      · exact idle _ i5.2.2.2 i5.2.2.1
    · exact key _ i2.1 i2.2.1 i2.2.2.1
  · have i1 := step .elapsed _ i0
    have i2 := step .total _ i1
    simp only [IProg.exec]
    split
    · exact key _ i2.1 i2.2.1 i2.2.2.1
    · exact idle _ i2.2.2.2 i2.2.2.1

theorem check_quiet {env : κ → Timer w κ → Timer w κ} {now : BitVec w} {s : ISt w κ} {h : Pt → ISt w κ → ISt w κ}
    (hr : isReached s.timer.watch now = true) (hm : h .mode = id) (ht : h .total = id) (he : h .elapsed = id)
    (ht2 : h .total2 = id) (he2 : h .elapsed2 = id) (hst : h .starting = id) :
    pollI env h now s = (fireP env now).exec h s := by
  obtain ⟨⟨au, ⟨st, el, tot, m⟩, cb⟩, log⟩ := s
  cases m with
  | stopped => simp [isReached] at hr
  | paused =>
    simp only [isReached, decide_eq_true_eq] at hr
    simp [pollI, pollP, IProg.exec, ISt.watch, hm, ht, he, hr]
  | counting =>
    simp only [isReached] at hr
    by_cases h : el < tot
    · rw [if_pos h] at hr
      simp [pollI, pollP, IProg.exec, ISt.watch, hm, ht, he, ht2, he2, hst, h, hr]
    · simp [pollI, pollP, IProg.exec, ISt.watch, hm, ht, he, h]

theorem restartP_quiet {h : Pt → ISt w κ → ISt w κ} (now : BitVec w) (s : ISt w κ) (h1 : h .clrStarting = id)
    (h2 : h .clrElapsed = id) (h3 : h .clrMode = id) (h4 : h .mode2 = id) (h5 : h .setStarting = id) (h6 : h .setMode = id) :
    (restartP now).exec h s = .ok (s.setWatch fun x => fresh x.total now, true) := by
  simp [restartP, stopP, IProg.exec, ISt.setWatch, ISt.watch, h1, h2, h3, h4, h5, h6, fresh]

/-- **C198.** Stopped after the check of a timer that is due, before the call: the callback is called after
`gel_timer_stop` has returned. -/
theorem C198_call_wrong (env : κ → Timer w κ → Timer w κ) {now : BitVec w} {s : ISt w κ} {c : κ}
    (hr : isReached s.timer.watch now = true) (hc : s.timer.callback = some c) {p : Pt} (hp : p = .callback ∨ p = .call) :
    ∃ s', pollI env (onceAt p stopH) now s = .ok (s', true) ∧ s'.log = s.log ++ [.stop, .call c] := by
  rcases hp with rfl | rfl <;>
  · rw [check_quiet hr (by simp [onceAt]) (by simp [onceAt]) (by simp [onceAt]) (by simp [onceAt]) (by simp [onceAt]) (by simp [onceAt])]
    simp only [fireP, IProg.exec, onceAt, if_true, reduceCtorEq, if_false, id, stopH, stop, hc]
    split
    · refine ⟨_, restartP_quiet _ _ (by simp [onceAt]) (by simp [onceAt]) (by simp [onceAt]) (by simp [onceAt]) (by simp [onceAt])
        (by simp [onceAt]), ?_⟩
      simp [ISt.setWatch]
    · exact ⟨_, rfl, by simp [onceAt, ISt.setWatch]⟩

/-- **C198.** Stopped while the poll checks a timer started at `t0` with period `p`: if `p` ms after the clock's zero have
passed — which they have long — the callback is called after `gel_timer_stop`, even if the timer is not due. -/
theorem C198_check_wrong (env : κ → Timer w κ → Timer w κ) {now p : BitVec w} {s : ISt w κ} {c : κ}
    (hm : s.timer.watch.mode = .counting) (he : s.timer.watch.elapsed = 0) (ht : s.timer.watch.total = p) (hp : 0 < p)
    (hx : isLooselyExpired 0 now p = true) (hc : s.timer.callback = some c) {q : Pt} (hq : q.check) :
    ∃ s', pollI env (onceAt q stopH) now s = .ok (s', true) ∧ s'.log = s.log ++ [.stop, .call c] := by
  have hf : ∃ s', (fireP env now).exec (onceAt q stopH) (stopH s) = .ok (s', true) ∧ s'.log = s.log ++ [.stop, .call c] := by
    have hne : ∀ r, r = .callback ∨ r = .call ∨ r = .autoreload ∨ r = .clrStarting ∨ r = .clrElapsed ∨ r = .clrMode ∨
        r = .mode2 ∨ r = .setStarting ∨ r = .setMode → onceAt q (stopH (w := w) (κ := κ)) r = id := by
      intro r hr
      simp only [onceAt]
      rw [if_neg]
      rintro rfl
      rcases hq with h | h | h | h | h <;> simp_all
    simp only [fireP, IProg.exec, hne .callback (by simp), hne .call (by simp), hne .autoreload (by simp), id, stopH, stop, hc]
    split
    · refine ⟨_, restartP_quiet _ _ (hne _ (by simp)) (hne _ (by simp)) (hne _ (by simp)) (hne _ (by simp)) (hne _ (by simp))
        (hne _ (by simp)), ?_⟩
      simp [ISt.setWatch]
    · refine ⟨_, rfl, ?_⟩
      simp [hne .clrStarting (by simp), hne .clrElapsed (by simp), hne .clrMode (by simp), ISt.setWatch]
  obtain ⟨⟨au, ⟨st, el, tot, m⟩, cb⟩, log⟩ := s
  simp only at hm he ht hc
  subst hm; subst he; subst ht
  have h0 : (0#w) < tot := hp
  have hx' : isLooselyExpired (0#w) now tot = true := hx
  obtain ⟨s', e, hl⟩ := hf
  refine ⟨s', ?_, hl⟩
  rw [← e]
  rcases hq with rfl | rfl | rfl | rfl | rfl <;>
    simp [pollI, pollP, IProg.exec, ISt.watch, onceAt, stopH, stop, Stopwatch.stop, h0, hx']

/-- The points from which a restart overwrites everything. -/
def Pt.beforeStart (p : Pt) : Prop :=
  p = .callback ∨ p = .call ∨ p = .autoreload ∨ p = .clrStarting ∨ p = .clrElapsed ∨ p = .clrMode ∨ p = .mode2 ∨ p = .setStarting

/-- **C198.** A timer with autoreload that is due, stopped anywhere between the check and the last store but one: it
counts again after the poll, as if it had not been stopped. -/
theorem C198_lost_wrong (env : κ → Timer w κ → Timer w κ) {now : BitVec w} {s : ISt w κ} {c : κ}
    (hr : isReached s.timer.watch now = true) (hc : s.timer.callback = some c) (ha : s.timer.autoreload ≠ 0)
    (henv : ∀ t, (env c t).autoreload = t.autoreload ∧ (env c t).watch.total = t.watch.total) {p : Pt} (hp : p.beforeStart) :
    ∃ s', pollI env (onceAt p stopH) now s = .ok (s', true) ∧ IEv.stop ∈ s'.log ∧
      s'.watch = fresh s.timer.watch.total now := by
  have hq : pollI env (onceAt p stopH) now s = (fireP env now).exec (onceAt p stopH) s :=
    check_quiet hr (by rcases hp with rfl | rfl | rfl | rfl | rfl | rfl | rfl | rfl <;> rfl)
      (by rcases hp with rfl | rfl | rfl | rfl | rfl | rfl | rfl | rfl <;> rfl)
      (by rcases hp with rfl | rfl | rfl | rfl | rfl | rfl | rfl | rfl <;> rfl)
      (by rcases hp with rfl | rfl | rfl | rfl | rfl | rfl | rfl | rfl <;> rfl)
      (by rcases hp with rfl | rfl | rfl | rfl | rfl | rfl | rfl | rfl <;> rfl)
      (by rcases hp with rfl | rfl | rfl | rfl | rfl | rfl | rfl | rfl <;> rfl)
  rw [hq]
  have hA : ¬ s.timer.autoreload = 0#8 := ha
  rcases hp with rfl | rfl | rfl | rfl | rfl | rfl | rfl | rfl <;>
    simp [fireP, IProg.exec, onceAt, stopH, stop, Stopwatch.stop, hc, hA, restartP, stopP, ISt.setWatch, ISt.watch, fresh, henv]

/-- **C198.** Stopped between the last two stores: the timer counts, and from the clock's zero. -/
theorem C198_origin_wrong (env : κ → Timer w κ → Timer w κ) {now : BitVec w} {s : ISt w κ} {c : κ}
    (hr : isReached s.timer.watch now = true) (hc : s.timer.callback = some c) (ha : s.timer.autoreload ≠ 0)
    (henv : ∀ t, (env c t).autoreload = t.autoreload ∧ (env c t).watch.total = t.watch.total) :
    ∃ s', pollI env (onceAt .setMode stopH) now s = .ok (s', true) ∧ s'.watch = fresh s.timer.watch.total 0 := by
  have hq : pollI env (onceAt .setMode stopH) now s = (fireP env now).exec (onceAt .setMode stopH) s :=
    check_quiet hr rfl rfl rfl rfl rfl rfl
  rw [hq]
  have hA : ¬ s.timer.autoreload = 0#8 := ha
  simp [fireP, IProg.exec, onceAt, stopH, stop, Stopwatch.stop, hc, hA, restartP, stopP, ISt.setWatch, ISt.watch, fresh, henv]

/-! ## The handler starts the timer -/

/-- The points from which the end of a poll without autoreload overwrites everything. -/
def Pt.beforeStop (p : Pt) : Prop :=
  p = .callback ∨ p = .call ∨ p = .autoreload ∨ p = .clrStarting ∨ p = .clrElapsed ∨ p = .clrMode

/-- **C198.** A timer without autoreload that is due, and a handler that initialises it anew at any later point of the
poll: the timer is stopped afterwards, and what the handler has started never expires. -/
theorem C198_start_wrong (env : κ → Timer w κ → Timer w κ) {now : BitVec w} {s : ISt w κ} {c d : κ}
    (hr : isReached s.timer.watch now = true) (hc : s.timer.callback = some c) (ha : s.timer.autoreload = 0)
    (henv : ∀ x t, (env x t).autoreload = t.autoreload) {p : Pt} (hp : p.beforeStop) (period t1 : BitVec w) :
    ∃ s', pollI env (onceAt p (initH period t1 (some d))) now s = .ok (s', true) ∧ s'.watch.mode = .stopped := by
  have hq : pollI env (onceAt p (initH period t1 (some d))) now s = (fireP env now).exec (onceAt p (initH period t1 (some d))) s :=
    check_quiet hr (by rcases hp with rfl | rfl | rfl | rfl | rfl | rfl <;> rfl)
      (by rcases hp with rfl | rfl | rfl | rfl | rfl | rfl <;> rfl)
      (by rcases hp with rfl | rfl | rfl | rfl | rfl | rfl <;> rfl)
      (by rcases hp with rfl | rfl | rfl | rfl | rfl | rfl <;> rfl)
      (by rcases hp with rfl | rfl | rfl | rfl | rfl | rfl <;> rfl)
      (by rcases hp with rfl | rfl | rfl | rfl | rfl | rfl <;> rfl)
  rw [hq]
  rcases hp with rfl | rfl | rfl | rfl | rfl | rfl <;>
    simp [fireP, IProg.exec, onceAt, initH, init, hc, henv, ha, stopP, ISt.setWatch, ISt.watch]

/-! ## Examples: a timer of 100 ms, started at 1000 -/

/-- No callback changes its timer. -/
def noEnv : Nat → Timer 32 Nat → Timer 32 Nat := fun _ t => t

def exT (auto : BitVec 8) : ISt 32 Nat := ⟨⟨auto, fresh 100 1000, some 7⟩, []⟩

-- polled at 1100 without interrupts: called, stopped
example : pollI noEnv (fun _ => id) 1100 (exT 0) = .ok (⟨⟨0, atRest 100, some 7⟩, [.call 7]⟩, true) := by decide
-- polled at 1050, well before it is due, and stopped by a handler in the middle of the check: called
example : pollI noEnv (onceAt .starting stopH) 1050 (exT 0) = .ok (⟨⟨0, atRest 100, some 7⟩, [.stop, .call 7]⟩, true) := by decide
-- with autoreload it also counts again
example : pollI noEnv (onceAt .total stopH) 1050 (exT 1) =
    .ok (⟨⟨1, fresh 100 1050, some 7⟩, [.stop, .call 7]⟩, true) := by decide
-- stopped between the last two stores: due at once
example : pollI noEnv (onceAt .setMode stopH) 1100 (exT 1) =
    .ok (⟨⟨1, fresh 100 0, some 7⟩, [.call 7, .stop]⟩, true) ∧ isReached (fresh (100 : BitVec 32) 0) 1101 = true := by decide
-- a handler sets the timer up for 250 ms from 1100 on, while the poll stores that it is stopped
example : pollI noEnv (onceAt .clrMode (initH 250 1100 (some 8))) 1100 (exT 0) =
    .ok (⟨⟨0, ⟨1100, 0, 250, .stopped⟩, some 8⟩, [.call 7]⟩, true) := by decide
-- two handlers stop a timer without autoreload: one call
example : pollI noEnv (fun p => if p = .call ∨ p = .clrMode then stopH else id) 1100 (exT 0) =
    .ok (⟨⟨0, atRest 100, some 7⟩, [.stop, .call 7, .stop]⟩, true) := by decide

end Gel.Timer
