import Verif.Time.StopwatchIsr

/-!
# Stopwatch: calls that an interrupt handler interrupts to make another call (C213, C214)

The functions of gel/timer/stopwatch.c as sequences of accesses to the members, with an interrupt handler before each access that
runs to its end: it does `H n` before the access number `n`. A member is loaded or stored in one access. The members are not
`volatile`; every access of the source is one of the program, in the order of the source.
-/
namespace Gel.Stopwatch

open Time

variable {w : Nat} {α : Type}

/-- The members that are numbers. -/
inductive Field where
  | starting | elapsed | total

/-- A function as a sequence of accesses. -/
inductive Prog (w : Nat) (α : Type) where
  | ret (a : α)
  | mode (k : Mode → Prog w α)
  | ld (f : Field) (k : BitVec w → Prog w α)
  | st (x : Store w) (k : Prog w α)

/-- What a load yields. -/
def Field.get (s : Watch w) : Field → BitVec w
  | .starting => s.starting
  | .elapsed => s.elapsed
  | .total => s.total

/-- A call, with the handler before each access: what it returns and the stopwatch. -/
def Prog.exec (H : Nat → Watch w → Watch w) : Nat → Prog w α → Watch w → α × Watch w
  | _, .ret a, s => (a, s)
  | n, .mode k, s => (k (H n s).mode).exec H (n + 1) (H n s)
  | n, .ld f k, s => (k (f.get (H n s))).exec H (n + 1) (H n s)
  | n, .st x k, s => k.exec H (n + 1) (x.apply (H n s))

/-- A handler that interrupts once, before the access number `k`. -/
def onceAt (k : Nat) (f : Watch w → Watch w) (n : Nat) (s : Watch w) : Watch w := if n = k then f s else s

/-- `stopwatch_get_elapsed`, stopwatch.c:107-112. The order of the two loads in line 109 is not specified; `first` says that
`elapsed_time` is loaded first. `time_interval` is a function, so `starting_time` is loaded once. -/
def elapsedP (first : Bool) (now : BitVec w) (k : BitVec w → Prog w α) : Prog w α :=
  .mode fun m =>
    if m = .counting then
      if first then .ld .elapsed fun e => .ld .starting fun b => k (e + timeInterval b now)
      else .ld .starting fun b => .ld .elapsed fun e => k (e + timeInterval b now)
    else .ld .elapsed k

/-- `stopwatch_get_remaining`, stopwatch.c:125-128: `total_time` is loaded for the comparison and again for the difference. -/
def remainingP (first : Bool) (now : BitVec w) (k : BitVec w → Prog w α) : Prog w α :=
  elapsedP first now fun e => .ld .total fun t => bif e.ult t then .ld .total fun t => k (t - e) else k 0

/-- Both times in lines 144, 145 and 153 of `stopwatch_is_timer_reached`; the order of the loads is not specified. -/
def bothP (first : Bool) (k : BitVec w → BitVec w → Prog w α) : Prog w α :=
  if first then .ld .elapsed fun e => .ld .total fun t => k e t else .ld .total fun t => .ld .elapsed fun e => k e t

/-- `stopwatch_is_timer_reached`, stopwatch.c:138-156: both times are loaded for the comparison and again for the difference. -/
def reachedP (first : Bool) (now : BitVec w) (k : Bool → Prog w α) : Prog w α :=
  .mode fun m =>
    match m with
    | .stopped => k false
    | .counting => bothP first fun e t =>
        bif e.ult t then bothP first fun e t => .ld .starting fun b => k (isLooselyExpired b now (t - e)) else k true
    | .paused => bothP first fun e t => k (t.ule e)

/-- The queries; `stopwatch_get_state` and `stopwatch_get_total_time` are stopwatch.c:101-103 and 132-134. -/
def Query.prog (first : Bool) (now : BitVec w) : Query → Prog w (Mode ⊕ BitVec w ⊕ Bool)
  | .state => .mode fun m => .ret (.inl m)
  | .total => .ld .total fun t => .ret (.inr (.inl t))
  | .elapsed => elapsedP first now fun e => .ret (.inr (.inl e))
  | .remaining => remainingP first now fun e => .ret (.inr (.inl e))
  | .reached => reachedP first now fun b => .ret (.inr (.inr b))

/-- What a query returns if a handler does `f` before the access number `k`. -/
def Query.mid (first : Bool) (q : Query) (s : Watch w) (now : BitVec w) (k : Nat) (f : Watch w → Watch w) :
    Mode ⊕ BitVec w ⊕ Bool := ((q.prog first now).exec (onceAt k f) 0 s).1

theorem exec_cond (H : Nat → Watch w → Watch w) (n : Nat) (c : Bool) (a b : Prog w α) (s : Watch w) :
    (bif c then a else b).exec H n s = bif c then a.exec H n s else b.exec H n s := by cases c <;> rfl

theorem ask_remaining (s : Watch w) (now : BitVec w) :
    getRemaining s now = bif (getElapsed s now).ult s.total then s.total - getElapsed s now else 0 := by
  rw [getRemaining, BitVec.ult_eq_decide, Bool.cond_decide]
  rfl

theorem ask_reached (s : Watch w) (now : BitVec w) :
    isReached s now = match s.mode with
      | .stopped => false
      | .counting => bif s.elapsed.ult s.total then isLooselyExpired s.starting now (s.total - s.elapsed) else true
      | .paused => s.total.ule s.elapsed := by
  rw [isReached]
  cases s.mode
  · rfl
  · simp only [BitVec.ult_eq_decide, Bool.cond_decide]; rfl
  · rfl

/-- **C213**: without a handler a query returns what the first model says. -/
theorem C213_quiet (first : Bool) (q : Query) (s : Watch w) (now : BitVec w) :
    (q.prog first now).exec (fun _ s => s) 0 s = (q.ask s now, s) := by
  obtain ⟨a, b, c, m⟩ := s
  cases q <;> cases m <;> cases first <;>
    simp only [Query.prog, elapsedP, remainingP, reachedP, bothP, Prog.exec, Query.ask, getElapsed, ask_remaining, ask_reached,
      Field.get, exec_cond, if_true, if_false, reduceCtorEq, Bool.false_eq_true] <;>
    cases BitVec.ult _ _ <;> rfl

/-- Splits on the comparisons. -/
macro "mid_tac" : tactic => `(tactic| (
  simp only [Query.mid, Query.prog, elapsedP, remainingP, reachedP, bothP, Prog.exec, Query.ask, getElapsed, ask_remaining,
    ask_reached, Field.get, exec_cond, if_true, if_false, reduceCtorEq, Bool.false_eq_true, onceAt, Nat.reduceAdd, Nat.reduceEqDiff,
    Nat.zero_add, Op.exec, start, pause, Stopwatch.set, Stopwatch.setElapsed, restart, stop, ne_eq, not_true_eq_false,
    not_false_eq_true, OfNat.ofNat_ne_zero, OfNat.zero_ne_ofNat, one_ne_zero, zero_ne_one, OfNat.ofNat_ne_one, OfNat.one_ne_ofNat]
  first | done | rfl | (cases BitVec.ult _ _ <;> rfl)))

/-- A handler that does nothing from now on. -/
theorem exec_idle (H : Nat → Watch w → Watch w) (p : Prog w α) : ∀ (n m : Nat) (s : Watch w), (∀ i, n ≤ i → ∀ s, H i s = s) →
    p.exec H n s = p.exec (fun _ s => s) m s := by
  induction p with
  | ret a => intros; rfl
  | mode k ih =>
    intro n m s h
    simp only [Prog.exec, h n le_rfl]
    exact ih _ _ _ _ fun i hi => h i (by omega)
  | ld f k ih =>
    intro n m s h
    simp only [Prog.exec, h n le_rfl]
    exact ih _ _ _ _ fun i hi => h i (by omega)
  | st x k ih =>
    intro n m s h
    simp only [Prog.exec, h n le_rfl]
    exact ih _ _ _ fun i hi => h i (by omega)

theorem onceAt_idle {k n : Nat} {f : Watch w → Watch w} (h : k < n) : ∀ i, n ≤ i → ∀ s, onceAt k f i s = s := by
  intro i hi s
  rw [onceAt, if_neg (by omega)]

/-- Interrupted before its first access, a query answers for the stopwatch that the handler leaves. -/
theorem mid_zero (first : Bool) (q : Query) (s : Watch w) (now : BitVec w) (f : Watch w → Watch w) :
    q.mid first s now 0 f = q.ask (f s) now := by
  have h := congrArg Prod.fst (C213_quiet first q (f s) now)
  simp only at h
  rw [← h, Query.mid]
  cases q <;> simp only [Query.prog, elapsedP, remainingP, reachedP, Prog.exec, onceAt, if_true] <;>
    exact congrArg Prod.fst (exec_idle _ _ _ _ _ (onceAt_idle (by omega)))

/-- No query has more than six accesses. -/
theorem mid_late {first : Bool} (q : Query) (s : Watch w) (now : BitVec w) {k : Nat} (hk : 6 ≤ k) {f : Watch w → Watch w} :
    q.mid first s now k f = q.ask s now := by
  have hn : ∀ n < 6, onceAt k f n = fun s => s := by
    intro n hn
    funext s
    rw [onceAt, if_neg (by omega)]
  have h := congrArg Prod.fst (C213_quiet first q s now)
  simp only at h
  rw [← h, Query.mid]
  cases q <;> cases hm : s.mode <;> cases first <;>
    simp only [Query.prog, elapsedP, remainingP, reachedP, bothP, Prog.exec, exec_cond, hm, if_true, if_false, reduceCtorEq,
      Bool.false_eq_true, Nat.zero_add, Nat.reduceAdd, hn 0 (by decide), hn 1 (by decide), hn 2 (by decide), hn 3 (by decide),
      hn 4 (by decide), hn 5 (by decide)]

/-- The calls that a handler can make in the midst of a query: `stopwatch_start` and `stopwatch_set_elapsed` always;
`stopwatch_pause` and `stopwatch_stop`, if the stopwatch is not counting; `stopwatch_set`, if the stopwatch is not stopped or has no
more time elapsed than the new period; and `stopwatch_restart`, if no time was elapsed before the current run. -/
def Op.Calm (s : Watch w) : Op w → Prop
  | .start | .setElapsed _ => True
  | .pause | .stop => s.mode ≠ .counting
  | .set p => s.mode = .stopped → s.elapsed ≤ p
  | .restart => s.elapsed = 0
  | .init | .change _ | .setngo _ => False

theorem mid_set {a b c p now t : BitVec w} (first : Bool) (h : b ≤ p) :
    Query.remaining.mid first ⟨a, b, c, .stopped⟩ now 3 ((Op.set p).exec · t) = Query.remaining.ask ⟨a, b, c, .stopped⟩ now ∨
    Query.remaining.mid first ⟨a, b, c, .stopped⟩ now 3 ((Op.set p).exec · t) =
      Query.remaining.ask ((Op.set p).exec ⟨a, b, c, .stopped⟩ t) now := by
  simp only [Query.mid, Query.prog, elapsedP, remainingP, Prog.exec, Query.ask, getElapsed, ask_remaining, Field.get, exec_cond,
    if_false, reduceCtorEq, onceAt, Nat.reduceAdd, Nat.reduceEqDiff, Nat.zero_add, Op.exec, Stopwatch.set, ne_eq,
    not_true_eq_false, OfNat.zero_ne_ofNat, OfNat.one_ne_ofNat, if_true]
  cases b.ult c
  · exact Or.inl rfl
  · right
    rcases hp : b.ult p with _ | _
    · have he : b = p := by
        rw [BitVec.ult_eq_decide, decide_eq_false_iff_not] at hp
        rw [BitVec.le_def] at h
        exact BitVec.eq_of_toNat_eq (by omega)
      subst he
      simp
    · rfl

theorem mid_stop {a b c now t : BitVec w} (first : Bool) (k : Nat) :
    Query.reached.mid first ⟨a, b, c, .paused⟩ now (k + 1) (Op.stop.exec · t) = Query.reached.ask ⟨a, b, c, .paused⟩ now ∨
    Query.reached.mid first ⟨a, b, c, .paused⟩ now (k + 1) (Op.stop.exec · t) =
      Query.reached.ask (Op.stop.exec ⟨a, b, c, .paused⟩ t) now := by
  by_cases hc : c = 0#w
  · left
    subst hc
    rcases k with _ | _ | k <;> cases first <;>
      simp [Query.mid, Query.prog, reachedP, bothP, Prog.exec, Query.ask, ask_reached, Field.get, onceAt, Op.exec, stop, BitVec.ule]
  · have h0 : c.ule 0#w = false := by
      have : c.toNat ≠ 0 := fun h => hc (BitVec.eq_of_toNat_eq (by simpa using h))
      simp [BitVec.ule, this]
    rcases k with _ | _ | k <;> cases first
    all_goals
      first
      | (right
         simp [Query.mid, Query.prog, reachedP, bothP, Prog.exec, Query.ask, ask_reached, Field.get, onceAt, Op.exec, stop, h0]; done)
      | (left; simp [Query.mid, Query.prog, reachedP, bothP, Prog.exec, Query.ask, ask_reached, Field.get, onceAt, Op.exec, stop])

theorem calm_start {a b c now t : BitVec w} {k : Nat} (first : Bool) (q : Query) {m : Mode}
    (hc : k = 1 ∨ k = 2 ∨ k = 3 ∨ k = 4 ∨ k = 5) :
    q.mid first ⟨a, b, c, m⟩ now k (Op.start.exec · t) = q.ask ⟨a, b, c, m⟩ now ∨
    q.mid first ⟨a, b, c, m⟩ now k (Op.start.exec · t) = q.ask (Op.start.exec ⟨a, b, c, m⟩ t) now := by
  left
  rcases hc with rfl | rfl | rfl | rfl | rfl <;> cases m <;> cases q <;> cases first <;> mid_tac


theorem calm_pause {a b c now t : BitVec w} {k : Nat} (first : Bool) (q : Query) {m : Mode} (h : m ≠ .counting)
    (hc : k = 1 ∨ k = 2 ∨ k = 3 ∨ k = 4 ∨ k = 5) :
    q.mid first ⟨a, b, c, m⟩ now k (Op.pause.exec · t) = q.ask ⟨a, b, c, m⟩ now ∨
    q.mid first ⟨a, b, c, m⟩ now k (Op.pause.exec · t) = q.ask (Op.pause.exec ⟨a, b, c, m⟩ t) now := by
  left
  cases m with
  | counting => exact absurd rfl h
  | stopped | paused => rcases hc with rfl | rfl | rfl | rfl | rfl <;> cases q <;> cases first <;> mid_tac


theorem calm_stop {a b c now t : BitVec w} {k : Nat} (first : Bool) (q : Query) {m : Mode} (h : m ≠ .counting)
    (hc : k = 1 ∨ k = 2 ∨ k = 3 ∨ k = 4 ∨ k = 5) :
    q.mid first ⟨a, b, c, m⟩ now k (Op.stop.exec · t) = q.ask ⟨a, b, c, m⟩ now ∨
    q.mid first ⟨a, b, c, m⟩ now k (Op.stop.exec · t) = q.ask (Op.stop.exec ⟨a, b, c, m⟩ t) now := by
  cases m with
  | counting => exact absurd rfl h
  | stopped => rcases hc with rfl | rfl | rfl | rfl | rfl <;> cases q <;> cases first <;> first | (left; mid_tac) | (right; mid_tac)
  | paused =>
    cases q with
    | reached => obtain ⟨j, rfl⟩ : ∃ j, k = j + 1 := ⟨k - 1, by omega⟩; exact mid_stop ..
    | _ => rcases hc with rfl | rfl | rfl | rfl | rfl <;> cases first <;> first | (left; mid_tac) | (right; mid_tac)


theorem calm_set {a b c now t : BitVec w} {k : Nat} (first : Bool) (q : Query) {p : BitVec w} {m : Mode} (h : m = .stopped → b ≤ p)
    (hc : k = 1 ∨ k = 2 ∨ k = 3 ∨ k = 4 ∨ k = 5) :
    q.mid first ⟨a, b, c, m⟩ now k ((Op.set p).exec · t) = q.ask ⟨a, b, c, m⟩ now ∨
    q.mid first ⟨a, b, c, m⟩ now k ((Op.set p).exec · t) = q.ask ((Op.set p).exec ⟨a, b, c, m⟩ t) now := by
  rcases hc with rfl | rfl | rfl | rfl | rfl <;> cases m <;> cases q <;> cases first <;>
    first | (left; mid_tac) | (right; mid_tac) | exact mid_set _ (h rfl)


theorem calm_setElapsed {a b c now t : BitVec w} {k : Nat} (first : Bool) (q : Query) {e : BitVec w} {m : Mode}
    (hc : k = 1 ∨ k = 2 ∨ k = 3 ∨ k = 4 ∨ k = 5) :
    q.mid first ⟨a, b, c, m⟩ now k ((Op.setElapsed e).exec · t) = q.ask ⟨a, b, c, m⟩ now ∨
    q.mid first ⟨a, b, c, m⟩ now k ((Op.setElapsed e).exec · t) = q.ask ((Op.setElapsed e).exec ⟨a, b, c, m⟩ t) now := by
  rcases hc with rfl | rfl | rfl | rfl | rfl <;> cases m <;> cases q <;> cases first <;>
    first | (left; mid_tac) | (right; mid_tac)


theorem calm_restart {a b c now t : BitVec w} {k : Nat} (first : Bool) (q : Query) {m : Mode} (h : b = 0)
    (hc : k = 1 ∨ k = 2 ∨ k = 3 ∨ k = 4 ∨ k = 5) :
    q.mid first ⟨a, b, c, m⟩ now k (Op.restart.exec · t) = q.ask ⟨a, b, c, m⟩ now ∨
    q.mid first ⟨a, b, c, m⟩ now k (Op.restart.exec · t) = q.ask (Op.restart.exec ⟨a, b, c, m⟩ t) now := by
  subst h
  rcases hc with rfl | rfl | rfl | rfl | rfl <;> cases m <;> cases q <;> cases first <;>
    first | (left; mid_tac) | (right; mid_tac)


/-- **C213**, proved part: a query in the midst of which a handler makes one of these calls, before any access, returns what it
returns before or after that call. Missing: the others; it is false for `stopwatch_pause`, `stopwatch_stop`, `stopwatch_change` and
`stopwatch_set`, see below. -/
theorem C213_calm_partial (first : Bool) (q : Query) (s : Watch w) (now t : BitVec w) (o : Op w) (h : o.Calm s) (k : Nat) :
    q.mid first s now k (o.exec · t) = q.ask s now ∨ q.mid first s now k (o.exec · t) = q.ask (o.exec s t) now := by
  by_cases hk : 6 ≤ k
  · exact Or.inl (mid_late q s now hk)
  by_cases h0 : k = 0
  · subst h0; exact Or.inr (mid_zero ..)
  obtain ⟨a, b, c, m⟩ := s
  have hc : k = 1 ∨ k = 2 ∨ k = 3 ∨ k = 4 ∨ k = 5 := by omega
  cases o with
  | init | change | setngo => exact absurd h id
  | start => exact calm_start first q hc
  | pause => exact calm_pause first q h hc
  | stop => exact calm_stop first q h hc
  | set p => exact calm_set first q h hc
  | setElapsed e => exact calm_setElapsed first q hc
  | restart => exact calm_restart first q h hc

/-! ## Where it fails -/

/-- **C213**, where it fails: a counting stopwatch, paused at `t` by a handler after `stopwatch_get_elapsed` has loaded the state.
The current run counts twice: it is in the elapsed time that the pause has stored, and the query adds it again. -/
theorem C213_pause_wrong (first : Bool) (s : Watch w) (now t : BitVec w) (hm : s.mode = .counting) :
    Query.elapsed.mid first s now 1 (Op.pause.exec · t) =
      .inr (.inl (s.elapsed + timeInterval s.starting t + timeInterval s.starting now)) ∧
    getElapsed s now = s.elapsed + timeInterval s.starting now ∧
    getElapsed (Op.pause.exec s t) now = s.elapsed + timeInterval s.starting t := by
  obtain ⟨a, b, c, m⟩ := s
  simp only at hm
  subst hm
  refine ⟨?_, rfl, rfl⟩
  cases first <;> mid_tac

/-- **C213**, where it fails: a stopwatch that counts a period `p` since `t0`, stopped by a handler after the query has loaded the
state. The query counts from the time 0: `stopwatch_get_elapsed` returns the time of the clock, and `stopwatch_is_timer_reached`
finds the period reached, though it is not reached before or after the call of the handler. -/
theorem C213_stop_wrong (hw : 0 < w) (first : Bool) (s : Watch w) (t0 p now : Nat) (hm : s.mode = .counting)
    (hs : s.starting = BitVec.ofNat w t0) (he : s.elapsed = 0) (ht : s.total.toNat = p) (hp : p < 2 ^ (w - 1)) (h0 : 0 < p)
    (h1 : t0 ≤ now) (h2 : now < t0 + p) (h3 : p ≤ now) (h4 : now ≤ p + 2 ^ (w - 1)) :
    Query.elapsed.mid first s (BitVec.ofNat w now) 1 (Op.stop.exec · 0) = .inr (.inl (timeInterval 0 (BitVec.ofNat w now))) ∧
    isReached s (BitVec.ofNat w now) = false ∧
    Query.reached.mid first s (BitVec.ofNat w now) 1 (Op.stop.exec · 0) = .inr (.inr true) ∧
    isReached (Op.stop.exec s 0) (BitVec.ofNat w now) = false := by
  obtain ⟨k1, k2, k3⟩ := C167_reached_wrong hw s t0 p now hm hs he ht hp h1 h2 h3 h4 .stop (Or.inl rfl)
  obtain ⟨a, b, c, m⟩ := s
  simp only at hm he ht
  subst hm he
  refine ⟨?_, k1, ?_, rfl⟩
  · cases first <;> simp [Query.mid, Query.prog, elapsedP, Prog.exec, Field.get, onceAt, Op.exec, stop]
  · have hc : BitVec.ult (0 : BitVec w) c = true := by
      rw [BitVec.ult_eq_decide, decide_eq_true_eq]
      simpa [ht] using h0
    have hx : Op.stop.seen (⟨a, 0, c, .counting⟩ : Watch w) (BitVec.ofNat w now) 1 = ⟨0, 0, c, .counting⟩ := rfl
    rw [hx, ask_reached] at k2
    simp only [hc, cond_true] at k2
    cases first <;>
      simp only [Query.mid, Query.prog, reachedP, bothP, Prog.exec, Field.get, onceAt, Op.exec, stop, exec_cond, if_true, if_false,
        Bool.false_eq_true, zero_ne_one, Nat.zero_add, Nat.reduceAdd, OfNat.ofNat_ne_one, hc, cond_true, k2]

/-- **C213**, where it fails: `stopwatch_get_remaining` loads the period for the comparison and again for the difference. If a
handler changes it in between to less than the time elapsed, the difference is negative and wraps around; the result is more than
what it returns before and after the call of the handler. -/
theorem C213_change_wrong (first : Bool) (s : Watch w) (now t p : BitVec w) (hm : s.mode = .counting)
    (h1 : getElapsed s now < s.total) (h2 : p < getElapsed s now) :
    ∃ r, Query.remaining.mid first s now 4 ((Op.change p).exec · t) = .inr (.inl r) ∧
      r.toNat = 2 ^ w - ((getElapsed s now).toNat - p.toNat) ∧ getRemaining s now < r ∧
      getRemaining ((Op.change p).exec s t) now < r := by
  have hr : (p - getElapsed s now).toNat = 2 ^ w - ((getElapsed s now).toNat - p.toNat) := by
    have := p.isLt
    have := (getElapsed s now).isLt
    rw [BitVec.lt_def] at h2
    rw [BitVec.toNat_sub, show 2 ^ w - (getElapsed s now).toNat + p.toNat = 2 ^ w - ((getElapsed s now).toNat - p.toNat) by omega,
      Nat.mod_eq_of_lt (by omega)]
  have hl : ∀ x : BitVec w, (x.toNat ≤ p.toNat ∨ x.toNat + (getElapsed s now).toNat = s.total.toNat) →
      x < p - getElapsed s now := by
    intro x hx
    have := s.total.isLt
    rw [BitVec.lt_def] at h1 h2 ⊢
    rw [hr]
    omega
  refine ⟨p - getElapsed s now, ?_, hr, hl _ (Or.inr ?_), hl _ (Or.inl ?_)⟩
  · have hc : (getElapsed s now).ult s.total = true := by rw [BitVec.ult_eq_decide, decide_eq_true_eq]; exact h1
    obtain ⟨a, b, c, m⟩ := s
    simp only at hm
    subst hm
    simp only [getElapsed, if_true] at hc
    cases first <;>
      simp only [Query.mid, Query.prog, elapsedP, remainingP, Prog.exec, Field.get, onceAt, exec_cond, if_true, if_false,
        Bool.false_eq_true, Nat.zero_add, Nat.reduceAdd, Nat.reduceEqDiff, OfNat.zero_ne_ofNat, OfNat.one_ne_ofNat, hc, cond_true,
        getElapsed, Op.exec, change, restart, start, stop]
  · rw [getRemaining, if_pos h1, BitVec.toNat_sub_of_le (BitVec.le_of_lt h1)]
    rw [BitVec.lt_def] at h1
    omega
  · have ht : ((Op.change p).exec s t).total = p := rfl
    rw [getRemaining, ht]
    split
    · next h => rw [BitVec.toNat_sub_of_le (BitVec.le_of_lt h)]; omega
    · simp

/-- **C213**, where it fails: the same with `stopwatch_set` on a stopwatch that is stopped and has a preset time elapsed. -/
theorem C213_set_wrong (first : Bool) (s : Watch w) (now t p : BitVec w) (hm : s.mode = .stopped)
    (h1 : s.elapsed < s.total) (h2 : p < s.elapsed) :
    ∃ r, Query.remaining.mid first s now 3 ((Op.set p).exec · t) = .inr (.inl r) ∧
      r.toNat = 2 ^ w - (s.elapsed.toNat - p.toNat) ∧ getRemaining ((Op.set p).exec s t) now = 0 := by
  have hc : s.elapsed.ult s.total = true := by rw [BitVec.ult_eq_decide, decide_eq_true_eq]; exact h1
  obtain ⟨a, b, c, m⟩ := s
  simp only at hm
  subst hm
  simp only at hc h1 h2
  refine ⟨p - b, ?_, ?_, ?_⟩
  · cases first <;>
      simp only [Query.mid, Query.prog, elapsedP, remainingP, Prog.exec, Field.get, onceAt, exec_cond, if_true, if_false,
        Nat.zero_add, Nat.reduceAdd, OfNat.zero_ne_ofNat, OfNat.one_ne_ofNat, hc, cond_true, reduceCtorEq, Op.exec,
        Stopwatch.set, Nat.reduceEqDiff, ne_eq, not_true_eq_false]
  · have := p.isLt
    have := b.isLt
    rw [BitVec.lt_def] at h2
    rw [BitVec.toNat_sub, show 2 ^ w - b.toNat + p.toNat = 2 ^ w - (b.toNat - p.toNat) by omega, Nat.mod_eq_of_lt (by omega)]
  · have : ¬ b < p := by rw [BitVec.lt_def] at h2 ⊢; omega
    simp [getRemaining, getElapsed, Op.exec, Stopwatch.set, this]

/-- **C213**, proved part: `stopwatch_is_timer_reached` loads both times again for the difference, so that it answers for the new period
and the new run if a handler changes the stopwatch after the comparison. -/
theorem C213_again_partial (first : Bool) (s : Watch w) (now t p : BitVec w) (hm : s.mode = .counting) (h1 : s.elapsed < s.total)
    (h2 : 0 < p) : Query.reached.mid first s now 3 ((Op.change p).exec · t) = Query.reached.ask ((Op.change p).exec s t) now := by
  have hc : s.elapsed.ult s.total = true := by rw [BitVec.ult_eq_decide, decide_eq_true_eq]; exact h1
  have hp : (0 : BitVec w).ult p = true := by rw [BitVec.ult_eq_decide, decide_eq_true_eq]; exact h2
  obtain ⟨a, b, c, m⟩ := s
  simp only at hm
  subst hm
  simp only at hc
  cases first <;>
    simp only [Query.mid, Query.prog, reachedP, bothP, Prog.exec, Field.get, onceAt, exec_cond, if_true, if_false, Bool.false_eq_true,
      Nat.zero_add, Nat.reduceAdd, Nat.reduceEqDiff, OfNat.zero_ne_ofNat, OfNat.one_ne_ofNat, hc, hp, cond_true,
      Query.ask, ask_reached, Op.exec, change, restart, start, stop]

/-- A stopwatch of 16 bits that counts a period of 100 since 1000, asked at 1050: paused in the midst, 100 have elapsed, not 50;
stopped, it is reached; changed to a period of 20, 65506 remain. Restarted at 1050 it is as before or after. -/
example : let s : Watch 16 := ⟨1000, 0, 100, .counting⟩
    Query.elapsed.mid true s 1050 1 (Op.pause.exec · 1050) = .inr (.inl 100) ∧
    Query.reached.mid true s 1050 1 (Op.stop.exec · 1050) = .inr (.inr true) ∧
    Query.remaining.mid true s 1050 4 ((Op.change 20).exec · 1050) = .inr (.inl 65506) ∧
    Query.reached.mid true s 1050 3 ((Op.change 20).exec · 1020) = .inr (.inr true) ∧
    Op.restart.Calm s ∧
    [0, 1, 2, 3, 4].map (fun k => Query.elapsed.mid true s 1050 k (Op.restart.exec · 1050)) =
      [0, 0, 0, 50, 50].map fun x => .inr (.inl x) := ⟨by decide, by decide, by decide, by decide, rfl, by decide⟩

end Gel.Stopwatch
