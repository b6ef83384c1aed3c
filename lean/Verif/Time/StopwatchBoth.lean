import Verif.Time.StopwatchMid

/-!
# Stopwatch: operations that an interrupt handler interrupts with another one (C214)

The functions of gel/timer/stopwatch.c that change the stopwatch, as sequences of accesses to the members (see
`Verif/Time/StopwatchMid.lean`). What the calls return is left out.
-/
namespace Gel.Stopwatch

open Time

variable {w : Nat} {α : Type}

/-- `stopwatch_start`, stopwatch.c:36-49. -/
def startP (now : BitVec w) (k : Prog w α) : Prog w α :=
  .mode fun m =>
    match m with
    | .stopped | .paused => .st (.starting now) (.st (.mode .counting) k)
    | .counting => k

/-- `stopwatch_stop`, stopwatch.c:53-58. -/
def stopP (k : Prog w α) : Prog w α := .st (.starting 0) (.st (.elapsed 0) (.st (.mode .stopped) k))

/-- `stopwatch_pause`, stopwatch.c:62-73. The order of the two loads in line 66 is not specified; `first` says that
`elapsed_time` is loaded first. -/
def pauseP (first : Bool) (now : BitVec w) (k : Prog w α) : Prog w α :=
  .mode fun m =>
    match m with
    | .counting => .st (.mode .paused) (
        if first then .ld .elapsed fun e => .ld .starting fun b => .st (.elapsed (e + timeInterval b now)) k
        else .ld .starting fun b => .ld .elapsed fun e => .st (.elapsed (e + timeInterval b now)) k)
    | .stopped | .paused => k

/-- `stopwatch_set`, stopwatch.c:91-97. -/
def setP (p : BitVec w) (k : Prog w α) : Prog w α :=
  .mode fun m =>
    match m with
    | .stopped => .st (.total p) k
    | .counting | .paused => k

/-- `stopwatch_set_elapsed`, stopwatch.c:115-122. -/
def setElapsedP (e : BitVec w) (k : Prog w α) : Prog w α :=
  .mode fun m =>
    match m with
    | .stopped => .st (.elapsed e) k
    | .counting | .paused => k

/-- The operations; `stopwatch_init` is stopwatch.c:27-32, `stopwatch_restart` and `stopwatch_change` are stopwatch.c:77-87 and
`stopwatch_setngo` is stopwatch.h:23. -/
def Op.prog (first : Bool) (now : BitVec w) : Op w → Prog w Unit
  | .init => .st (.starting 0) (.st (.total 0) (.st (.elapsed 0) (.st (.mode .stopped) (.ret ()))))
  | .start => startP now (.ret ())
  | .stop => stopP (.ret ())
  | .pause => pauseP first now (.ret ())
  | .restart => stopP (startP now (.ret ()))
  | .change p => .st (.total p) (stopP (startP now (.ret ())))
  | .set p => setP p (.ret ())
  | .setElapsed e => setElapsedP e (.ret ())
  | .setngo p => setP p (startP now (.ret ()))

/-- The stopwatch after an operation, if a handler does `f` before the access number `k`. -/
def Op.mid (first : Bool) (o : Op w) (s : Watch w) (now : BitVec w) (k : Nat) (f : Watch w → Watch w) : Watch w :=
  ((o.prog first now).exec (onceAt k f) 0 s).2

/-- **C214**: without a handler an operation does what the first model says. -/
theorem C214_quiet (first : Bool) (o : Op w) (s : Watch w) (now : BitVec w) :
    ((o.prog first now).exec (fun _ s => s) 0 s).2 = o.exec s now := by
  obtain ⟨a, b, c, m⟩ := s
  cases o <;> cases m <;> cases first <;> rfl

/-- Stopwatches that no query can tell apart: the starting time matters only while they count. -/
def Same (a b : Watch w) : Prop :=
  a.mode = b.mode ∧ a.elapsed = b.elapsed ∧ a.total = b.total ∧ (a.mode = .counting → a.starting = b.starting)

/-- They answer alike. -/
theorem Same.ask {a b : Watch w} (h : Same a b) (q : Query) (now : BitVec w) : q.ask a now = q.ask b now := by
  obtain ⟨sa, ea, ta, ma⟩ := a
  obtain ⟨sb, eb, tb, mb⟩ := b
  obtain ⟨h1, h2, h3, h4⟩ := h
  simp only at h1 h2 h3 h4
  subst h1 h2 h3
  cases ma
  · cases q <;> rfl
  · rw [h4 rfl]
  · cases q <;> rfl

/-- And they stay the same, whatever is called next. -/
theorem Same.exec {a b : Watch w} (h : Same a b) (o : Op w) (now : BitVec w) : Same (o.exec a now) (o.exec b now) := by
  obtain ⟨sa, ea, ta, ma⟩ := a
  obtain ⟨sb, eb, tb, mb⟩ := b
  obtain ⟨h1, h2, h3, h4⟩ := h
  simp only at h1 h2 h3 h4
  subst h1 h2 h3
  cases ma
  · cases o <;> exact ⟨rfl, rfl, rfl, by first | exact fun _ => rfl | exact nofun⟩
  · rw [h4 rfl]; exact ⟨rfl, rfl, rfl, fun _ => rfl⟩
  · cases o <;> exact ⟨rfl, rfl, rfl, by first | exact fun _ => rfl | exact nofun⟩

/-- The operations `o` that a handler can interrupt with `h`. -/
def Harmless (s : Watch w) : Op w → Op w → Prop
  | .set _, .change _ | .set _, .setngo _ | .setElapsed _, .restart | .setElapsed _, .change _ => s.mode ≠ .stopped
  | .set _, _ | .setElapsed _, _ => True
  | .start, .set _ | .start, .setElapsed _ | .start, .start | .start, .pause => True
  | .start, _ => s.mode = .counting
  | .stop, .pause => s.mode ≠ .counting
  | .stop, _ => True
  | .pause, .set _ | .pause, .setElapsed _ => True
  | .pause, _ => s.mode ≠ .counting
  | .init, _ | .restart, _ | .change _, _ | .setngo _, _ => False

/-- The number of accesses of a call. -/
def Prog.accesses : Prog w α → Watch w → Nat
  | .ret _, _ => 0
  | .mode k, s => (k s.mode).accesses s + 1
  | .ld f k, s => (k (f.get s)).accesses s + 1
  | .st x k, s => k.accesses (x.apply s) + 1

/-- Splits on the point of the interrupt and on the state. -/
macro "both_tac" : tactic => `(tactic| (
  simp only [Op.mid, Op.prog, startP, stopP, pauseP, setP, setElapsedP, Prog.exec, onceAt, if_true, if_false, Bool.false_eq_true,
    reduceCtorEq, Nat.zero_add, Nat.reduceAdd, Nat.reduceEqDiff, OfNat.zero_ne_ofNat, OfNat.one_ne_ofNat, OfNat.ofNat_ne_zero,
    OfNat.ofNat_ne_one, one_ne_zero, zero_ne_one, Field.get, Store.apply, Op.exec, init, start, stop, pause, restart, change,
    Stopwatch.set, Stopwatch.setElapsed, setngo, ne_eq, not_true_eq_false, not_false_eq_true]
  first
    | exact Or.inl ⟨rfl, rfl, rfl, fun _ => rfl⟩
    | exact Or.inr ⟨rfl, rfl, rfl, fun _ => rfl⟩
    | exact Or.inl ⟨rfl, rfl, rfl, fun h => nomatch h⟩
    | exact Or.inr ⟨rfl, rfl, rfl, fun h => nomatch h⟩))

/-- Interrupted before its first access, an operation follows the call of the handler. -/
theorem both_zero (first : Bool) (o : Op w) (s : Watch w) (now : BitVec w) (f : Watch w → Watch w) :
    o.mid first s now 0 f = o.exec (f s) now := by
  rw [← C214_quiet first o (f s) now, Op.mid]
  cases o <;> simp only [Op.prog, startP, stopP, pauseP, setP, setElapsedP, Prog.exec, onceAt, if_true] <;>
    first
      | rfl
      | exact congrArg Prod.snd (exec_idle _ _ _ _ _ (onceAt_idle (by omega)))

/-- **C214**, proved part: an operation in the midst of which a handler makes another call leaves the stopwatch, as far as any
later call can tell, as the two calls do one after the other, in one of the two orders. Missing: the other pairs, for some of
which it is false, see below. -/
theorem C214_harmless_partial (first : Bool) (o h : Op w) (s : Watch w) (hs : Harmless s o h) (now t : BitVec w) (k : Nat)
    (hk : k < (o.prog first now).accesses s) :
    Same (o.mid first s now k (h.exec · t)) (o.exec (h.exec s t) now) ∨
    Same (o.mid first s now k (h.exec · t)) (h.exec (o.exec s now) t) := by
  by_cases h0 : k = 0
  · subst h0
    rw [both_zero]
    exact Or.inl ⟨rfl, rfl, rfl, fun _ => rfl⟩
  obtain ⟨a, b, c, m⟩ := s
  cases o with
  | init | restart | change | setngo => exact absurd hs id
  | set p =>
    cases m with
    | counting | paused => simp [Op.prog, setP, Prog.accesses] at hk; omega
    | stopped =>
      simp only [Op.prog, setP, Prog.accesses] at hk
      obtain rfl : k = 1 := by omega
      cases h with
      | change | setngo => exact absurd rfl hs
      | _ => both_tac
  | setElapsed e =>
    cases m with
    | counting | paused => simp [Op.prog, setElapsedP, Prog.accesses] at hk; omega
    | stopped =>
      simp only [Op.prog, setElapsedP, Prog.accesses] at hk
      obtain rfl : k = 1 := by omega
      cases h with
      | change | restart => exact absurd rfl hs
      | _ => both_tac
  | start =>
    cases m with
    | counting => simp [Op.prog, startP, Prog.accesses] at hk; omega
    | stopped | paused =>
      simp only [Op.prog, startP, Prog.accesses] at hk
      have hc : k = 1 ∨ k = 2 := by omega
      cases h with
      | set | setElapsed | start | pause => rcases hc with rfl | rfl <;> both_tac
      | _ => simp [Harmless] at hs
  | stop =>
    simp only [Op.prog, stopP, Prog.accesses] at hk
    have hc : k = 1 ∨ k = 2 := by omega
    cases h with
    | pause => rcases hc with rfl | rfl <;> cases m <;> first | both_tac | exact absurd rfl hs
    | _ => rcases hc with rfl | rfl <;> cases m <;> both_tac
  | pause =>
    cases m with
    | stopped | paused => simp [Op.prog, pauseP, Prog.accesses] at hk; omega
    | counting =>
      cases first <;> simp only [Op.prog, pauseP, Prog.accesses, if_true, if_false, Bool.false_eq_true] at hk <;>
      · have hc : k = 1 ∨ k = 2 ∨ k = 3 ∨ k = 4 := by omega
        cases h with
        | set | setElapsed => rcases hc with rfl | rfl | rfl | rfl <;> both_tac
        | _ => exact absurd rfl hs

/-! ## Where it fails -/

/-- **C214**, where it fails: `stopwatch_start` stores the starting time before the state. If a handler stops the stopwatch in
between, the starting time is 0 and the stopwatch counts: a period that is at most the time of the clock is reached at once. -/
theorem C214_start_wrong (hw : 0 < w) (first : Bool) (s : Watch w) (hm : s.mode ≠ .counting) (p now : Nat)
    (ht : s.total.toNat = p) (hp : p < 2 ^ (w - 1)) (h0 : 0 < p) (h1 : p ≤ now) (h2 : now ≤ p + 2 ^ (w - 1)) (t : BitVec w) :
    Op.start.mid first s (BitVec.ofNat w now) 2 (Op.stop.exec · t) = ⟨0, 0, s.total, .counting⟩ ∧
    isReached (Op.start.mid first s (BitVec.ofNat w now) 2 (Op.stop.exec · t)) (BitVec.ofNat w now) = true ∧
    isReached (Op.start.exec (Op.stop.exec s t) (BitVec.ofNat w now)) (BitVec.ofNat w now) = false ∧
    isReached (Op.stop.exec (Op.start.exec s (BitVec.ofNat w now)) t) (BitVec.ofNat w now) = false := by
  have key : ∀ (x : Watch w) (t : Nat), x.mode = .counting → x.starting = BitVec.ofNat w t → x.elapsed = 0 → x.total.toNat = p →
      t ≤ now → now ≤ t + p + 2 ^ (w - 1) → isReached x (BitVec.ofNat w now) = decide (t + p ≤ now) := by
    intro x t a b c d e f
    exact Timer.armed_reached (κ := Unit) (t := ⟨0, x, none⟩) hw ⟨a, b, c, d⟩ hp now e f
  have he : Op.start.mid first s (BitVec.ofNat w now) 2 (Op.stop.exec · t) = ⟨0, 0, s.total, .counting⟩ := by
    obtain ⟨a, b, c, m⟩ := s
    cases m
    · rfl
    · exact absurd rfl hm
    · rfl
  refine ⟨he, ?_, ?_, rfl⟩
  · rw [he, key ⟨0, 0, s.total, .counting⟩ 0 rfl (by simp) rfl ht (Nat.zero_le _) (by omega)]
    simpa using h1
  · rw [key (Op.start.exec (Op.stop.exec s t) (BitVec.ofNat w now)) now rfl rfl rfl ht le_rfl (by omega)]
    simp only [decide_eq_false_iff_not]; omega

/-- **C214**, where it fails: two pauses, at `t` in a handler and at `now` in the program, after the program has loaded the state.
Both find the stopwatch counting and add the current run. -/
theorem C214_pause_wrong (first : Bool) (s : Watch w) (hm : s.mode = .counting) (now t : BitVec w) :
    Op.pause.mid first s now 1 (Op.pause.exec · t) =
      { s with elapsed := s.elapsed + timeInterval s.starting t + timeInterval s.starting now, mode := .paused } ∧
    (Op.pause.exec (Op.pause.exec s t) now).elapsed = s.elapsed + timeInterval s.starting t ∧
    (Op.pause.exec (Op.pause.exec s now) t).elapsed = s.elapsed + timeInterval s.starting now := by
  obtain ⟨a, b, c, m⟩ := s
  simp only at hm
  subst hm
  refine ⟨?_, rfl, rfl⟩
  cases first <;> rfl

/-- **C214**, where it fails: `stopwatch_stop` stores the state last. If a handler pauses the stopwatch before that, it adds the time
since the clock was 0: the stopwatch is stopped with this time elapsed, and the next run goes on from there. -/
theorem C214_stop_wrong (first : Bool) (s : Watch w) (hm : s.mode = .counting) (now t : BitVec w) :
    Op.stop.mid first s now 2 (Op.pause.exec · t) = ⟨0, timeInterval 0 t, s.total, .stopped⟩ ∧
    (Op.stop.exec (Op.pause.exec s t) now).elapsed = 0 ∧ (Op.pause.exec (Op.stop.exec s now) t).elapsed = 0 := by
  obtain ⟨a, b, c, m⟩ := s
  simp only at hm
  subst hm
  refine ⟨?_, rfl, rfl⟩
  have : Op.stop.mid first (⟨a, b, c, .counting⟩ : Watch w) now 2 (Op.pause.exec · t) = ⟨0, 0 + timeInterval 0 t, c, .stopped⟩ := rfl
  rw [this, BitVec.ofNat_eq_ofNat, BitVec.zero_add]

/-- **C214**, where it fails: `stopwatch_pause` stores the state before it adds the run. If a handler starts the stopwatch again at
`t` in between, the run that was to be added is lost; only the time between the two calls is added. -/
theorem C214_lost_wrong (first : Bool) (s : Watch w) (hm : s.mode = .counting) (now t : BitVec w) :
    Op.pause.mid first s now 2 (Op.start.exec · t) = ⟨t, s.elapsed + timeInterval t now, s.total, .counting⟩ ∧
    Op.start.exec (Op.pause.exec s now) t = ⟨t, s.elapsed + timeInterval s.starting now, s.total, .counting⟩ ∧
    (Op.pause.exec (Op.start.exec s t) now).mode = .paused := by
  obtain ⟨a, b, c, m⟩ := s
  simp only at hm
  subst hm
  refine ⟨?_, rfl, rfl⟩
  cases first <;> rfl

/-- **C214**, where it fails: `stopwatch_set` stores the period of a stopwatch that a handler has changed and started meanwhile, and
`stopwatch_set_elapsed` the time elapsed. In either order of the calls they do not: before, they are overwritten; after, they are
refused. -/
theorem C214_set_wrong (first : Bool) (s : Watch w) (hm : s.mode = .stopped) (now t p q e : BitVec w) :
    (Op.set p).mid first s now 1 ((Op.change q).exec · t) = ⟨t, 0, p, .counting⟩ ∧
    (Op.set p).exec ((Op.change q).exec s t) now = ⟨t, 0, q, .counting⟩ ∧
    (Op.change q).exec ((Op.set p).exec s now) t = ⟨t, 0, q, .counting⟩ ∧
    (Op.setElapsed e).mid first s now 1 ((Op.change q).exec · t) = ⟨t, e, q, .counting⟩ ∧
    (Op.setElapsed e).exec ((Op.change q).exec s t) now = ⟨t, 0, q, .counting⟩ ∧
    (Op.change q).exec ((Op.setElapsed e).exec s now) t = ⟨t, 0, q, .counting⟩ := by
  obtain ⟨a, b, c, m⟩ := s
  simp only at hm
  subst hm
  exact ⟨rfl, rfl, rfl, rfl, rfl, rfl⟩

/-- **C214**, where it fails: `stopwatch_change` stores the period first. If a handler sets another one before the stopwatch, stopped so
far, is started, it counts with that one, though `stopwatch_set` is refused or overwritten in either order of the calls. If a handler
starts the stopwatch before `stopwatch_restart` or `stopwatch_change` does, it counts since then. -/
theorem C214_change_wrong (first : Bool) (s : Watch w) (now t p q : BitVec w) :
    (s.mode = .stopped → (Op.change p).mid first s now 1 ((Op.set q).exec · t) = ⟨now, 0, q, .counting⟩ ∧
      (Op.change p).exec ((Op.set q).exec s t) now = ⟨now, 0, p, .counting⟩ ∧
      (Op.set q).exec ((Op.change p).exec s now) t = ⟨now, 0, p, .counting⟩) ∧
    (Op.change p).mid first s now 4 (Op.start.exec · t) = ⟨t, 0, p, .counting⟩ ∧
    Op.restart.mid first s now 3 (Op.start.exec · t) = ⟨t, 0, s.total, .counting⟩ ∧
    Op.restart.exec (Op.start.exec s t) now = ⟨now, 0, s.total, .counting⟩ ∧
    Op.start.exec (Op.restart.exec s now) t = ⟨now, 0, s.total, .counting⟩ := by
  obtain ⟨a, b, c, m⟩ := s
  refine ⟨?_, by rfl, by rfl, ?_, by rfl⟩
  · intro hm
    simp only at hm
    subst hm
    exact ⟨rfl, rfl, rfl⟩
  · cases m <;> rfl

/-- A stopwatch of 16 bits that counts a period of 100 since 1000: paused twice at 1050, 100 have elapsed; stopped at 1050 and paused
in the midst, 1050; paused and started again in the midst, none. Set to 100 and started at 1050, and stopped in the midst, it is
reached at once. Started in the midst of a stop, it is stopped. -/
example : let s : Watch 16 := ⟨1000, 0, 100, .counting⟩
    let r : Watch 16 := ⟨0, 0, 100, .stopped⟩
    (Op.pause.mid true s 1050 1 (Op.pause.exec · 1050)).elapsed = 100 ∧
    Op.stop.mid true s 1050 2 (Op.pause.exec · 1050) = ⟨0, 1050, 100, .stopped⟩ ∧
    Op.pause.mid true s 1050 2 (Op.start.exec · 1050) = ⟨1050, 0, 100, .counting⟩ ∧
    isReached (Op.start.mid true r 1050 2 (Op.stop.exec · 1050)) 1050 = true ∧
    Harmless r .stop .start ∧ (Op.stop.prog true (1050 : BitVec 16)).accesses r = 3 ∧
    Op.stop.mid true r 1050 2 (Op.start.exec · 1050) = ⟨1050, 0, 100, .stopped⟩ :=
  ⟨by decide, by decide, by decide, by decide, trivial, rfl, by decide⟩

end Gel.Stopwatch
