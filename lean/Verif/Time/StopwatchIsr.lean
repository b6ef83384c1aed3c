import Verif.Time.StopwatchProps
import Verif.Time.TimerProps

/-!
# Stopwatch: queries from an interrupt handler in the midst of a call (C167)

The functions of gel/timer/stopwatch.c as sequences of stores to the members. An interrupt handler sees the stores made so
far, in the order of the program. The members are not `volatile`; that a compiler reorders the stores is left out.
-/
namespace Gel.Stopwatch

open Time

variable {w : Nat}

/-- A store to a member of `stopwatch_t`. -/
inductive Store (w : Nat) where
  | starting (v : BitVec w)
  | elapsed (v : BitVec w)
  | total (v : BitVec w)
  | mode (m : Mode)

def Store.apply (s : Watch w) : Store w → Watch w
  | .starting v => { s with starting := v }
  | .elapsed v => { s with elapsed := v }
  | .total v => { s with total := v }
  | .mode m => { s with mode := m }

/-- The stores of `stopwatch_stop`, stopwatch.c:54-56. -/
def stopStores : List (Store w) := [.starting 0, .elapsed 0, .mode .stopped]

/-- The stores of each function, in the order of the program: stopwatch.c:28-31, 40-41, 54-56, 65-66, 78-79, 85-86, 95,
117 and stopwatch.h:23. -/
def Op.stores (s : Watch w) (now : BitVec w) : Op w → List (Store w)
  | .init => [.starting 0, .total 0, .elapsed 0, .mode .stopped]
  | .start => if s.mode = .counting then [] else [.starting now, .mode .counting]
  | .stop => stopStores
  | .pause => if s.mode = .counting then [.mode .paused, .elapsed (s.elapsed + timeInterval s.starting now)] else []
  | .restart => stopStores ++ [.starting now, .mode .counting]
  | .change p => .total p :: stopStores ++ [.starting now, .mode .counting]
  | .set p => if s.mode = .stopped then [.total p] else []
  | .setElapsed e => if s.mode = .stopped then [.elapsed e] else []
  | .setngo p => (if s.mode = .stopped then [.total p] else []) ++
      if s.mode = .counting then [] else [.starting now, .mode .counting]

/-- What an interrupt handler sees after `k` stores of a call. -/
def Op.seen (o : Op w) (s : Watch w) (now : BitVec w) (k : Nat) : Watch w :=
  ((o.stores s now).take k).foldl Store.apply s

/-- Before the first store the handler sees the stopwatch as it was. -/
theorem seen_zero (o : Op w) (s : Watch w) (now : BitVec w) : o.seen s now 0 = s := rfl

/-- After the last one it sees what the call leaves, as in the first model. -/
theorem seen_all (o : Op w) (s : Watch w) (now : BitVec w) :
    o.seen s now (o.stores s now).length = o.exec s now := by
  obtain ⟨a, b, c, m⟩ := s
  cases o <;> cases m <;> rfl

/-- The queries. -/
inductive Query where
  | state | total | elapsed | remaining | reached
  deriving DecidableEq

/-- What a query returns. -/
def Query.ask (q : Query) (s : Watch w) (now : BitVec w) : Mode ⊕ BitVec w ⊕ Bool :=
  match q with
  | .state => .inl s.mode
  | .total => .inr (.inl s.total)
  | .elapsed => .inr (.inl (getElapsed s now))
  | .remaining => .inr (.inl (getRemaining s now))
  | .reached => .inr (.inr (isReached s now))

/-- The calls in the midst of which a query is safe: `stopwatch_start`, `stopwatch_set` and `stopwatch_set_elapsed` always,
`stopwatch_pause` and `stopwatch_stop` if the stopwatch is not counting, and `stopwatch_init` if it is stopped. -/
def Op.Safe (s : Watch w) : Op w → Prop
  | .start | .set _ | .setElapsed _ => True
  | .pause | .stop => s.mode ≠ .counting
  | .init => s.mode = .stopped
  | .restart | .change _ | .setngo _ => False

/-- **C167**, proved part: in the midst of these calls every query, at any time, returns what it returns before or after the
call. Missing: the others, for which it is false. -/
theorem C167_safe_partial (o : Op w) (s : Watch w) (now : BitVec w) (h : o.Safe s) (k : Nat) (q : Query) (t : BitVec w) :
    q.ask (o.seen s now k) t = q.ask s t ∨ q.ask (o.seen s now k) t = q.ask (o.exec s now) t := by
  by_cases hk : (o.stores s now).length ≤ k
  · right
    rw [← seen_all o s now, Op.seen, Op.seen, List.take_of_length_le hk, List.take_of_length_le le_rfl]
  obtain ⟨a, b, c, m⟩ := s
  cases o with
  | start =>
    cases m with
    | counting => simp [Op.stores] at hk
    | stopped | paused =>
      simp only [Op.stores, List.length_cons, List.length_nil, reduceCtorEq, if_false] at hk
      have hc : k = 0 ∨ k = 1 := by omega
      rcases hc with rfl | rfl
      · exact Or.inl rfl
      · left; cases q <;> simp [Op.seen, Op.stores, Store.apply, Query.ask, getElapsed, getRemaining, isReached]
  | set p =>
    cases m with
    | counting | paused => simp [Op.stores] at hk
    | stopped =>
      simp only [Op.stores, List.length_cons, List.length_nil, if_true] at hk
      have hc : k = 0 := by omega
      subst hc
      exact Or.inl rfl
  | setElapsed e =>
    cases m with
    | counting | paused => simp [Op.stores] at hk
    | stopped =>
      simp only [Op.stores, List.length_cons, List.length_nil, if_true] at hk
      have hc : k = 0 := by omega
      subst hc
      exact Or.inl rfl
  | pause =>
    cases m with
    | counting => exact absurd rfl h
    | stopped | paused => simp [Op.stores] at hk
  | stop =>
    simp only [Op.stores, stopStores, List.length_cons, List.length_nil] at hk
    have hc : k = 0 ∨ k = 1 ∨ k = 2 := by omega
    cases m with
    | counting => exact absurd rfl h
    | stopped =>
      rcases hc with rfl | rfl | rfl
      · exact Or.inl rfl
      · left; cases q <;> simp [Op.seen, Op.stores, stopStores, Store.apply, Query.ask, getElapsed, getRemaining, isReached]
      · right; cases q <;> simp [Op.seen, Op.stores, stopStores, Store.apply, Query.ask, getElapsed, getRemaining, isReached,
          Op.exec, stop]
    | paused =>
      rcases hc with rfl | rfl | rfl
      · exact Or.inl rfl
      · left
        cases q with
        | reached => rfl
        | _ => simp [Op.seen, Op.stores, stopStores, Store.apply, Query.ask, getElapsed, getRemaining]
      · cases q with
        | reached =>
          by_cases hz : c = 0#w
          · left; simp [Op.seen, Op.stores, stopStores, Store.apply, Query.ask, isReached, hz, BitVec.le_def]
          · right
            simp [Op.seen, Op.stores, stopStores, Store.apply, Query.ask, isReached, Op.exec, stop, hz]
        | state => left; rfl
        | _ => right; simp [Op.seen, Op.stores, stopStores, Store.apply, Query.ask, getElapsed, getRemaining, Op.exec, stop]
  | init =>
    simp only [Op.stores, List.length_cons, List.length_nil] at hk
    have hm : m = .stopped := h
    subst hm
    have hc : k = 0 ∨ k = 1 ∨ k = 2 ∨ k = 3 := by omega
    rcases hc with rfl | rfl | rfl | rfl
    · exact Or.inl rfl
    · left; cases q <;> simp [Op.seen, Op.stores, Store.apply, Query.ask, getElapsed, getRemaining, isReached]
    · cases q with
      | elapsed => left; simp [Op.seen, Op.stores, Store.apply, Query.ask, getElapsed]
      | _ => right; simp [Op.seen, Op.stores, Store.apply, Query.ask, getElapsed, getRemaining, isReached, Op.exec, init]
    · right; cases q <;> simp [Op.seen, Op.stores, Store.apply, Query.ask, getElapsed, getRemaining, isReached, Op.exec, init]
  | restart => exact absurd h id
  | change p => exact absurd h id
  | setngo p => exact absurd h id

/-! ## Where it fails -/

/-- **C167**, where it fails: `stopwatch_stop` and `stopwatch_restart` on a stopwatch that counts since `t0`, with period `p`. They
first store 0 as the starting time. A handler that asks at this point, at the time `now`, finds the period reached, though it
is not reached before or after the call: the time that counts is the one since the clock was 0. -/
theorem C167_reached_wrong (hw : 0 < w) (s : Watch w) (t0 p now : Nat) (hm : s.mode = .counting)
    (hs : s.starting = BitVec.ofNat w t0) (he : s.elapsed = 0) (ht : s.total.toNat = p) (hp : p < 2 ^ (w - 1)) (h1 : t0 ≤ now)
    (h2 : now < t0 + p) (h3 : p ≤ now) (h4 : now ≤ p + 2 ^ (w - 1)) (o : Op w) (ho : o = .stop ∨ o = .restart) :
    isReached s (BitVec.ofNat w now) = false ∧
    isReached (o.seen s (BitVec.ofNat w now) 1) (BitVec.ofNat w now) = true ∧
    isReached (o.exec s (BitVec.ofNat w now)) (BitVec.ofNat w now) = false := by
  have key : ∀ (x : Watch w) (t : Nat), x.mode = .counting → x.starting = BitVec.ofNat w t → x.elapsed = 0 → x.total.toNat = p →
      t ≤ now → now ≤ t + p + 2 ^ (w - 1) → isReached x (BitVec.ofNat w now) = decide (t + p ≤ now) := by
    intro x t a b c d e f
    exact Timer.armed_reached (κ := Unit) (t := ⟨0, x, none⟩) hw ⟨a, b, c, d⟩ hp now e f
  have hb : isReached s (BitVec.ofNat w now) = false := by
    rw [key s t0 hm hs he ht h1 (by omega)]; simpa using h2
  have hmid : ∀ x : Watch w, x = { s with starting := 0 } → isReached x (BitVec.ofNat w now) = true := by
    intro x hx
    rw [key x 0 (by rw [hx]; exact hm) (by rw [hx]; simp) (by rw [hx]; exact he) (by rw [hx]; exact ht) (Nat.zero_le _) (by omega)]
    simpa using h3
  rcases ho with rfl | rfl
  · exact ⟨hb, hmid _ rfl, rfl⟩
  · refine ⟨hb, hmid _ rfl, ?_⟩
    rw [key (Op.restart.exec s (BitVec.ofNat w now)) now rfl rfl rfl ht le_rfl (by omega)]
    simp only [decide_eq_false_iff_not]; omega

/-- **C167**, where it fails: `stopwatch_change` to a period `p` that is at most the time the stopwatch has counted. It stores the
period first; a handler that asks at this point finds it reached, though it is not reached before or after the call. -/
theorem C167_change_wrong (hw : 0 < w) (s : Watch w) (t0 q now : Nat) (p : BitVec w) (hm : s.mode = .counting)
    (hs : s.starting = BitVec.ofNat w t0) (he : s.elapsed = 0) (ht : s.total.toNat = q) (hq : q < 2 ^ (w - 1))
    (h1 : t0 + p.toNat ≤ now) (h2 : now < t0 + q) (h3 : 0 < p.toNat) :
    isReached s (BitVec.ofNat w now) = false ∧
    isReached ((Op.change p).seen s (BitVec.ofNat w now) 1) (BitVec.ofNat w now) = true ∧
    isReached ((Op.change p).exec s (BitVec.ofNat w now)) (BitVec.ofNat w now) = false := by
  have key : ∀ (x : Watch w) (t r : Nat), x.mode = .counting → x.starting = BitVec.ofNat w t → x.elapsed = 0 → x.total.toNat = r →
      r < 2 ^ (w - 1) → t ≤ now → now ≤ t + r + 2 ^ (w - 1) → isReached x (BitVec.ofNat w now) = decide (t + r ≤ now) := by
    intro x t r a b c d hr e f
    exact Timer.armed_reached (κ := Unit) (t := ⟨0, x, none⟩) hw ⟨a, b, c, d⟩ hr now e f
  refine ⟨?_, ?_, ?_⟩
  · rw [key s t0 q hm hs he ht hq (by omega) (by omega)]; simpa using h2
  · have hx : (Op.change p).seen s (BitVec.ofNat w now) 1 = { s with total := p } := rfl
    rw [hx, key { s with total := p } t0 p.toNat hm hs he rfl (by omega) (by omega) (by omega)]; simpa using h1
  · rw [key ((Op.change p).exec s (BitVec.ofNat w now)) now p.toNat rfl rfl rfl rfl (by omega) le_rfl (by omega)]
    simp only [decide_eq_false_iff_not]; omega

/-- **C167**, where it fails: `stopwatch_pause` on a counting stopwatch stores the state before the elapsed time. A handler that
asks in between gets the elapsed time without the current run. -/
theorem C167_pause_wrong (s : Watch w) (now t : BitVec w) (hm : s.mode = .counting) :
    getElapsed (Op.pause.seen s now 1) t = s.elapsed ∧
    getElapsed s t = s.elapsed + timeInterval s.starting t ∧
    getElapsed (Op.pause.exec s now) t = s.elapsed + timeInterval s.starting now := by
  obtain ⟨a, b, c, m⟩ := s
  simp only at hm
  subst hm
  refine ⟨?_, ?_, ?_⟩ <;>
    simp [Op.seen, Op.stores, Store.apply, getElapsed, Op.exec, pause]

/-- **C167**, where it fails, for timers: a timer polled by an interrupt handler in the midst of `gel_timer_reset` (or of
`gel_timer_stop`) calls its callback, though its period is not over before or after the call. -/
theorem C167_timer_wrong (hw : 0 < w) (env : κ → Timer.Timer w κ → Timer.Timer w κ) (t : Timer.Timer w κ) (c : κ)
    (hc : t.callback = some c) (t0 p now : Nat) (ha : Timer.Armed t t0 p) (hp : p < 2 ^ (w - 1)) (h1 : t0 ≤ now)
    (h2 : now < t0 + p) (h3 : p ≤ now) (h4 : now ≤ p + 2 ^ (w - 1)) (o : Op w) (ho : o = .stop ∨ o = .restart) :
    Timer.manage env t (BitVec.ofNat w now) = .ok (t, false) ∧
    ∃ r, Timer.manage env { t with watch := o.seen t.watch (BitVec.ofNat w now) 1 } (BitVec.ofNat w now) = .ok (r, true) := by
  obtain ⟨a1, a2, a3, a4⟩ := ha
  obtain ⟨k1, k2, -⟩ := C167_reached_wrong hw t.watch t0 p now a1 a2 a3 a4 hp h1 h2 h3 h4 o ho
  constructor
  · rw [Timer.manage, if_neg (by rw [k1]; simp)]
  · rw [Timer.manage, if_pos (by exact k2), hc]
    simp only
    split
    · exact ⟨_, rfl⟩
    · exact ⟨_, rfl⟩

/-- A stopwatch of 16 bits that counts a period of 100 since 1000, restarted at 1050: in the midst of it the period is
reached; paused at 1050: in the midst of it nothing has elapsed; changed to 20 at 1050. -/
example : let s : Watch 16 := ⟨1000, 0, 100, .counting⟩
    [isReached s 1050, isReached (Op.restart.seen s 1050 1) 1050, isReached (Op.restart.exec s 1050) 1050] =
      [false, true, false] ∧
    [getElapsed s 1050, getElapsed (Op.pause.seen s 1050 1) 1050, getElapsed (Op.pause.exec s 1050) 1050] = [50, 0, 50] ∧
    [isReached s 1050, isReached ((Op.change 20).seen s 1050 1) 1050, isReached ((Op.change 20).exec s 1050) 1050] =
      [false, true, false] ∧
    (Op.start (w := 16)).Safe s := ⟨by decide, by decide, by decide, trivial⟩

end Gel.Stopwatch
