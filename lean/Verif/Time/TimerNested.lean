import Verif.Time.TimerExact

/-!
# Timer: callbacks that use their own timer (C165, C166)

A second model of gel/timer/timer.c: the callbacks may call every function of the library for the timer they belong to,
`gel_timer_init` and `gel_timer_manage_callback` included. `f` bounds the depth of the calls within calls.
-/
namespace Gel.Timer

open Stopwatch

/-- What a callback does with its timer. Each call has its own timestamp. -/
inductive NAct (w : Nat) (κ : Type) where
  | act (now : BitVec w) (a : Act w)
  | init (now period : BitVec w) (cb : Option κ)
  | poll (now : BitVec w)

/-- The timer and the callbacks called so far. -/
structure NSt (w : Nat) (κ : Type) where
  timer : Timer w κ
  log : List κ

variable {w : Nat} {κ : Type}

/-- A sequence of calls. -/
def nacts (poll : BitVec w → NSt w κ → Res (NSt w κ × Bool)) : List (NAct w κ) → NSt w κ → Res (NSt w κ)
  | [], s => .ok s
  | .act now a :: as, s => nacts poll as { s with timer := a.exec now s.timer }
  | .init now p cb :: as, s => nacts poll as { s with timer := Timer.init p now cb }
  | .poll now :: as, s => do
    let (s, _) ← poll now s
    nacts poll as s

/-- `gel_timer_manage_callback`, timer.c:70-82, with the calls `beh c` made by callback `c`. -/
def manageN (beh : κ → List (NAct w κ)) : Nat → BitVec w → NSt w κ → Res (NSt w κ × Bool)
  | 0, _, _ => .diverge
  | f + 1, now, s =>
    if isReached s.timer.watch now then
      match s.timer.callback with
      | none => .ub
      | some c => do
        let s ← nacts (manageN beh f) (beh c) { s with log := s.log ++ [c] }
        if s.timer.autoreload ≠ 0 then
          pure ({ s with timer := { s.timer with watch := (restart s.timer.watch now).1 } }, true)
        else pure ({ s with timer := { s.timer with watch := (Stopwatch.stop s.timer.watch).1 } }, true)
    else .ok (s, false)

/-- A stopwatch that does not run. -/
def atRest (total : BitVec w) : Watch w := ⟨0, 0, total, .stopped⟩

/-- A stopwatch that starts now. -/
def fresh (total now : BitVec w) : Watch w := ⟨now, 0, total, .counting⟩

/-! ## C165 -/

/-- **C165**, what a poll that calls the callback leaves, whatever the callback did: the period, callback and autoreload as the
callback left them, but a stopwatch that starts at the time of the poll if autoreload is on and one at rest if it is off. -/
theorem C165_exact (beh : κ → List (NAct w κ)) (f : Nat) (now : BitVec w) (s r : NSt w κ)
    (h : manageN beh f now s = .ok (r, true)) :
    ∃ g c m, f = g + 1 ∧ s.timer.callback = some c ∧
      nacts (manageN beh g) (beh c) { s with log := s.log ++ [c] } = .ok m ∧
      r.log = m.log ∧ r.timer.callback = m.timer.callback ∧ r.timer.autoreload = m.timer.autoreload ∧
      r.timer.watch = if m.timer.autoreload ≠ 0 then fresh m.timer.watch.total now else atRest m.timer.watch.total := by
  cases f with
  | zero => simp [manageN] at h
  | succ g =>
    rw [manageN] at h
    split at h
    · cases hc : s.timer.callback with
      | none => rw [hc] at h; simp at h
      | some c =>
        rw [hc] at h
        simp only at h
        cases hm : nacts (manageN beh g) (beh c) { s with log := s.log ++ [c] } with
        | ok m =>
          rw [hm, Res.ok_bind] at h
          refine ⟨g, c, m, rfl, rfl, hm, ?_⟩
          split at h
          · next ha =>
            injection h with h
            injection h with h _
            subst h
            rw [if_pos ha]
            exact ⟨rfl, rfl, rfl, rfl⟩
          · next ha =>
            injection h with h
            injection h with h _
            subst h
            rw [if_neg ha]
            exact ⟨rfl, rfl, rfl, rfl⟩
        | ub => rw [hm] at h; simp at h
        | abort => rw [hm] at h; simp at h
        | diverge => rw [hm] at h; simp at h
    · simp at h

/-- A timer at rest is not due at any time. -/
theorem rest_quiet (beh : κ → List (NAct w κ)) (f : Nat) (now : BitVec w) (s : NSt w κ) (hs : s.timer.watch.mode = .stopped) :
    manageN beh (f + 1) now s = .ok (s, false) := by
  rw [manageN, if_neg]
  simp [isReached, hs]

/-- **C165**, proved part: period, callback and autoreload stay as the callback left them. Missing: starting, pausing and
stopping, for which it is false. -/
theorem C165_settings_partial (beh : κ → List (NAct w κ)) (f : Nat) (now : BitVec w) (s r m : NSt w κ) (c : κ)
    (hc : s.timer.callback = some c) (h : manageN beh (f + 1) now s = .ok (r, true))
    (hm : nacts (manageN beh f) (beh c) { s with log := s.log ++ [c] } = .ok m) :
    r.timer.callback = m.timer.callback ∧ r.timer.autoreload = m.timer.autoreload ∧
      r.timer.watch.total = m.timer.watch.total ∧ r.log = m.log := by
  obtain ⟨g, c', m', hg, hc', hm', h1, h2, h3, h4⟩ := C165_exact beh (f + 1) now s r h
  cases hg
  rw [hc] at hc'
  cases hc'
  rw [hm] at hm'
  cases hm'
  refine ⟨h2, h3, ?_, h1⟩
  rw [h4]
  split <;> rfl

/-- **C165**, where it fails: a callback that sets its timer going again. A callback that ends with `gel_timer_init` of the
timer (with autoreload off, as `gel_timer_init` leaves it) finds the timer stopped after the poll, and no later poll calls
anything. -/
theorem C165_init_wrong (beh : κ → List (NAct w κ)) (f : Nat) (now : BitVec w) (s : NSt w κ) (c : κ) (p t : BitVec w)
    (d : Option κ) (hr : isReached s.timer.watch now = true) (hc : s.timer.callback = some c)
    (hb : beh c = [.init t p d]) :
    manageN beh (f + 1) now s = .ok (⟨⟨0, atRest p, d⟩, s.log ++ [c]⟩, true) ∧
    ∀ g later, manageN beh (g + 1) later ⟨⟨0, atRest p, d⟩, s.log ++ [c]⟩ = .ok (⟨⟨0, atRest p, d⟩, s.log ++ [c]⟩, false) := by
  constructor
  · rw [manageN, if_pos hr, hc]
    simp only [hb, nacts, Res.ok_bind]
    rfl
  · intro g later
    exact rest_quiet beh g later _ rfl

/-- **C165**, where it fails: the same for `gel_timer_resume`, `gel_timer_reset`, `gel_timer_pause` and
`gel_timer_change_period`: if the callback leaves autoreload off, the timer is stopped after the poll, whatever it called. -/
theorem C165_oneshot_wrong (beh : κ → List (NAct w κ)) (f : Nat) (now : BitVec w) (s r : NSt w κ)
    (h : manageN beh (f + 1) now s = .ok (r, true)) (h0 : r.timer.autoreload = 0) :
    r.timer.watch = atRest r.timer.watch.total ∧ ∀ g later, manageN beh (g + 1) later r = .ok (r, false) := by
  obtain ⟨g, c', m, hg, hc', hm, h1, h2, h3, h4⟩ := C165_exact beh (f + 1) now s r h
  rw [← h3, if_neg (by simp [h0])] at h4
  have : r.timer.watch = atRest r.timer.watch.total := by
    rw [h4]; rfl
  exact ⟨this, fun g later => rest_quiet beh g later r (by rw [this]; rfl)⟩

/-- **C165**, where it fails: with autoreload on, a callback that stops or pauses its timer finds it running after the poll,
for a whole period. -/
theorem C165_auto_wrong (beh : κ → List (NAct w κ)) (f : Nat) (now t : BitVec w) (s : NSt w κ) (c : κ)
    (hr : isReached s.timer.watch now = true) (hc : s.timer.callback = some c) (ha : s.timer.autoreload ≠ 0)
    (hb : beh c = [.act t .stop] ∨ beh c = [.act t .pause]) :
    manageN beh (f + 1) now s =
      .ok (⟨{ s.timer with watch := fresh s.timer.watch.total now }, s.log ++ [c]⟩, true) := by
  rw [manageN, if_pos hr, hc]
  rcases hb with hb | hb
  · simp only [hb, nacts, Res.ok_bind, Act.exec]
    rw [if_pos (by exact ha)]
    rfl
  · simp only [hb, nacts, Res.ok_bind, Act.exec]
    rw [if_pos (by exact ha)]
    simp only [pause, Stopwatch.pause]
    split <;> rfl

/-- A one-shot timer of 10 ticks whose callback sets it to 20 ticks: stopped. And an autoreloading one whose callback stops it:
running. -/
example : let beh : Nat → List (NAct 8 Nat) := fun c => if c = 0 then [.init 12 20 (some 1)] else [.act 12 .stop]
    isReached (init 10 2 (some 0) : Timer 8 Nat).watch 12 = true ∧
    ((manageN beh 1 12 ⟨init 10 2 (some 0), []⟩ >>= fun (s, _) => manageN beh 1 32 s) >>= fun (s, b) =>
      .ok (s.timer.watch.mode, s.log, b)) = .ok (.stopped, [0], false) ∧
    (manageN beh 1 12 ⟨setAutoreload (init 10 2 (some 1)) 1, []⟩ >>= fun (s, b) =>
      .ok (s.timer.watch, s.log, b)) = .ok (⟨12, 0, 10, .counting⟩, [1], true) := by decide

/-! ## C166 -/

/-- **C166**, where it fails: a callback that polls its own timer before anything else, at a time when the timer is still due.
The poll that calls it never returns. -/
theorem C166_loop_wrong (beh : κ → List (NAct w κ)) (c : κ) (t : BitVec w) (as : List (NAct w κ))
    (hb : beh c = .poll t :: as) : ∀ (f : Nat) (now : BitVec w) (s : NSt w κ), s.timer.callback = some c →
      isReached s.timer.watch now = true → isReached s.timer.watch t = true → manageN beh f now s = .diverge
  | 0, _, _, _, _, _ => rfl
  | f + 1, now, s, hc, h1, h2 => by
    rw [manageN, if_pos h1, hc]
    simp only [hb, nacts]
    rw [C166_loop_wrong beh c t as hb f t { s with log := s.log ++ [c] } hc h2 h2]
    rfl

theorem nacts_append (poll : BitVec w → NSt w κ → Res (NSt w κ × Bool)) (bs : List (NAct w κ)) :
    ∀ (as : List (NAct w κ)) (s : NSt w κ), nacts poll (as ++ bs) s = nacts poll as s >>= nacts poll bs
  | [], _ => rfl
  | .act now a :: as, s => by
    rw [List.cons_append, nacts, nacts, nacts_append poll bs as]
  | .init now p d :: as, s => by
    rw [List.cons_append, nacts, nacts, nacts_append poll bs as]
  | .poll now :: as, s => by
    rw [List.cons_append, nacts, nacts]
    cases h : poll now s with
    | ok x => simp only [Res.ok_bind]; exact nacts_append poll bs as x.1
    | ub => rfl
    | abort => rfl
    | diverge => rfl

/-- Polls that find the timer not due change nothing. -/
theorem nacts_polls (beh : κ → List (NAct w κ)) (f : Nat) (s : NSt w κ) : ∀ ts : List (BitVec w),
    (∀ t ∈ ts, isReached s.timer.watch t = false) → nacts (manageN beh (f + 1)) (ts.map .poll) s = .ok s
  | [], _ => rfl
  | t :: ts, h => by
    rw [List.map_cons, nacts, manageN, if_neg (by simp [h t (by simp)]), Res.ok_bind]
    exact nacts_polls beh f s ts fun u hu => h u (by simp [hu])

/-- Calls other than polls do not depend on what polls do. -/
theorem nacts_plain (p q : BitVec w → NSt w κ → Res (NSt w κ × Bool)) : ∀ (as : List (NAct w κ)) (s : NSt w κ),
    (∀ t, .poll t ∉ as) → ∃ m, nacts p as s = .ok m ∧ nacts q as s = .ok m ∧ m.log = s.log
  | [], s, _ => ⟨s, rfl, rfl, rfl⟩
  | .act now a :: as, s, h => by
    obtain ⟨m, h1, h2, h3⟩ := nacts_plain p q as { s with timer := a.exec now s.timer } fun t ht => h t (by simp [ht])
    exact ⟨m, h1, h2, h3⟩
  | .init now r d :: as, s, h => by
    obtain ⟨m, h1, h2, h3⟩ := nacts_plain p q as { s with timer := Timer.init r now d } fun t ht => h t (by simp [ht])
    exact ⟨m, h1, h2, h3⟩
  | .poll t :: as, s, h => absurd (List.mem_cons_self ..) (h t)

/-- **C166**, proved part: a callback that first makes other calls, after which the timer is not due at the times `ts`, and then
polls it at these times. The poll calls the callback once and leaves what it leaves without the nested polls. Missing: nested
polls while the timer is due, for which it is false. -/
theorem C166_once_partial (as : List (NAct w κ)) (ts : List (BitVec w)) (has : ∀ t, .poll t ∉ as) (c : κ)
    (beh beh' : κ → List (NAct w κ)) (hb : beh c = as ++ ts.map .poll) (hb' : beh' c = as) (f : Nat) (now : BitVec w)
    (s : NSt w κ) (hc : s.timer.callback = some c) (hr : isReached s.timer.watch now = true)
    (hq : ∀ m, nacts (manageN beh' (f + 1)) as { s with log := s.log ++ [c] } = .ok m →
      ∀ t ∈ ts, isReached m.timer.watch t = false) :
    ∃ r, manageN beh (f + 2) now s = .ok (r, true) ∧ manageN beh' (f + 2) now s = .ok (r, true) ∧ r.log = s.log ++ [c] := by
  obtain ⟨m, h1, h2, h3⟩ := nacts_plain (manageN beh (f + 1)) (manageN beh' (f + 1)) as { s with log := s.log ++ [c] } has
  rw [manageN, manageN, if_pos hr, hc, if_pos hr]
  simp only [hb, hb', nacts_append, h1, h2, Res.ok_bind, nacts_polls beh f m ts (hq m h2)]
  by_cases ha : m.timer.autoreload ≠ 0
  · rw [if_pos ha]
    exact ⟨_, rfl, rfl, h3⟩
  · rw [if_neg ha]
    exact ⟨_, rfl, rfl, h3⟩

/-- **C166**, proved part for a callback that stops its timer before it polls it, any number of times and at any times. -/
theorem C166_stop_partial (u : BitVec w) (ts : List (BitVec w)) (c : κ) (beh : κ → List (NAct w κ))
    (hb : beh c = .act u .stop :: ts.map .poll) (f : Nat) (now : BitVec w)
    (s : NSt w κ) (hc : s.timer.callback = some c) (hr : isReached s.timer.watch now = true) :
    ∃ r, manageN beh (f + 2) now s = .ok (r, true) ∧ r.log = s.log ++ [c] := by
  obtain ⟨r, h1, _, h3⟩ := C166_once_partial [.act u .stop] ts (by simp) c beh (fun _ => [.act u .stop]) hb rfl f now s hc hr
    (fun m hm t _ => by
      rw [nacts, nacts] at hm
      cases hm
      rfl)
  exact ⟨r, h1, h3⟩

/-- A callback that polls its timer at once, and one that resets it first. -/
example : let beh : Nat → List (NAct 8 Nat) := fun c =>
      if c = 0 then [.poll 12] else [.act 12 .reset, .poll 12, .poll 13]
    isReached (init 10 2 (some 0) : Timer 8 Nat).watch 12 = true ∧
    (manageN beh 9 12 ⟨init 10 2 (some 0), []⟩ >>= fun (s, _) => .ok s.log) = .diverge ∧
    (manageN beh 2 12 ⟨init 10 2 (some 1), []⟩ >>= fun (s, b) => .ok (s.log, b, s.timer.watch.mode)) =
      .ok ([1], true, .stopped) := by decide

end Gel.Timer
