import Verif.Time.TimerProps

/-!
# Timer: the result of every history of calls (C145)
-/
namespace Gel.Timer

open Stopwatch

/-! ## Histories of the model -/

/-- The calls that change a timer; a callback can make them too. -/
inductive Act (w : Nat) where
  | reset | stop | resume | pause
  | setAutoreload (a : BitVec 8)
  | changePeriod (p : BitVec w)
  deriving DecidableEq

/-- One call at a time. -/
def Act.exec (now : BitVec w) (t : Timer w κ) : Act w → Timer w κ
  | .reset => Timer.reset t now
  | .stop => Timer.stop t
  | .resume => Timer.resume t now
  | .pause => Timer.pause t now
  | .setAutoreload a => Timer.setAutoreload t a
  | .changePeriod p => Timer.changePeriod t p now

/-- The calls a client can make: a poll comes with the calls the callback makes if it is called. -/
inductive Op (w : Nat) where
  | act (a : Act w)
  | poll (cb : List (Act w))
  | remaining

/-- One call: the timer and the returned number. -/
def Op.exec (now : BitVec w) (t : Timer w Unit) : Op w → Res (Timer w Unit × Nat)
  | .act a => .ok (a.exec now t, 0)
  | .poll cb => do
    let (t, b) ← manage (fun _ t => cb.foldl (Act.exec now) t) t now
    pure (t, if b then 1 else 0)
  | .remaining => .ok (t, (getRemaining t now).toNat)

/-- A history: every call with the time that passes before it; the returned numbers. Timestamps are true times modulo
2^w. -/
def run (t : Timer w Unit) (time : Nat) : List (Nat × Op w) → Res (List Nat)
  | [] => .ok []
  | (dt, o) :: l => do
    let (t, r) ← o.exec (BitVec.ofNat w (time + dt)) t
    let rs ← run t (time + dt) l
    pure (r :: rs)

/-! ## Specification -/

namespace Exact

/-- An ideal timer. -/
structure Ideal where
  mode : Stopwatch.Spec.Mode
  /-- The time it has run of its period. -/
  elapsed : Nat
  /-- The time since it was last set running. -/
  stretch : Nat
  period : Nat
  auto : Bool
  deriving DecidableEq

/-- Time passes. -/
def wait (i : Ideal) (dt : Nat) : Ideal :=
  if i.mode = .running then { i with elapsed := i.elapsed + dt, stretch := i.stretch + dt } else i

/-- Run from the beginning of the period. -/
def fromStart (i : Ideal) : Ideal := { i with mode := .running, elapsed := 0, stretch := 0 }

/-- Stopped; the next start is from the beginning of the period. -/
def stopped (i : Ideal) : Ideal := { i with mode := .stopped, elapsed := 0 }

def act (i : Ideal) : Act w → Ideal
  | .reset => if i.mode = .stopped then i else { i with elapsed := 0, stretch := 0 }
  | .stop => stopped i
  | .resume => if i.mode = .running then i else { i with mode := .running, stretch := 0 }
  | .pause => if i.mode = .running then { i with mode := .paused } else i
  | .setAutoreload a => { i with auto := decide (a ≠ 0) }
  | .changePeriod p => if i.mode = .stopped then i else { i with elapsed := 0, stretch := 0, period := p.toNat }

/-- The callback is due. -/
def due (i : Ideal) : Prop := i.mode ≠ .stopped ∧ i.period ≤ i.elapsed

instance (i : Ideal) : Decidable (due i) := by unfold due; infer_instance

/-- Each call: the timer and the returned number. -/
def step (i : Ideal) : Op w → Ideal × Nat
  | .act a => (act i a, 0)
  | .poll cb =>
    if due i then
      let j := cb.foldl act i
      (if j.auto then fromStart j else stopped j, 1)
    else (i, 0)
  | .remaining => (i, i.period - i.elapsed)

def run (i : Ideal) : List (Nat × Op w) → List Nat
  | [] => []
  | (dt, o) :: l => (step (wait i dt) o).2 :: run (step (wait i dt) o).1 l

/-- The limits of the timestamps in one state: the timer has run for at most half their range without interruption. -/
def Half (m : Nat) (i : Ideal) : Prop := i.mode = .running → i.stretch ≤ m

/-- What a poll or a query of the remaining time needs: less than the whole range (`2 * m`) has elapsed of the period, and
the end is less than half the range ahead. -/
def Near (m : Nat) (i : Ideal) : Op w → Prop
  | .act _ => True
  | .poll _ => i.elapsed < 2 * m ∧ (i.mode = .running → i.period < i.elapsed + m)
  | .remaining => i.elapsed < 2 * m

/-- At every call of the history. -/
def Fits (m : Nat) (i : Ideal) : List (Nat × Op w) → Prop
  | [] => True
  | (dt, o) :: l => Half m (wait i dt) ∧ Near m (wait i dt) o ∧ Fits m (step (wait i dt) o).1 l

instance decFits (m : Nat) : ∀ (l : List (Nat × Op w)) (i : Ideal), Decidable (Fits m i l)
  | [], _ => by unfold Fits; infer_instance
  | (d, o) :: l, i => by
    unfold Fits Half
    have : Decidable (Near m (wait i d) o) := by cases o <;> unfold Near <;> infer_instance
    have := decFits m l (step (wait i d) o).1
    infer_instance

end Exact

/-! ## Refinement -/

/-- The stopwatch of an ideal timer. -/
def Exact.Ideal.watch (i : Exact.Ideal) : Stopwatch.Spec.Ideal := ⟨i.mode, i.elapsed, i.stretch, i.period⟩

/-- The timer `t` at `time` represents the ideal timer `i`. -/
structure Is (t : Timer w Unit) (time : Nat) (i : Exact.Ideal) : Prop where
  rep : Rep t.watch time i.watch
  auto : i.auto = decide (t.autoreload ≠ 0)
  cb : t.callback = some ()

theorem Is.wait {t : Timer w Unit} {time : Nat} {i : Exact.Ideal} (h : Is t time i) (dt : Nat) :
    Is t (time + dt) (Exact.wait i dt) := by
  have hr := h.rep.wait dt
  rw [wait_eq] at hr
  rw [Exact.wait]
  split_ifs with hm
  · rw [if_pos (by exact hm)] at hr
    exact ⟨hr, h.auto, h.cb⟩
  · rw [if_neg (by exact hm)] at hr
    exact ⟨hr, h.auto, h.cb⟩

theorem half_act {m : Nat} {i : Exact.Ideal} (h : Exact.Half m i) (a : Act w) : Exact.Half m (Exact.act i a) := by
  cases a <;> simp only [Exact.act, Exact.stopped] <;> (try split_ifs) <;> simp_all [Exact.Half]

theorem Is.mode {t : Timer w Unit} {time : Nat} {i : Exact.Ideal} (h : Is t time i) :
    t.watch.mode = match i.mode with | .stopped => .stopped | .running => .counting | .paused => .paused := by
  have h1 := h.rep.stopped
  have h2 := h.rep.paused
  have h3 := h.rep.counting
  simp only [Exact.Ideal.watch] at h1 h2 h3
  cases hm : i.mode <;> simp_all

theorem Is.act {t : Timer w Unit} {time : Nat} {i : Exact.Ideal} (hw : 0 < w) (h : Is t time i)
    (hf : Exact.Half (2 ^ (w - 1)) i) (a : Act w) : Is (a.exec (BitVec.ofNat w time) t) time (Exact.act i a) := by
  have hm := h.mode
  have ex := fun o => h.rep.exec hw hf (o := o)
  have two : ∀ o, (Op.ideal o |>.exec i.watch).stretch = 0 →
      Rep ((Stopwatch.pause (o.exec t.watch (BitVec.ofNat w time)) (BitVec.ofNat w time)).1) time
        (Spec.Call.pause.exec (Op.ideal o |>.exec i.watch)) := fun o h0 =>
    (ex o).exec hw (fun _ => by rw [h0]; exact Nat.zero_le _) .pause
  cases a with
  | stop => exact ⟨ex .stop, h.auto, h.cb⟩
  | resume =>
    refine ⟨?_, by simp only [Exact.act]; split_ifs <;> exact h.auto, h.cb⟩
    have := ex .start
    simp only [Stopwatch.Op.ideal, Spec.Call.exec, Spec.begin] at this
    simp only [Exact.act]
    split_ifs with hr
    · rw [if_pos (by exact hr)] at this; exact this
    · rw [if_neg (by exact hr)] at this; exact this
  | pause =>
    refine ⟨?_, by simp only [Exact.act]; split_ifs <;> exact h.auto, h.cb⟩
    have := ex .pause
    simp only [Stopwatch.Op.ideal, Spec.Call.exec] at this
    simp only [Exact.act]
    split_ifs with hr
    · rw [if_pos (by exact hr)] at this; exact this
    · rw [if_neg (by exact hr)] at this; exact this
  | setAutoreload a => exact ⟨h.rep, rfl, h.cb⟩
  | reset =>
    simp only [Act.exec, Timer.reset, hm, Exact.act]
    cases hi : i.mode with
    | stopped => simp only [if_true]; exact h
    | running =>
      refine ⟨?_, h.auto, h.cb⟩
      have := ex .restart
      simp only [Stopwatch.Op.ideal, Spec.Call.exec] at this
      simpa [Exact.Ideal.watch, hi, Stopwatch.Op.exec] using this
    | paused =>
      refine ⟨?_, h.auto, h.cb⟩
      have := two .restart rfl
      simpa [Stopwatch.Op.ideal, Spec.Call.exec, Exact.Ideal.watch, hi, Stopwatch.Op.exec] using this
  | changePeriod p =>
    simp only [Act.exec, Timer.changePeriod, hm, Exact.act]
    cases hi : i.mode with
    | stopped => simp only [if_true]; exact h
    | running =>
      refine ⟨?_, h.auto, h.cb⟩
      have := ex (.change p)
      simp only [Stopwatch.Op.ideal, Spec.Call.exec] at this
      simpa [Exact.Ideal.watch, hi, Stopwatch.Op.exec] using this
    | paused =>
      refine ⟨?_, h.auto, h.cb⟩
      have := two (.change p) rfl
      simpa [Stopwatch.Op.ideal, Spec.Call.exec, Exact.Ideal.watch, hi, Stopwatch.Op.exec] using this

theorem Is.acts {time : Nat} (hw : 0 < w) (l : List (Act w)) : ∀ (t : Timer w Unit) (i : Exact.Ideal), Is t time i →
    Exact.Half (2 ^ (w - 1)) i →
    Is (l.foldl (Act.exec (BitVec.ofNat w time)) t) time (l.foldl Exact.act i) ∧
      Exact.Half (2 ^ (w - 1)) (l.foldl Exact.act i) := by
  induction l with
  | nil => intro t i h hf; exact ⟨h, hf⟩
  | cons a l ih => intro t i h hf; exact ih _ _ (h.act hw hf a) (half_act hf a)

theorem Is.step {t : Timer w Unit} {time : Nat} {i : Exact.Ideal} (hw : 0 < w) (h : Is t time i)
    (hf : Exact.Half (2 ^ (w - 1)) i) (o : Op w) (hn : Exact.Near (2 ^ (w - 1)) i o) :
    ∃ s, o.exec (BitVec.ofNat w time) t = .ok (s, (Exact.step i o).2) ∧ Is s time (Exact.step i o).1 := by
  have h2 := half w hw
  cases o with
  | act a => exact ⟨_, rfl, h.act hw hf a⟩
  | remaining =>
    obtain ⟨q, -⟩ := h.rep.queries hw hf (by rw [← h2]; exact hn) _ rfl
    refine ⟨t, ?_, h⟩
    simp only [Op.exec, getRemaining, q, Exact.step]
    rfl
  | poll cb =>
    obtain ⟨hn1, hn2⟩ := hn
    obtain ⟨-, q1, q2, q3⟩ := h.rep.queries hw hf (by rw [← h2]; exact hn1) _ rfl
    have hreach : isReached t.watch (BitVec.ofNat w time) = true ↔ Exact.due i := by
      rw [Exact.due]
      cases hi : i.mode with
      | stopped => simp [q1 hi]
      | paused => simpa [Exact.Ideal.watch] using q2 hi
      | running => simpa [Exact.Ideal.watch] using q3 hi (hn2 hi)
    simp only [Op.exec, Exact.step, manage]
    by_cases hd : Exact.due i
    · rw [if_pos (hreach.2 hd), h.cb, if_pos hd]
      obtain ⟨ha, hfa⟩ := Is.acts hw cb t i h hf
      simp only
      by_cases hauto : (cb.foldl Exact.act i).auto = true
      · rw [if_pos hauto]
        have := ha.auto
        rw [hauto, eq_comm, decide_eq_true_iff] at this
        rw [if_pos this]
        refine ⟨_, rfl, ?_, ?_, ha.cb⟩
        · have := ha.rep.exec hw hfa .restart
          exact this
        · exact ha.auto
      · rw [if_neg hauto]
        have := ha.auto
        rw [Bool.eq_false_iff.2 hauto, eq_comm, decide_eq_false_iff_not] at this
        rw [if_neg this]
        refine ⟨_, rfl, ?_, ?_, ha.cb⟩
        · have := ha.rep.exec hw hfa .stop
          exact this
        · exact ha.auto
    · rw [if_neg (mt hreach.1 hd), if_neg hd]
      exact ⟨t, rfl, h⟩

theorem run_exact (hw : 0 < w) : ∀ (l : List (Nat × Op w)) (t : Timer w Unit) (time : Nat) (i : Exact.Ideal), Is t time i →
    Exact.Fits (2 ^ (w - 1)) i l → run t time l = .ok (Exact.run i l) := by
  intro l
  induction l with
  | nil => intro t time i _ _; rfl
  | cons x l ih =>
    intro t time i h hf
    obtain ⟨dt, o⟩ := x
    obtain ⟨h1, h2, h3⟩ := hf
    obtain ⟨s, e, hs⟩ := (h.wait dt).step hw h1 o h2
    rw [run, e, Res.ok_bind]
    simp only
    rw [ih _ _ _ hs h3]
    rfl

/-- **C145.** After `gel_timer_init`, every history of calls of all functions, polls with callbacks that make any of the
other calls included, returns what the ideal timer returns, as long as the timestamps can express it: see `Fits`. -/
theorem C145_exact (w : Nat) (hw : 0 < w) (p : BitVec w) (t0 : Nat) (l : List (Nat × Op w))
    (hf : Exact.Fits (2 ^ (w - 1)) ⟨.running, 0, 0, p.toNat, false⟩ l) :
    run (init p (BitVec.ofNat w t0) (some ())) t0 l = .ok (Exact.run ⟨.running, 0, 0, p.toNat, false⟩ l) := by
  refine run_exact hw l _ _ _ ⟨⟨rfl, ?_, ?_, ?_, fun _ => ⟨Nat.zero_le _, Nat.zero_le _, ?_, rfl⟩⟩, rfl, rfl⟩ hf
  · simp [init, setngo, start, Stopwatch.set, Stopwatch.init, Exact.Ideal.watch]
  · simp [init, setngo, start, Stopwatch.set, Stopwatch.init, Exact.Ideal.watch]
  · simp [Exact.Ideal.watch]
  · simp [init, setngo, start, Stopwatch.set, Stopwatch.init, Exact.Ideal.watch]

/-- A timer of 8 bits across a wrap: it fires late, the callback turns autoreload on and sets a period of 20; then a
pause when the period is over, in which it fires again, and goes on running. -/
example : let l : List (Nat × Op 8) := [(3, .poll []), (20, .poll [.changePeriod 20, .setAutoreload 1]), (5, .remaining),
      (20, .act .pause), (100, .poll []), (19, .poll []), (1, .poll [.setAutoreload 0]), (120, .poll []), (0, .remaining)]
    Exact.Fits (2 ^ (8 - 1)) ⟨.running, 0, 0, 10, false⟩ l ∧
    run (init 10 (BitVec.ofNat 8 240) (some ())) 240 l = .ok [0, 1, 15, 0, 1, 0, 1, 0, 20] := by decide

end Gel.Timer
