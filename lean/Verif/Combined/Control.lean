import Verif.Time.TimerExact
import Verif.Pid.General

/-!
# A PID controller run by a timer: property C222

A program that controls something: an autoreloading `gel_timer_t` (timer.c) whose callback measures, gives the measured value to
`pid_add_input` (pid.c:25-65), calls `pid_compute` (pid.c:121-127) and drives what is controlled with the result. The main loop polls the
timer with `gel_timer_manage_callback`, and in between the settings of the controller and of the timer may be changed. `unsigned long`
has `w` bits.
-/
namespace Gel.Combined.Control

variable {w : Nat} {α σ : Type} [AddCommGroup α] [LinearOrder α]

/-- What is controlled: how it changes as time passes, what is measured, and what it does when it is driven. -/
structure Plant (σ α : Type) where
  flow : Nat → σ → σ
  sense : σ → α
  drive : α → σ → σ

/-- What the main loop does. -/
inductive Ev (w : Nat) (α : Type) where
  | poll
  | pid (s : Pid.Setting α)
  | timer (a : Timer.Act w)

/-! ## Model -/

structure St (w : Nat) (α σ : Type) where
  timer : Timer.Timer w Unit
  pid : Pid.Pid α
  plant : σ

/-- The callback of the timer. -/
def callback (pl : Plant σ α) (n d : Nat) (p : Pid.Pid α) (x : σ) : Res (Pid.Pid α × σ × α) := do
  let p ← Pid.addInput n d p (pl.sense x)
  let u ← Pid.compute n d p
  pure (p, pl.drive u x, u)

/-- One action at a timestamp: the state afterwards and the value the plant was driven with, if it was. The callback leaves the timer
alone, so that it makes no difference that it is run after the rest of `gel_timer_manage_callback` (timer.c:70-82) here. -/
def exec (pl : Plant σ α) (n d : Nat) (now : BitVec w) (s : St w α σ) : Ev w α → Res (St w α σ × Option α)
  | .poll => do
    let (t, b) ← Timer.manage (fun _ t => t) s.timer now
    if b then do
      let (p, x, u) ← callback pl n d s.pid s.plant
      pure (⟨t, p, x⟩, some u)
    else pure ({ s with timer := t }, none)
  | .pid o => .ok ({ s with pid := Pid.set n s.pid o }, none)
  | .timer a => .ok ({ s with timer := a.exec now s.timer }, none)

/-- The program: every action with the time that passes before it. The times and values with which the plant was driven. -/
def run (pl : Plant σ α) (n d : Nat) (s : St w α σ) (time : Nat) : List (Nat × Ev w α) → Res (σ × List (Nat × α))
  | [] => .ok (s.plant, [])
  | (dt, e) :: l => do
    let (s, u) ← exec pl n d (BitVec.ofNat w (time + dt)) { s with plant := pl.flow dt s.plant } e
    let (x, us) ← run pl n d s (time + dt) l
    pure (x, (u.toList.map fun u => (time + dt, u)) ++ us)

/-- The whole of it, from `gel_timer_init`, `gel_timer_set_autoreload` and `pid_init` on. -/
def program (pl : Plant σ α) (n d : Nat) (period : BitVec w) (t0 : Nat) (x : σ) (l : List (Nat × Ev w α)) : Res (σ × List (Nat × α)) :=
  run pl n d ⟨Timer.setAutoreload (Timer.init period (BitVec.ofNat w t0) (some ())) 1, Pid.init n d, x⟩ t0 l

/-! ## Specification -/

/-- The output of a controller with a history of settings and inputs, newest first (C119). -/
def output (n d : Nat) (h : List (Pid.Op α)) : α := Pid.termP h + Pid.termI n h + Pid.termD d h

/-- The ideal timer (C145), the history of the controller, and the plant. At every poll at which the timer is due the plant is measured
and driven. -/
def ideal (pl : Plant σ α) (n d : Nat) (i : Timer.Exact.Ideal) (h : List (Pid.Op α)) (x : σ) (time : Nat) :
    List (Nat × Ev w α) → σ × List (Nat × α)
  | [] => (x, [])
  | (dt, .pid o) :: l => ideal pl n d (Timer.Exact.wait i dt) (.set o :: h) (pl.flow dt x) (time + dt) l
  | (dt, .timer a) :: l => ideal pl n d (Timer.Exact.act (Timer.Exact.wait i dt) a) h (pl.flow dt x) (time + dt) l
  | (dt, .poll) :: l =>
    if Timer.Exact.due (Timer.Exact.wait i dt) then
      let h' := .input (pl.sense (pl.flow dt x)) :: h
      let j := Timer.Exact.wait i dt
      let r := ideal pl n d (if j.auto then Timer.Exact.fromStart j else Timer.Exact.stopped j) h'
        (pl.drive (output n d h') (pl.flow dt x)) (time + dt) l
      (r.1, (time + dt, output n d h') :: r.2)
    else ideal pl n d (Timer.Exact.wait i dt) h (pl.flow dt x) (time + dt) l

/-- What the timestamps can express, as in C145, at every action that uses the timer. -/
def Fits (m : Nat) (i : Timer.Exact.Ideal) : List (Nat × Ev w α) → Prop
  | [] => True
  | (dt, .pid _) :: l => Fits m (Timer.Exact.wait i dt) l
  | (dt, .timer a) :: l => Timer.Exact.Half m (Timer.Exact.wait i dt) ∧ Fits m (Timer.Exact.act (Timer.Exact.wait i dt) a) l
  | (dt, .poll) :: l => Timer.Exact.Half m (Timer.Exact.wait i dt) ∧
    Timer.Exact.Near (w := w) m (Timer.Exact.wait i dt) (.poll []) ∧
    Fits m (Timer.Exact.step (w := w) (Timer.Exact.wait i dt) (.poll [])).1 l

/-- The timer is left alone and polled at least every `δ`; `g` is the time since the last poll. -/
def Regular (δ : Nat) : Nat → List (Nat × Ev w α) → Prop
  | _, [] => True
  | g, (dt, .poll) :: l => g + dt ≤ δ ∧ Regular δ 0 l
  | g, (dt, .pid _) :: l => g + dt ≤ δ ∧ Regular δ (g + dt) l
  | _, (_, .timer _) :: _ => False

/-- Times that follow one another, after `t`, by at least `p` and less than `p + δ`. -/
def Spaced (p δ : Nat) : Nat → List (Nat × α) → Prop
  | _, [] => True
  | t, (t', _) :: l => t + p ≤ t' ∧ t' < t + p + δ ∧ Spaced p δ t' l

/-- The last of these times. -/
def lastTime : Nat → List (Nat × α) → Nat
  | t, [] => t
  | _, (t', _) :: l => lastTime t' l

/-- The time that passes. -/
def duration : List (Nat × Ev w α) → Nat
  | [] => 0
  | (dt, _) :: l => dt + duration l

/-! ## The program does what the specification says -/

theorem run_append (n d : Nat) : ∀ (os₁ os₂ : List (Pid.Op α)) (p : Pid.Pid α),
    Pid.run n d p (os₁ ++ os₂) = (Pid.run n d p os₁ >>= fun q => Pid.run n d q os₂)
  | [], _, _ => rfl
  | o :: os, os₂, p => by
    simp only [List.cons_append, Pid.run]
    cases Pid.step n d p o with
    | ok q => exact run_append n d os os₂ q
    | ub => rfl
    | abort => rfl
    | diverge => rfl

theorem output_eq {n d : Nat} (hn : 0 < n) (hd : 0 < d) {h : List (Pid.Op α)} {p : Pid.Pid α}
    (hp : Pid.run n d (Pid.init n d) h.reverse = .ok p) (v : α) :
    ∃ q, Pid.addInput n d p v = .ok q ∧ Pid.run n d (Pid.init n d) (.input v :: h).reverse = .ok q ∧
      Pid.compute n d q = .ok (output n d (.input v :: h)) := by
  obtain ⟨q, hq, -, -, -, -, hc⟩ := Pid.C119_compute n d hn hd (.input v :: h).reverse
  rw [List.reverse_reverse] at hc
  refine ⟨q, ?_, hq, hc⟩
  rw [List.reverse_cons, run_append, hp, Res.ok_bind] at hq
  simp only [Pid.run, Pid.step, Res.bind_eq_ok] at hq
  obtain ⟨a, ha, hb⟩ := hq
  rw [ha, hb]

theorem run_exact {pl : Plant σ α} {n d : Nat} (hw : 0 < w) (hn : 0 < n) (hd : 0 < d) : ∀ (l : List (Nat × Ev w α)) (s : St w α σ)
    (time : Nat) (i : Timer.Exact.Ideal) (h : List (Pid.Op α)), Timer.Is s.timer time i →
    Pid.run n d (Pid.init n d) h.reverse = .ok s.pid → Fits (2 ^ (w - 1)) i l →
    run pl n d s time l = .ok (ideal pl n d i h s.plant time l) := by
  intro l
  induction l with
  | nil => intro s time i h _ _ _; rfl
  | cons x l ih =>
    intro s time i h ht hp hf
    obtain ⟨dt, e⟩ := x
    have hw' := ht.wait dt
    cases e with
    | pid o =>
      rw [run, exec, Res.ok_bind]
      simp only
      rw [ih ⟨s.timer, Pid.set n s.pid o, pl.flow dt s.plant⟩ (time + dt) _ (.set o :: h) hw' ?_ hf]
      · rfl
      · rw [List.reverse_cons, run_append, hp]
        rfl
    | timer a =>
      obtain ⟨h1, h2⟩ := hf
      rw [run, exec, Res.ok_bind]
      simp only
      rw [ih ⟨a.exec (BitVec.ofNat w (time + dt)) s.timer, s.pid, pl.flow dt s.plant⟩ (time + dt) _ h (hw'.act hw h1 a) hp h2]
      rfl
    | poll =>
      obtain ⟨h1, h2, h3⟩ := hf
      obtain ⟨t, e, ht'⟩ := hw'.step hw h1 (.poll []) h2
      simp only [Timer.Op.exec, List.foldl_nil] at e
      rw [Res.bind_eq_ok] at e
      obtain ⟨⟨t', b⟩, em, er⟩ := e
      simp only [Res.pure_eq, Res.ok.injEq, Prod.mk.injEq] at er
      obtain ⟨rfl, er⟩ := er
      rw [run, exec]
      simp only
      rw [em, Res.ok_bind]
      simp only [Timer.Exact.step, List.foldl_nil] at er ht' h3
      simp only [ideal]
      by_cases hdue : Timer.Exact.due (Timer.Exact.wait i dt)
      · rw [if_pos hdue] at er ht' h3
        have hb : b = true := by
          cases b
          · simp at er
          · rfl
        obtain ⟨q, hq1, hq2, hq3⟩ := output_eq hn hd hp (pl.sense (pl.flow dt s.plant))
        rw [hb, if_pos rfl, if_pos hdue]
        simp only [callback, hq1, hq3, Res.ok_bind, Res.pure_eq]
        rw [ih ⟨t', q, _⟩ (time + dt) _ _ ht' hq2 h3]
        rfl
      · rw [if_neg hdue] at er ht' h3
        have hb : b = false := by
          cases b
          · rfl
          · simp at er
        rw [hb, if_neg (by simp), if_neg hdue]
        simp only [Res.ok_bind, Res.pure_eq]
        rw [ih ⟨t', s.pid, _⟩ (time + dt) _ _ ht' hp h3]
        rfl

theorem start_is (p : BitVec w) (t0 : Nat) : Timer.Is (Timer.setAutoreload (Timer.init p (BitVec.ofNat w t0) (some ())) 1) t0
    ⟨.running, 0, 0, p.toNat, decide ((1 : BitVec 8) ≠ 0)⟩ := by
  refine ⟨⟨rfl, ?_, ?_, ?_, fun _ => ⟨Nat.zero_le _, Nat.zero_le _, ?_, rfl⟩⟩, rfl, rfl⟩
  · simp [Timer.init, Timer.setAutoreload, Stopwatch.setngo, Stopwatch.start, Stopwatch.set, Stopwatch.init, Timer.Exact.Ideal.watch]
  · simp [Timer.init, Timer.setAutoreload, Stopwatch.setngo, Stopwatch.start, Stopwatch.set, Stopwatch.init, Timer.Exact.Ideal.watch]
  · simp [Timer.Exact.Ideal.watch]
  · simp [Timer.init, Timer.setAutoreload, Stopwatch.setngo, Stopwatch.start, Stopwatch.set, Stopwatch.init, Timer.Exact.Ideal.watch]

/-- **C222.** Whatever is controlled, and whatever is done to the controller and to the timer between the polls: the plant is measured
and driven at the polls at which the ideal timer of C145 is due, and with what C119 says of the settings and measured values so far. -/
theorem C222_exact (pl : Plant σ α) {n d : Nat} (hw : 0 < w) (hn : 0 < n) (hd : 0 < d) (period : BitVec w) (t0 : Nat) (x : σ)
    (l : List (Nat × Ev w α)) (hf : Fits (2 ^ (w - 1)) ⟨.running, 0, 0, period.toNat, true⟩ l) :
    program pl n d period t0 x l = .ok (ideal pl n d ⟨.running, 0, 0, period.toNat, true⟩ [] x t0 l) :=
  run_exact hw hn hd l _ t0 _ [] (start_is period t0) rfl hf

/-! ## With polls at least every `δ` -/

theorem regular_fits {m p δ : Nat} (hp : 0 < p) (hδ : 0 < δ) (hm : p + δ ≤ m) : ∀ (l : List (Nat × Ev w α)) (g e : Nat), e < p + g →
    Regular δ g l → Fits m ⟨.running, e, e, p, true⟩ l := by
  intro l
  induction l with
  | nil => intros; trivial
  | cons x l ih =>
    intro g e he hr
    obtain ⟨dt, ev⟩ := x
    cases ev with
    | timer a => exact hr.elim
    | pid o =>
      exact ih (g + dt) (e + dt) (by omega) hr.2
    | poll =>
      obtain ⟨h1, h2⟩ := hr
      refine ⟨fun _ => ?_, ⟨?_, fun _ => ?_⟩, ?_⟩
      · simp only [Timer.Exact.wait, if_true]; omega
      · simp only [Timer.Exact.wait, if_true]; omega
      · simp only [Timer.Exact.wait, if_true]; omega
      · simp only [Timer.Exact.wait, if_true, Timer.Exact.step, List.foldl_nil, Timer.Exact.due]
        split_ifs with hd
        · exact ih 0 0 (by omega) h2
        · refine ih 0 (e + dt) ?_ h2
          simp at hd
          omega

theorem regular_spaced {pl : Plant σ α} {n d p δ : Nat} (hp : 0 < p) : ∀ (l : List (Nat × Ev w α)) (g e time last : Nat)
    (h : List (Pid.Op α)) (x : σ), e < p + g → time = last + e → Regular δ g l →
    Spaced p δ last (ideal pl n d ⟨.running, e, e, p, true⟩ h x time l).2 ∧
    time + duration l < lastTime last (ideal pl n d ⟨.running, e, e, p, true⟩ h x time l).2 + p + (if l = [] then g else δ) := by
  intro l
  induction l with
  | nil =>
    intro g e time last h x he ht _
    refine ⟨trivial, ?_⟩
    simp only [duration, ideal, lastTime, if_true]
    omega
  | cons y l ih =>
    intro g e time last h x he ht hr
    obtain ⟨dt, ev⟩ := y
    simp only [List.cons_ne_nil, if_false, reduceCtorEq]
    cases ev with
    | timer a => exact hr.elim
    | pid o =>
      obtain ⟨h1, h2⟩ := hr
      obtain ⟨i1, i2⟩ := ih (g + dt) (e + dt) (time + dt) last (.set o :: h) (pl.flow dt x) (by omega) (by omega) h2
      simp only [ideal, Timer.Exact.wait, if_true, duration]
      refine ⟨i1, ?_⟩
      split_ifs at i2 <;> omega
    | poll =>
      obtain ⟨h1, h2⟩ := hr
      simp only [ideal, Timer.Exact.wait, if_true, duration, Timer.Exact.due]
      split_ifs with hd
      · obtain ⟨i1, i2⟩ := ih 0 0 (time + dt) (time + dt) (.input (pl.sense (pl.flow dt x)) :: h)
          (pl.drive (output n d (.input (pl.sense (pl.flow dt x)) :: h)) (pl.flow dt x)) (by omega) rfl h2
        simp only [ne_eq, reduceCtorEq, not_false_eq_true, true_and] at hd
        refine ⟨⟨by omega, by omega, i1⟩, ?_⟩
        simp only [lastTime, Timer.Exact.fromStart]
        split_ifs at i2 <;> omega
      · simp only [ne_eq, reduceCtorEq, not_false_eq_true, true_and, not_le] at hd
        obtain ⟨i1, i2⟩ := ih 0 (e + dt) (time + dt) last h (pl.flow dt x) (by omega) (by omega) h2
        refine ⟨i1, ?_⟩
        split_ifs at i2 <;> omega

/-- **C222.** With a timer that is left alone and polled at least every `δ` ms, `period + δ` being at most half the range of the
timestamps: the plant is driven, for the first time after the start and then each time after the time before, at least a period and less
than `period + δ` later, and never stops being driven. -/
theorem C222_regular (pl : Plant σ α) {n d : Nat} (hw : 0 < w) (hn : 0 < n) (hd : 0 < d) (period : BitVec w) (hp : period ≠ 0) {δ : Nat}
    (hδ : 0 < δ) (hm : period.toNat + δ ≤ 2 ^ (w - 1)) (t0 : Nat) (x : σ) (l : List (Nat × Ev w α)) (hr : Regular δ 0 l) :
    ∃ y us, program pl n d period t0 x l = .ok (y, us) ∧ Spaced period.toNat δ t0 us ∧
      t0 + duration l < lastTime t0 us + period.toNat + δ := by
  have hp : 0 < period.toNat := by
    rcases Nat.eq_zero_or_pos period.toNat with h | h
    · exact absurd (BitVec.eq_of_toNat_eq (by simpa using h)) hp
    · exact h
  refine ⟨_, _, C222_exact pl hw hn hd period t0 x l (regular_fits hp hδ hm l 0 0 (by omega) hr), ?_⟩
  obtain ⟨h1, h2⟩ := regular_spaced (pl := pl) (n := n) (d := d) hp l 0 0 t0 t0 [] x (by omega) rfl hr
  refine ⟨h1, ?_⟩
  split_ifs at h2 <;> omega

/-! ## A loop that is closed -/

/-- A plant that keeps what it has been driven to: a counter to which the output is added. -/
def counter (α : Type) [Add α] : Plant α α := ⟨fun _ x => x, fun x => x, fun u x => x + u⟩

/-- Polls alone. -/
def polls (w : Nat) (α : Type) (l : List Nat) : List (Nat × Ev w α) := l.map fun dt => (dt, .poll)

/-- Histories of a controller with the gains 1, 0 and 0 and the setpoint `r`. -/
def Simple (r : α) (h : List (Pid.Op α)) : Prop :=
  Pid.kpOf h = (fun x => x) ∧ Pid.kiOf h = (fun _ => 0) ∧ Pid.kdOf h = (fun _ => 0) ∧ Pid.spOf h = r

omit [LinearOrder α] in
theorem simple_input {r : α} {h : List (Pid.Op α)} (hs : Simple r h) (v : α) : Simple r (.input v :: h) := hs

theorem simple_output {n d : Nat} {r : α} {h : List (Pid.Op α)} (hs : Simple r h) (v : α) : output n d (.input v :: h) = r - v := by
  obtain ⟨h1, h2, h3, h4⟩ := simple_input hs v
  simp only [output, Pid.termP, Pid.termI, Pid.termD, h1, h2, h3, Pid.errOf, Pid.inputOf, Option.getD_some, h4, ite_self, add_zero]

theorem ideal_counter {n d : Nat} {r : α} : ∀ (l : List Nat) (i : Timer.Exact.Ideal) (h : List (Pid.Op α)) (x : α) (time : Nat),
    Simple r h →
    let z := ideal (counter α) n d i h x time (polls w α l)
    (z.2 = [] ∧ z.1 = x) ∨ (∃ t us, z.2 = (t, r - x) :: us ∧ z.1 = r ∧ ∀ u ∈ us, u.2 = 0) := by
  intro l
  induction l with
  | nil => intro i h x time _; exact .inl ⟨rfl, rfl⟩
  | cons dt l ih =>
    intro i h x time hs
    simp only [polls, List.map_cons, ideal]
    by_cases hd : Timer.Exact.due (Timer.Exact.wait i dt)
    · rw [if_pos hd, simple_output hs]
      refine .inr ⟨_, _, rfl, ?_⟩
      generalize (if (Timer.Exact.wait i dt).auto = true then Timer.Exact.fromStart (Timer.Exact.wait i dt)
        else Timer.Exact.stopped (Timer.Exact.wait i dt)) = j
      have := ih j (.input x :: h) (x + (r - x)) (time + dt) (simple_input hs x)
      simp only [polls] at this
      have hx : x + (r - x) = r := by abel
      rcases this with ⟨h1, h2⟩ | ⟨t, us, h1, h2, h3⟩
      · refine ⟨?_, ?_⟩
        · simpa [counter, hx] using h2
        · simp only [counter] at h1 ⊢
          rw [h1]
          simp
      · refine ⟨h2, ?_⟩
        simp only [counter] at h1 ⊢
        rw [h1]
        intro u hu
        rcases List.mem_cons.1 hu with rfl | hu
        · simp [hx]
        · exact h3 u hu
    · rw [if_neg hd]
      exact ih _ h x (time + dt) hs

/-- **C222.** With gains 1, 0 and 0 and a setpoint `r`, polls at least every `δ` ms for longer than `period + δ` bring the counter to `r`
with the first output, which stays there: all later ones are 0. -/
theorem C222_deadbeat {n d : Nat} (hw : 0 < w) (hn : 0 < n) (hd : 0 < d) (period : BitVec w) (hp : period ≠ 0) {δ : Nat}
    (hδ : 0 < δ) (hm : period.toNat + δ ≤ 2 ^ (w - 1)) (t0 : Nat) (x r : α) (l : List Nat) (hl : ∀ dt ∈ l, dt ≤ δ)
    (hlong : period.toNat + δ ≤ l.sum) :
    ∃ t us, program (counter α) n d period t0 x
        ((0, .pid (.tune (fun x => x) (fun _ => 0) (fun _ => 0))) :: (0, .pid (.sp r)) :: polls w α l) =
      .ok (r, (t, r - x) :: us) ∧ ∀ u ∈ us, u.2 = 0 := by
  have hreg : ∀ l : List Nat, (∀ dt ∈ l, dt ≤ δ) → Regular δ 0 (polls w α l) := by
    intro l
    induction l with
    | nil => intro _; trivial
    | cons a l ih =>
      intro h
      exact ⟨by have := h a (by simp); omega, ih fun b hb => h b (by simp [hb])⟩
  have hdur : ∀ l : List Nat, duration (polls w α l) = l.sum := by
    intro l
    induction l with
    | nil => rfl
    | cons a l ih => rw [polls, List.map_cons, duration, List.sum_cons, ← ih]; rfl
  have hr : Regular δ 0 ((0, .pid (.tune (fun x => x) (fun _ => 0) (fun _ => 0))) :: (0, .pid (.sp r)) :: polls w α l) :=
    ⟨by omega, by omega, hreg l hl⟩
  have hp' : 0 < period.toNat := by
    rcases Nat.eq_zero_or_pos period.toNat with h | h
    · exact absurd (BitVec.eq_of_toNat_eq (by simpa using h)) hp
    · exact h
  have he := C222_exact (counter α) hw hn hd period t0 x _ (regular_fits hp' hδ hm _ 0 0 (by omega) hr)
  obtain ⟨y, us, h1, h2, h3⟩ := C222_regular (counter α) hw hn hd period hp hδ hm t0 x _ hr
  rw [h1] at he
  simp only [duration, hdur, Nat.zero_add] at h3
  have hi := ideal_counter (w := w) (n := n) (d := d) l ⟨.running, 0, 0, period.toNat, true⟩
    [.set (.sp r), .set (.tune (fun x => x) (fun _ => 0) (fun _ => 0))] x t0 ⟨rfl, rfl, rfl, rfl⟩
  simp only [ideal, Timer.Exact.wait, if_true, Nat.add_zero, counter] at he hi
  rw [Res.ok.injEq] at he
  rw [← he] at hi
  rcases hi with ⟨e1, e2⟩ | ⟨t, us', e1, e2, e3⟩
  · simp only at e1
    rw [e1, lastTime] at h3
    omega
  · simp only at e1 e2
    refine ⟨t, us', ?_, e3⟩
    rw [h1, e1, e2]
    rfl

/-- An 8 bit clock that wraps round, a controller with all gains and a plant that leaks, with a period of 20 and polls 7 ms apart: it is
driven 21 ms apart; then a pause, in which time does not count, and a change of the setpoint. -/
example : let pl : Plant Int Int := ⟨fun dt x => x - dt, fun x => x, fun u x => x + u⟩
    program pl 3 2 (20 : BitVec 8) 240 0 [(0, .pid (.tune (fun x => x / 2) (fun x => x / 4) (fun x => x / 4))), (0, .pid (.sp 100)),
      (7, .poll), (7, .poll), (7, .poll), (7, .poll), (7, .poll), (7, .poll), (3, .timer .pause), (100, .poll), (0, .timer .resume),
      (4, .poll), (14, .poll), (1, .pid (.sp 50)), (21, .poll)] =
    .ok (80, [(261, 90), (282, 51), (403, 134), (425, -10)]) := by decide +kernel

/-- The counter driven from 3 to 10 at once. -/
example : program (counter Int) 3 2 (20 : BitVec 8) 240 3
    ((0, .pid (.tune (fun x => x) (fun _ => 0) (fun _ => 0))) :: (0, .pid (.sp 10)) :: polls 8 Int [7, 7, 7, 7, 7, 7]) =
    .ok (10, [(261, 7), (282, 0)]) := by decide +kernel

end Gel.Combined.Control
