import Verif.Time.Stopwatch
import Verif.Time.CheckProps
import Verif.Time.Spec

/-!
# Stopwatch: properties C56 to C58
-/
namespace Gel.Stopwatch

open Time

/-- The ideal call of a call. -/
def Op.ideal : Op w → Spec.Call
  | .init => .init
  | .start => .start
  | .stop => .stop
  | .pause => .pause
  | .restart => .restart
  | .change p => .change p.toNat
  | .set p => .set p.toNat
  | .setElapsed e => .setElapsed e.toNat
  | .setngo p => .setngo p.toNat

def ideal (l : List (Nat × Op w)) : List (Nat × Spec.Call) := l.map fun x => (x.1, x.2.ideal)

/-- The ideal stopwatch after `stopwatch_init`. -/
def ideal0 : Spec.Ideal := ⟨.stopped, 0, 0, 0⟩

theorem wait_eq (s : Spec.Ideal) (n : Nat) : Spec.wait s n =
    if s.mode = .running then { s with elapsed := s.elapsed + n, stretch := s.stretch + n } else s := by
  induction n with
  | zero => rw [Spec.wait]; split_ifs <;> rfl
  | succ n ih =>
    rw [Spec.wait, ih]
    by_cases h : s.mode = .running
    · simp [h, Spec.tick, Nat.add_assoc]
    · simp [h, Spec.tick]

/-- The stopwatch `s` at time `t` represents the ideal stopwatch `i`. -/
structure Rep (s : Watch w) (t : Nat) (i : Spec.Ideal) : Prop where
  total : s.total.toNat = i.period
  stopped : s.mode = .stopped ↔ i.mode = .stopped
  paused : s.mode = .paused ↔ i.mode = .paused
  idle : i.mode ≠ .running → s.elapsed = BitVec.ofNat w i.elapsed
  running : i.mode = .running → i.stretch ≤ t ∧ i.stretch ≤ i.elapsed ∧ s.starting = BitVec.ofNat w (t - i.stretch) ∧
    s.elapsed = BitVec.ofNat w (i.elapsed - i.stretch)

theorem Rep.counting {s : Watch w} {t : Nat} {i : Spec.Ideal} (h : Rep s t i) :
    s.mode = .counting ↔ i.mode = .running := by
  have h1 := h.stopped
  have h2 := h.paused
  revert h1 h2
  cases s.mode <;> cases i.mode <;> simp

theorem Rep.wait {s : Watch w} {t : Nat} {i : Spec.Ideal} (h : Rep s t i) (n : Nat) :
    Rep s (t + n) (Spec.wait i n) := by
  rw [wait_eq]
  by_cases hr : i.mode = .running
  · rw [if_pos hr]
    obtain ⟨a, b, c, d⟩ := h.running hr
    exact ⟨h.total, h.stopped, h.paused, fun hn => absurd hr hn, fun _ =>
      ⟨by simp only; omega, by simp only; omega, by simp only; rw [c]; congr 1; omega, by simp only; rw [d]; congr 1; omega⟩⟩
  · rw [if_neg hr]
    exact ⟨h.total, h.stopped, h.paused, h.idle, fun hn => absurd hn hr⟩

theorem interval_nat (w : Nat) (t k : Nat) (hk : 2 * k ≤ 2 ^ w) (hkt : k ≤ t) :
    timeInterval (BitVec.ofNat w (t - k)) (BitVec.ofNat w t) = BitVec.ofNat w k := by
  have hs : ∀ n : Nat, BitVec.ofNat w n = stamp w n := fun n => by rw [stamp, BitVec.ofInt_natCast]
  have hc : ((2 ^ w : Nat) : Int) = 2 ^ w := by push_cast; rfl
  rw [hs, hs, hs, (C54_interval w).1 _ _ (by omega) (by omega), abs_of_nonneg (by omega)]
  congr 1; omega

theorem half (w : Nat) (hw : 0 < w) : 2 * 2 ^ (w - 1) = 2 ^ w := by rw [← pow_succ']; congr 1; omega

theorem Rep.getElapsed {s : Watch w} {t : Nat} {i : Spec.Ideal} (hw : 0 < w) (h : Rep s t i)
    (hf : i.mode = .running → i.stretch ≤ 2 ^ (w - 1)) :
    Stopwatch.getElapsed s (BitVec.ofNat w t) = BitVec.ofNat w i.elapsed := by
  have h2 := half w hw
  by_cases hr : i.mode = .running
  · obtain ⟨a, b, c, d⟩ := h.running hr
    have := hf hr
    rw [Stopwatch.getElapsed, if_pos (h.counting.2 hr), c, d, interval_nat w t _ (by omega) a, ← BitVec.ofNat_add]
    congr 1; omega
  · rw [Stopwatch.getElapsed, if_neg (mt h.counting.1 hr), h.idle hr]

theorem ofNat_toNat' (x : BitVec w) : BitVec.ofNat w x.toNat = x := by simp

theorem Rep.exec {s : Watch w} {t : Nat} {i : Spec.Ideal} (hw : 0 < w) (h : Rep s t i)
    (hf : i.mode = .running → i.stretch ≤ 2 ^ (w - 1)) (o : Op w) :
    Rep (o.exec s (BitVec.ofNat w t)) t (o.ideal.exec i) := by
  have h2 := half w hw
  have hst := h.stopped
  have hpa := h.paused
  have hto := h.total
  have begin_rep : ∀ (s : Watch w) (i : Spec.Ideal), Rep s t i → Rep (start s (BitVec.ofNat w t)).1 t (Spec.begin i) := by
    intro s i h
    rw [start, Spec.begin]
    have hc := h.counting
    by_cases hr : i.mode = .running
    · rw [if_pos hr, hc.2 hr]; exact h
    · rw [if_neg hr]
      have hid := h.idle hr
      cases hm : s.mode with
      | counting => exact absurd (hc.1 hm) hr
      | stopped => exact ⟨h.total, by simp, by simp, by simp, fun _ => ⟨by simp, by simp, by simp, by simpa using hid⟩⟩
      | paused => exact ⟨h.total, by simp, by simp, by simp, fun _ => ⟨by simp, by simp, by simp, by simpa using hid⟩⟩
  have set_rep : ∀ p : BitVec w, Rep (set s p).1 t (if i.mode = .stopped then { i with period := p.toNat } else i) := by
    intro p
    rw [set]
    by_cases hs : i.mode = .stopped
    · rw [if_neg (by simpa using hst.2 hs), if_pos hs]
      exact ⟨rfl, hst, hpa, h.idle, h.running⟩
    · rw [if_pos (mt hst.1 hs), if_neg hs]; exact h
  cases o with
  | init => exact ⟨rfl, by simp [Op.exec, Stopwatch.init, Op.ideal, Spec.Call.exec],
      by simp [Op.exec, Stopwatch.init, Op.ideal, Spec.Call.exec], fun _ => rfl, by simp [Op.ideal, Spec.Call.exec]⟩
  | start => exact begin_rep s i h
  | stop => exact ⟨hto, by simp [Op.exec, stop, Op.ideal, Spec.Call.exec],
      by simp [Op.exec, stop, Op.ideal, Spec.Call.exec], fun _ => rfl, by simp [Op.ideal, Spec.Call.exec]⟩
  | pause =>
    show Rep (pause s _).1 t (if i.mode = .running then _ else _)
    have hg := h.getElapsed hw hf
    by_cases hr : i.mode = .running
    · rw [if_pos hr, pause, h.counting.2 hr]
      rw [Stopwatch.getElapsed, if_pos (h.counting.2 hr)] at hg
      exact ⟨hto, by simp, by simp, fun _ => hg, by simp⟩
    · rw [if_neg hr, pause]
      have := mt h.counting.1 hr
      cases hm : s.mode with
      | counting => exact absurd hm this
      | stopped => exact h
      | paused => exact h
  | restart => exact ⟨hto, by simp [Op.exec, restart, start, stop, Op.ideal, Spec.Call.exec],
      by simp [Op.exec, restart, start, stop, Op.ideal, Spec.Call.exec], by simp [Op.ideal, Spec.Call.exec],
      fun _ => ⟨Nat.zero_le _, Nat.zero_le _, by simp [Op.exec, restart, start, stop, Op.ideal, Spec.Call.exec],
        by simp [Op.exec, restart, start, stop, Op.ideal, Spec.Call.exec]⟩⟩
  | change p => exact ⟨rfl, by simp [Op.exec, change, restart, start, stop, Op.ideal, Spec.Call.exec],
      by simp [Op.exec, change, restart, start, stop, Op.ideal, Spec.Call.exec], by simp [Op.ideal, Spec.Call.exec],
      fun _ => ⟨Nat.zero_le _, Nat.zero_le _, by simp [Op.exec, change, restart, start, stop, Op.ideal, Spec.Call.exec],
        by simp [Op.exec, change, restart, start, stop, Op.ideal, Spec.Call.exec]⟩⟩
  | set p => exact set_rep p
  | setElapsed e =>
    show Rep (setElapsed s e).1 t (if i.mode = .stopped then _ else _)
    rw [setElapsed]
    by_cases hs : i.mode = .stopped
    · rw [if_pos (hst.2 hs), if_pos hs]
      exact ⟨hto, hst, hpa, fun _ => by simp, fun hr => by simp only [hs] at hr; cases hr⟩
    · rw [if_neg (mt hst.1 hs), if_neg hs]; exact h
  | setngo p => exact begin_rep _ _ (set_rep p)

/-- Every history leaves the stopwatch and the ideal stopwatch in correspondence. -/
theorem run_rep (hw : 0 < w) (dt : Nat) : ∀ (l : List (Nat × Op w)) (s : Watch w) (t : Nat) (i : Spec.Ideal), Rep s t i →
    Spec.Fits (2 ^ (w - 1)) i dt (ideal l) →
    Rep (run s t l).1 ((run s t l).2 + dt) (Spec.wait (Spec.run i (ideal l)) dt) ∧
    ((Spec.wait (Spec.run i (ideal l)) dt).mode = .running →
      (Spec.wait (Spec.run i (ideal l)) dt).stretch ≤ 2 ^ (w - 1)) := by
  intro l
  induction l with
  | nil => intro s t i h hf; exact ⟨h.wait dt, hf⟩
  | cons x l ih =>
    intro s t i h hf
    obtain ⟨d, o⟩ := x
    obtain ⟨h1, h2⟩ := hf
    exact ih _ _ _ ((h.wait d).exec hw h1 o) h2

theorem rep0 (w t : Nat) : Rep (init w) t ideal0 :=
  ⟨rfl, by simp [init, ideal0], by simp [init, ideal0], fun _ => rfl, fun h => by cases h⟩

/-- **C56.** After every history, at every later time, `stopwatch_get_elapsed` shows what the ideal stopwatch shows, as
long as it never ran for more than half the timestamp range without interruption. -/
theorem C56_elapsed (w : Nat) (hw : 0 < w) (t dt : Nat) (l : List (Nat × Op w))
    (hf : Spec.Fits (2 ^ (w - 1)) ideal0 dt (ideal l)) :
    getElapsed (run (init w) t l).1 (BitVec.ofNat w ((run (init w) t l).2 + dt)) =
      BitVec.ofNat w (Spec.wait (Spec.run ideal0 (ideal l)) dt).elapsed :=
  have h := run_rep hw dt l (init w) t ideal0 (rep0 w t) hf
  h.1.getElapsed hw h.2

/-- The time of the last call is the sum of the times between the calls. -/
theorem C56_time (w t : Nat) (s : Watch w) (l : List (Nat × Op w)) : (run s t l).2 = t + (l.map Prod.fst).sum := by
  induction l generalizing s t with
  | nil => rfl
  | cons x l ih => rw [run, ih]; simp [Nat.add_assoc]

instance decFits (m dt : Nat) : ∀ (l : List (Nat × Spec.Call)) (s : Spec.Ideal), Decidable (Spec.Fits m s dt l)
  | [], _ => by unfold Spec.Fits; infer_instance
  | (d, o) :: l, s => by
    unfold Spec.Fits
    have := decFits m dt l (o.exec (Spec.wait s d))
    infer_instance

/-- With 8 bit stamps: from 253 run for 6, pause for 9, run for 4, across a wrap. -/
example : Spec.Fits (2 ^ (8 - 1)) ideal0 4 (ideal [(0, (.start : Op 8)), (6, .pause), (9, .start)]) ∧
    getElapsed (run (init 8) 253 [(0, .start), (6, .pause), (9, .start)]).1 (BitVec.ofNat 8 272) = 10 := by
  decide

/-- The queries of a stopwatch that represents an ideal one. -/
theorem Rep.queries {s : Watch w} {t : Nat} {i : Spec.Ideal} (hw : 0 < w) (h : Rep s t i)
    (hfit : i.mode = .running → i.stretch ≤ 2 ^ (w - 1)) (he : i.elapsed < 2 ^ w) (now : BitVec w)
    (hn : now = BitVec.ofNat w t) :
    (getRemaining s now).toNat = i.period - i.elapsed ∧
    (i.mode = .stopped → isReached s now = false) ∧
    (i.mode = .paused → (isReached s now = true ↔ i.period ≤ i.elapsed)) ∧
    (i.mode = .running → i.period < i.elapsed + 2 ^ (w - 1) → (isReached s now = true ↔ i.period ≤ i.elapsed)) := by
  have hg := h.getElapsed hw hfit
  rw [← hn] at hg
  have h2 := half w hw
  have hrem : (getRemaining s now).toNat = i.period - i.elapsed := by
    rw [getRemaining, hg]
    have hto := h.total
    have : (BitVec.ofNat w i.elapsed).toNat = i.elapsed := by rw [BitVec.toNat_ofNat, Nat.mod_eq_of_lt he]
    by_cases hlt : BitVec.ofNat w i.elapsed < s.total
    · rw [if_pos hlt, BitVec.toNat_sub_of_le (BitVec.le_of_lt hlt), this, hto]
    · rw [if_neg hlt]
      rw [BitVec.lt_def, this, hto] at hlt
      simp; omega
  have hstop : i.mode = .stopped → isReached s now = false := by
    intro hm
    rw [isReached, h.stopped.2 hm]
  have hpause : i.mode = .paused → (isReached s now = true ↔ i.period ≤ i.elapsed) := by
    intro hm
    rw [isReached, h.paused.2 hm]
    simp only [decide_eq_true_iff]
    rw [h.idle (by rw [hm]; decide), BitVec.le_def, h.total, BitVec.toNat_ofNat, Nat.mod_eq_of_lt he]
  have hrun : i.mode = .running → i.period < i.elapsed + 2 ^ (w - 1) → (isReached s now = true ↔ i.period ≤ i.elapsed) := by
    intro hm hp
    obtain ⟨a, b, c, d⟩ := h.running hm
    have hst := hfit hm
    rw [isReached, h.counting.2 hm]
    simp only
    have hel : s.elapsed.toNat = i.elapsed - i.stretch := by
      rw [d, BitVec.toNat_ofNat, Nat.mod_eq_of_lt (by omega)]
    by_cases hlt : s.elapsed < s.total
    · rw [if_pos hlt]
      rw [BitVec.lt_def, hel, h.total] at hlt
      have hsub : s.total - s.elapsed = stamp w ((i.period : Int) - (i.elapsed - i.stretch : Nat)) := by
        rw [stamp, ← Int.ofNat_sub (by omega), BitVec.ofInt_natCast]
        apply BitVec.eq_of_toNat_eq
        rw [BitVec.toNat_sub_of_le (by rw [BitVec.le_def, hel, h.total]; omega), hel, h.total, BitVec.toNat_ofNat,
          Nat.mod_eq_of_lt]
        have := s.total.isLt
        rw [h.total] at this
        omega
      have hsN : ∀ n : Nat, BitVec.ofNat w n = stamp w n := fun n => by rw [stamp, BitVec.ofInt_natCast]
      have hc : ((2 ^ w : Nat) : Int) = 2 ^ w := by push_cast; rfl
      rw [hsub, c, hn, hsN, hsN]
      rw [((C53_expired w _ _ _).1 (by omega) (by omega)).1]
      omega
    · rw [if_neg hlt]
      rw [BitVec.lt_def, hel, h.total] at hlt
      simp; omega
  exact ⟨hrem, hstop, hpause, hrun⟩

/-- **C57.** At every time after every history (each stretch of running at most half the range, and less than the whole
range shown): the remaining time is what is missing of the period; a stopped stopwatch is not reached; else it is
reached exactly if the period is over, if it is paused or the end is less than half the range ahead. -/
theorem C57_reached (w : Nat) (hw : 0 < w) (t dt : Nat) (l : List (Nat × Op w))
    (hf : Spec.Fits (2 ^ (w - 1)) ideal0 dt (ideal l)) (i : Spec.Ideal)
    (hi : i = Spec.wait (Spec.run ideal0 (ideal l)) dt) (he : i.elapsed < 2 ^ w) (s : Watch w)
    (hs : s = (run (init w) t l).1) (now : BitVec w) (hn : now = BitVec.ofNat w ((run (init w) t l).2 + dt)) :
    (getRemaining s now).toNat = i.period - i.elapsed ∧
    (i.mode = .stopped → isReached s now = false) ∧
    (i.mode = .paused → (isReached s now = true ↔ i.period ≤ i.elapsed)) ∧
    (i.mode = .running → i.period < i.elapsed + 2 ^ (w - 1) → (isReached s now = true ↔ i.period ≤ i.elapsed)) ∧
    (i.mode ≠ .stopped → i.period < i.elapsed + 2 ^ (w - 1) → (isReached s now = true ↔ getRemaining s now = 0)) := by
  obtain ⟨h, hfit⟩ := run_rep hw dt l (init w) t ideal0 (rep0 w t) hf
  rw [← hi] at h hfit
  rw [← hs] at h
  obtain ⟨hrem, hstop, hpause, hrun⟩ := h.queries hw hfit he now hn
  refine ⟨hrem, hstop, hpause, hrun, ?_⟩
  intro hm hp
  rw [show getRemaining s now = 0 ↔ (getRemaining s now).toNat = 0 by
    rw [← BitVec.toNat_inj]; simp, hrem]
  have : isReached s now = true ↔ i.period ≤ i.elapsed := by
    cases hmm : i.mode with
    | stopped => exact absurd hmm hm
    | paused => exact hpause hmm
    | running => exact hrun hmm hp
  rw [this]; omega

/-- **C57**, the bound is needed: a period of half the range or more counts as reached immediately after the start, and
until the end is less than half the range ahead. -/
theorem C57_long_period (w : Nat) (hw : 0 < w) (t d : Nat) (p : BitVec w) (hp : 2 ^ (w - 1) + d ≤ p.toNat) :
    isReached (setngo (init w) p (BitVec.ofNat w t)) (BitVec.ofNat w (t + d)) = true := by
  have h2 := half w hw
  have hplt := p.isLt
  have hpos : 0 < 2 ^ (w - 1) := Nat.two_pow_pos _
  show (if (0 : BitVec w) < p then isLooselyExpired (BitVec.ofNat w t) (BitVec.ofNat w (t + d)) (p - 0) else true) = true
  rw [if_pos (by rw [BitVec.lt_def]; simp; omega), show p - 0 = p by simp, isLooselyExpired, timeAfterOrEqual,
    decide_eq_true_iff]
  have : BitVec.ofNat w t + p - BitVec.ofNat w (t + d) = stamp w ((p.toNat : Int) - d - 2 ^ w) := by
    have hsN : ∀ n : Nat, BitVec.ofNat w n = stamp w n := fun n => by rw [stamp, BitVec.ofInt_natCast]
    have hpp : p = stamp w p.toNat := by rw [← hsN]; simp
    conv_lhs => rw [hpp]
    rw [hsN, hsN, stamp_add, stamp_sub, stamp, stamp]
    apply BitVec.eq_of_toInt_eq
    rw [BitVec.toInt_ofInt, BitVec.toInt_ofInt]
    apply Int.bmod_eq_bmod_iff_bmod_sub_eq_zero.2
    rw [show (t : Int) + p.toNat - ((t + d : Nat) : Int) - ((p.toNat : Int) - d - 2 ^ w) = ((2 ^ w : Nat) : Int) by
      push_cast; ring]
    exact Int.bmod_self
  have hc : ((2 ^ w : Nat) : Int) = 2 ^ w := by push_cast; rfl
  have hc' : ((2 ^ (w - 1) : Nat) : Int) = 2 ^ (w - 1) := by push_cast; rfl
  rw [this, stamp_toInt w _ (by omega) (by omega)]
  omega

/-- 8 bit stamps, period 100: reached exactly from 350 on; remaining time in between. -/
example : let s := (run (init 8) 250 [(0, .setngo 100)]).1
    isReached s (BitVec.ofNat 8 349) = false ∧ isReached s (BitVec.ofNat 8 350) = true ∧
    getRemaining s (BitVec.ofNat 8 340) = 10 ∧
    isReached (setngo (init 8) 200 5) 5 = true := by decide

/-- **C58.** Which calls are refused, and that refused calls change nothing. -/
theorem C58_transitions (s : Watch w) (now p : BitVec w) :
    (start s now = if s.mode = .counting then (s, -1) else ((start s now).1, 0)) ∧
    ((start s now).1.mode = .counting) ∧
    (pause s now = if s.mode = .counting then ((pause s now).1, 0) else (s, -1)) ∧
    (s.mode = .counting → (pause s now).1.mode = .paused) ∧
    (set s p = if s.mode = .stopped then ({ s with total := p }, 0) else (s, -1)) ∧
    (setElapsed s p = if s.mode = .stopped then ({ s with elapsed := p }, 0) else (s, -1)) ∧
    ((stop s).2 = 0 ∧ (stop s).1.mode = .stopped ∧ getElapsed (stop s).1 now = 0 ∧ (stop s).1.total = s.total) ∧
    ((restart s now).2 = 0 ∧ (restart s now).1.mode = .counting ∧ getElapsed (restart s now).1 now = 0 ∧
      (restart s now).1.total = s.total) ∧
    ((change s p now).mode = .counting ∧ getElapsed (change s p now) now = 0 ∧ (change s p now).total = p) := by
  have h0 : ∀ x : BitVec w, timeInterval x x = 0 := by intro x; simp [timeInterval, timeAfter]
  cases hm : s.mode <;>
    simp [start, pause, set, setElapsed, stop, restart, change, getElapsed, hm, h0]

example : (start (init 8) 5).2 = 0 ∧ (start (start (init 8) 5).1 6).2 = -1 ∧ (pause (init 8) 5).2 = -1 ∧
    (set (start (init 8) 5).1 9).2 = -1 := by decide

end Gel.Stopwatch
