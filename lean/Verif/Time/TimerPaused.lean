import Verif.Time.TimerProps

/-!
# Exactly which paused timers fire (C92)
-/
namespace Gel.Timer

open Stopwatch Time

/-- **C92**: polling a paused timer, at any time, leaves it alone if it has time remaining; otherwise it calls the callback,
whatever that does to the timer, or is undefined if there is none. -/
theorem C92_exact (env : κ → Timer w κ → Timer w κ) (t : Timer w κ) (hm : t.watch.mode = .paused) (now x : BitVec w) :
    (manage env t now = .ok (t, false) ↔ getRemaining t x ≠ 0) ∧
    ((∃ s, manage env t now = .ok (s, true)) ↔ getRemaining t x = 0 ∧ t.callback ≠ none) ∧
    (manage env t now = .ub ↔ getRemaining t x = 0 ∧ t.callback = none) := by
  by_cases hr : getRemaining t x = 0
  · have he : getElapsed t.watch x = t.watch.elapsed := by rw [getElapsed, hm]; rfl
    have hreach : isReached t.watch now = true := by
      rw [getRemaining, Stopwatch.getRemaining, he] at hr
      rw [isReached, hm]
      by_cases h : t.watch.elapsed < t.watch.total
      · rw [if_pos h] at hr
        have := congrArg BitVec.toNat hr
        rw [BitVec.toNat_sub_of_le (BitVec.le_of_lt h)] at this
        rw [BitVec.lt_def] at h
        simp only [BitVec.ofNat_eq_ofNat, BitVec.toNat_ofNat, Nat.zero_mod] at this
        omega
      · simp only [decide_eq_true_eq, BitVec.le_def]
        rw [BitVec.lt_def] at h
        omega
    rw [manage, if_pos hreach]
    cases hc : t.callback with
    | none => simp [hr]
    | some c =>
      simp only [hr]
      by_cases ha : (env c t).autoreload = 0#8 <;> simp [ha]
  · rw [C92_paused_partial env t hm now x hr]
    simp only [ne_eq, hr, not_false_eq_true, false_and, iff_false, true_and]
    simp

-- paused one tick before the end of its period and exactly at the end
example : (manage quiet (pause (init 20 (BitVec.ofNat 8 250) (some ())) (BitVec.ofNat 8 269)) 0 =
      .ok (pause (init 20 (BitVec.ofNat 8 250) (some ())) (BitVec.ofNat 8 269), false)) ∧
    getRemaining (pause (init 20 (BitVec.ofNat 8 250) (some ())) (BitVec.ofNat 8 269)) 99 = 1 ∧
    getRemaining (pause (init 20 (BitVec.ofNat 8 250) (some ())) (BitVec.ofNat 8 270)) 99 = 0 := by decide

end Gel.Timer
