import Verif.Scheduler.Spec
import Verif.Serial.Props
import Mathlib.Tactic.SplitIfs
import Mathlib.Data.Nat.Bitwise

namespace Gel.Scheduler
open Spec

theorem isDay_eq (days : BitVec 8) (d : Nat) (hd : d < 256) : isDayIncluded days d = days.getLsbD d := by
  rw [isDayIncluded, Nat.mod_eq_of_lt hd, Nat.one_shiftLeft, Nat.and_two_pow, BitVec.getLsbD]
  cases days.toNat.testBit d
  · simp
  · simpa using Nat.two_pow_pos d

theorem now_eq {tm : Tm} (h : Valid tm) : tm.now = second tm := by
  have h1 := h.hour
  have h2 := h.min
  have h3 := h.sec
  rw [Tm.now, toSeconds, second, Nat.mod_eq_of_lt (by omega), Nat.mod_eq_of_lt (by omega), Nat.mod_eq_of_lt (by omega)]
  omega

theorem second_lt {tm : Tm} (h : Valid tm) : second tm < 86400 := by
  have h1 := h.hour
  have h2 := h.min
  have h3 := h.sec
  rw [second]
  omega

theorem duration_eq (e : Entry) : duration e = ((e.stop.toNat : Int) - e.start.toNat).natAbs := by
  unfold duration
  have h1 := e.stop.isLt
  have h2 := e.start.isLt
  split
  · rw [BitVec.toNat_sub]
    omega
  · rw [BitVec.toNat_sub]
    omega

theorem numDays_eq (e : Entry) : numDays e.days = ((List.range 7).filter fun d => decide (on e d)).length := by
  have hg : ∀ l : List Nat, (∀ x ∈ l, x < 256) → (l.map fun i => if isDayIncluded e.days i then 1 else 0).sum
      = (l.filter fun d => decide (on e d)).length := by
    intro l
    induction l with
    | nil => simp
    | cons x xs ih =>
      intro h
      rw [List.map_cons, List.sum_cons, ih (fun y hy => h y (List.mem_cons_of_mem _ hy)), isDay_eq _ _ (h x List.mem_cons_self),
        List.filter_cons]
      by_cases hx : e.days.getLsbD x = true
      · simp [on, hx]
        omega
      · simp [on, hx]
  apply hg
  intro x hx
  rw [List.mem_range] at hx
  omega

theorem weekSpan_eq {L : Nat} {e : Entry} (h : span e < 2 ^ L) : weekSpan L e = span e := by
  rw [weekSpan, duration_eq, numDays_eq]
  exact Nat.mod_eq_of_lt h

/-- `is_entry_active` as a proposition. -/
theorem isActive_iff {e : Entry} {tm : Tm} (h : Valid tm) :
    isActive e tm = true ↔ on e tm.wday ∧
      (if 86400 < e.stop.toNat then second tm < e.stop.toNat - 86400 ∨ e.start.toNat ≤ second tm
        else e.start.toNat ≤ second tm ∧ second tm < e.stop.toNat) := by
  have hw : tm.wday < 256 := by have := h.wday; omega
  have hs := second_lt h
  unfold isActive
  simp only [now_eq h, isDay_eq _ _ hw, show secondsInDay = 86400 from rfl]
  by_cases hd : e.days.getLsbD tm.wday = true
  · simp only [hd, Bool.not_true, Bool.false_eq_true, if_false, on, true_and, gt_iff_lt]
    split <;> simp [hs]
  · simp [hd, on]

end Gel.Scheduler
