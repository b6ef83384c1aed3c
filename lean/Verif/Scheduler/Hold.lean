import Verif.Scheduler.Exact

/-!
# Scheduler: for how long the current value holds (C228)

A program may take the value that is current and sleep for the remaining time.
-/
namespace Gel.Scheduler
open Spec

namespace Spec

/-- An enabled entry begins on the day of `tm`, after `tm` and not after `tm'`. -/
def Begins (tm tm' : Tm) (e : Entry) : Prop :=
  e.enabled ≠ 0 ∧ on e tm.wday ∧ second tm < e.start.toNat ∧ e.start.toNat ≤ second tm'

end Spec

/-- What is active later on the same day and did not begin since is active now. -/
theorem cand_back {tm tm' : Tm} (h : Valid tm) (h' : Valid tm') (hw : tm'.wday = tm.wday) (hle : second tm ≤ second tm') {e : Entry}
    (hb : ¬ Begins tm tm' e) (hc : Cand tm' e) : Cand tm e := by
  refine ⟨hc.1, ?_⟩
  have h2 := hc.2
  rw [isActive_iff h', hw] at h2
  rw [isActive_iff h]
  refine ⟨h2.1, ?_⟩
  have hs : ¬ (second tm < e.start.toNat ∧ e.start.toNat ≤ second tm') := fun c => hb ⟨hc.1, h2.1, c⟩
  have h3 := h2.2
  split_ifs at h3 ⊢ <;> omega

theorem before_unique {a b : Entry} {i j : Nat} (h1 : Before a i b j) (h2 : Before b j a i) : i = j := by
  rcases h1 with h1 | ⟨h1, h1' | ⟨h1', h1''⟩⟩ <;> rcases h2 with h2 | ⟨h2, h2' | ⟨h2', h2''⟩⟩ <;> omega

/-- **C228** (partial). If no enabled entry begins in between, the entry and the value that are current stay so on that day until the
remaining time is over; the current entry has to have begun on this day (which it has unless it ends after midnight). Missing: entries that
begin in between, for which it is false (`C228_wrong`), and the morning of an entry that ends after midnight (C82). -/
theorem C228_partial {L : Nat} (hL : 32 ≤ L) {s : Sched} {tm tm' : Tm} (h : Valid tm) (h' : Valid tm') (hw : tm'.wday = tm.wday)
    (hspan : ∀ e ∈ s, span e < 2 ^ L) (hval : Ties tm s) {j : Nat} {a : Entry} (hj : activeEntry L s tm = (j : Int)) (ha : s[j]? = some a)
    (hst : a.start.toNat ≤ second tm) {k : Nat} (hk : currentRemaining L s tm = .ok (k : Int)) (hle : second tm ≤ second tm')
    (hlt : second tm' < second tm + k) (hb : ∀ e ∈ s, ¬ Begins tm tm' e) :
    activeEntry L s tm' = (j : Int) ∧ currentValue L s tm' = currentValue L s tm := by
  have hval' : Ties tm' s := fun i j a b hij hi hj ha hb' hs =>
    hval i j a b hij hi hj (cand_back h h' hw hle (hb a (List.mem_of_getElem? hi)) ha)
      (cand_back h h' hw hle (hb b (List.mem_of_getElem? hj)) hb') hs
  have hca : Cand tm a ∧ ∀ (i : Nat) (e : Entry), s[i]? = some e → Cand tm e → Before a j e i := by
    rcases C78_active L s tm hspan hval with ⟨h1, -⟩ | ⟨j', a', h1, h2, h3, h4⟩
    · omega
    · obtain rfl : j' = j := by omega
      rw [h2] at ha; cases ha
      exact ⟨h3, h4⟩
  have hstop : second tm' < a.stop.toNat := by
    rcases C137_remaining L hL s tm h with ⟨-, h1, -⟩ | ⟨j', k', a', h1, h2, -, h4, -, h6⟩
    · omega
    · obtain rfl : j' = j := by omega
      rw [h2] at ha; cases ha
      rw [hk] at h4
      have : (k : Int) = k' := by injection h4
      omega
  have hca' : Cand tm' a := by
    refine ⟨hca.1.1, ?_⟩
    have := hca.1.2
    rw [isActive_iff h] at this
    rw [isActive_iff h', hw]
    refine ⟨this.1, ?_⟩
    split_ifs <;> omega
  have hj' : activeEntry L s tm' = (j : Int) := by
    rcases C78_active L s tm' hspan hval' with ⟨-, h2⟩ | ⟨j', a', h1, h2, h3, h4⟩
    · exact absurd hca' (h2 a (List.mem_of_getElem? ha))
    · have e1 := hca.2 j' a' h2 (cand_back h h' hw hle (hb a' (List.mem_of_getElem? h2)) h3)
      have e2 := h4 j a ha hca'
      rw [h1, before_unique e2 e1]
  refine ⟨hj', ?_⟩
  rw [currentValue, currentValue, hj, hj']

/-- **C228**, where it fails: an enabled entry that begins in between and takes less of the week is current instead from then on, although
the remaining time is not over and the entry that was current is still active. -/
theorem C228_wrong {L : Nat} (hL : 32 ≤ L) {s : Sched} {tm tm' : Tm} (h : Valid tm) (h' : Valid tm') (hw : tm'.wday = tm.wday)
    (hspan : ∀ e ∈ s, span e < 2 ^ L) (hval : Ties tm' s) {j i : Nat} {a b : Entry} (hj : activeEntry L s tm = (j : Int)) (ha : s[j]? = some a)
    (hst : a.start.toNat ≤ second tm) (hi : s[i]? = some b) (hbe : Begins tm tm' b) (hb1 : second tm' < b.stop.toNat)
    (hb2 : span b < span a) {k : Nat} (hk : currentRemaining L s tm = .ok (k : Int)) (hlt : second tm' < second tm + k) :
    isActive a tm' = true ∧ ∃ (m : Nat) (c : Entry), m ≠ j ∧ s[m]? = some c ∧ activeEntry L s tm' = (m : Int) ∧ span c ≤ span b := by
  have hstop : second tm' < a.stop.toNat ∧ Cand tm a := by
    rcases C137_remaining L hL s tm h with ⟨-, h1, -⟩ | ⟨j', k', a', h1, h2, h3, h4, -, h6⟩
    · omega
    · obtain rfl : j' = j := by omega
      rw [h2] at ha; cases ha
      rw [hk] at h4
      have : (k : Int) = k' := by injection h4
      exact ⟨by omega, h3⟩
  have hcb : Cand tm' b := by
    refine ⟨hbe.1, ?_⟩
    rw [isActive_iff h', hw]
    have := hbe.2.2.2
    exact ⟨hbe.2.1, by split_ifs <;> omega⟩
  refine ⟨?_, ?_⟩
  · have := hstop.2.2
    rw [isActive_iff h] at this
    rw [isActive_iff h', hw]
    have := hbe.2.2
    refine ⟨by tauto, ?_⟩
    split_ifs <;> omega
  · rcases C78_active L s tm' hspan hval with ⟨-, h2⟩ | ⟨m, c, h1, h2, h3, h4⟩
    · exact absurd hcb (h2 b (List.mem_of_getElem? hi))
    · have hle : span c ≤ span b := by
        rcases h4 i b hi hcb with h | ⟨h, -⟩ <;> omega
      refine ⟨m, c, ?_, h2, h1, hle⟩
      rintro rfl
      rw [h2] at ha; cases ha
      omega

/-- **C228.** When the remaining time is over, on the same day, the entry is no longer active. -/
theorem C228_over {L : Nat} (hL : 32 ≤ L) {s : Sched} {tm tm' : Tm} (h : Valid tm) (h' : Valid tm') (hw : tm'.wday = tm.wday) {j : Nat} {a : Entry}
    (hj : activeEntry L s tm = (j : Int)) (ha : s[j]? = some a) {k : Nat} (hk : currentRemaining L s tm = .ok (k : Int))
    (hge : second tm + k ≤ second tm') : isActive a tm' = false := by
  have hstop : second tm + k = a.stop.toNat := by
    rcases C137_remaining L hL s tm h with ⟨-, h1, -⟩ | ⟨j', k', a', h1, h2, h3, h4, -, h6⟩
    · omega
    · obtain rfl : j' = j := by omega
      rw [h2] at ha; cases ha
      rw [hk] at h4
      have : (k : Int) = k' := by injection h4
      omega
  have hl := second_lt h'
  rw [Bool.eq_false_iff, ne_eq, isActive_iff h', if_neg (by omega)]
  rintro ⟨-, -, c⟩
  omega

/-! ## Example: 18 degrees all Monday, 21 from 7 to 9 -/

def exHold : Sched := [⟨1, 2, 0, 86400, 18⟩, ⟨1, 2, 25200, 32400, 21⟩]

-- at 6 the remaining time is 18 hours, but at 8 the value is another
example : currentValue 64 exHold ⟨1, 6, 0, 0⟩ = .ok (some 18) ∧ currentRemaining 64 exHold ⟨1, 6, 0, 0⟩ = .ok 64800 ∧
    currentValue 64 exHold ⟨1, 8, 0, 0⟩ = .ok (some 21) := by decide +kernel
-- from 10 on it holds
example : currentValue 64 exHold ⟨1, 10, 0, 0⟩ = .ok (some 18) ∧ currentValue 64 exHold ⟨1, 23, 59, 59⟩ = .ok (some 18) := by decide +kernel
example : ¬ Begins ⟨1, 10, 0, 0⟩ ⟨1, 23, 59, 59⟩ ⟨1, 2, 25200, 32400, 21⟩ := by unfold Begins; decide

end Gel.Scheduler
