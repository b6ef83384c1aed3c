import Verif.Debounce.Lemmas
import Verif.Debounce.Spec
import Mathlib.Tactic.ByContra

/-!
# Debounce: the counters implement the rule
-/
namespace Gel.Debounce

variable {w : Nat}

open Spec

/-! ## The rule for one input -/

theorem next_old (s : Bit w) (b : Bool) (d : BitVec w) : (s.next b d).old = if s.flips b d then b else s.old := by
  simp only [Bit.next, Bit.flips]
  split_ifs <;> simp_all

theorem flips_iff (s : Bit w) (b : Bool) (d : BitVec w) : s.flips b d = true ↔ (s.next b d).old ≠ s.old := by
  simp only [Bit.next, Bit.flips]
  split_ifs <;> simp_all

theorem next_buf (s : Bit w) (b : Bool) (d : BitVec w) (h : s.buf = s.old) : (s.next b d).buf = (s.next b d).old := by
  simp only [Bit.next]
  split_ifs <;> simp_all

/-- The counter before call `k`: clear, or counting down a run of differing samples that started at some call. -/
def Pending (d : Nat → Nat) (smp lev : Nat → Bool) (k : Nat) (c : Nat) : Prop :=
  (c = 0 ∧ Starts smp lev k) ∨
  (0 < c ∧ ∃ s, s < k ∧ c + k = s + d s + 1 ∧ Starts smp lev s ∧ ∀ j, s ≤ j → j < k → lev j = lev k ∧ smp j ≠ lev k)

theorem rule_of_pending {d : Nat → Nat} {smp lev : Nat → Bool} {k c : Nat} (h : Pending d smp lev k c)
    (hf : lev (k + 1) ≠ lev k ↔ smp k ≠ lev k ∧ (if c = 0 then d k else c - 1) = 0) : RuleVarying d smp lev k := by
  rw [RuleVarying, hf]
  constructor
  · rintro ⟨h1, h2⟩
    rcases h with ⟨h0, hs⟩ | ⟨h0, s, hs, hc, hst, hj⟩
    · rw [if_pos h0] at h2
      refine ⟨k, by omega, hs, ?_⟩
      intro j h3 h4
      have : j = k := by omega
      subst this; exact ⟨rfl, h1⟩
    · rw [if_neg (by omega)] at h2
      refine ⟨s, by omega, hst, ?_⟩
      intro j h3 h4
      by_cases hjk : j = k
      · subst hjk; exact ⟨rfl, h1⟩
      · exact hj j h3 (by omega)
  · rintro ⟨s', hk, hst', hj'⟩
    refine ⟨(hj' k (by omega) (Nat.le_refl k)).2, ?_⟩
    rcases h with ⟨h0, hs⟩ | ⟨h0, s, hs, hc, hst, hj⟩
    · rw [if_pos h0]
      by_cases hsk : s' = k
      · subst hsk; omega
      · exfalso
        have hp := hj' (k - 1) (by omega) (by omega)
        rcases hs with hs | hs | hs
        · omega
        · rw [hp.1] at hs; exact hp.2 hs
        · exact hs hp.1.symm
    · rw [if_neg (by omega)]
      rcases Nat.lt_trichotomy s' s with hlt | heq | hgt
      · exfalso
        have hp := hj' (s - 1) (by omega) (by omega)
        have hq := hj' s (by omega) (by omega)
        rcases hst with hs | hs | hs
        · omega
        · rw [hp.1] at hs; exact hp.2 hs
        · exact hs (hq.1.trans hp.1.symm)
      · subst heq; omega
      · exfalso
        have hp := hj' s' (by omega) (by omega)
        have hq := hj (s' - 1) (by omega) (by omega)
        rcases hst' with hs | hs | hs
        · omega
        · rw [hq.1] at hs; exact hq.2 hs
        · exact hs (hp.1.trans hq.1.symm)

theorem pending_succ {d : Nat → Nat} {smp lev : Nat → Bool} {k c c' : Nat} (h : Pending d smp lev k c)
    (h0 : smp k = lev k → lev (k + 1) = lev k ∧ c' = 0)
    (h1 : smp k ≠ lev k → (if c = 0 then d k else c - 1) = 0 → lev (k + 1) = smp k ∧ c' = 0)
    (h2 : smp k ≠ lev k → (if c = 0 then d k else c - 1) ≠ 0 →
      lev (k + 1) = lev k ∧ c' = if c = 0 then d k else c - 1) : Pending d smp lev (k + 1) c' := by
  by_cases hm : smp k = lev k
  · obtain ⟨-, hc⟩ := h0 hm
    exact Or.inl ⟨hc, Or.inr (Or.inl (by simpa using hm))⟩
  · by_cases hz : (if c = 0 then d k else c - 1) = 0
    · obtain ⟨hl, hc⟩ := h1 hm hz
      refine Or.inl ⟨hc, Or.inr (Or.inr ?_)⟩
      rw [hl]; simpa using hm
    · obtain ⟨hl, hc⟩ := h2 hm hz
      right
      refine ⟨by omega, ?_⟩
      rcases h with ⟨hc0, hs⟩ | ⟨hc0, s, hs, hcs, hst, hj⟩
      · rw [if_pos hc0] at hc
        refine ⟨k, by omega, by omega, hs, ?_⟩
        intro j hj1 hj2
        have : j = k := by omega
        subst this
        rw [hl]; exact ⟨rfl, hm⟩
      · rw [if_neg (by omega)] at hc hz
        refine ⟨s, by omega, by omega, hst, ?_⟩
        intro j hj1 hj2
        rw [hl]
        by_cases hjk : j = k
        · subst hjk; exact ⟨rfl, hm⟩
        · exact hj j hj1 (by omega)

/-- A sequence of `Bit` states that starts with a clear counter obeys the rule. -/
theorem bits_rule (st : Nat → Bit w) (smp : Nat → Bool) (ds : Nat → BitVec w)
    (hst : ∀ k, st (k + 1) = (st k).next (smp k) (ds k)) (h0 : (st 0).cnt = 0) (k : Nat) :
    RuleVarying (fun k => (ds k).toNat) smp (fun k => (st k).old) k := by
  have hzero : ∀ x : BitVec w, x.toNat = 0 ↔ x = 0 := fun x => by rw [← BitVec.toNat_inj]; rfl
  have hite : ∀ k, (if (st k).cnt.toNat = 0 then (ds k).toNat else (st k).cnt.toNat - 1) =
      (if (st k).cnt = 0 then ds k else (st k).cnt - 1).toNat := by
    intro k
    by_cases hc : (st k).cnt = 0
    · rw [if_pos ((hzero _).2 hc), if_pos hc]
    · have h1 : (1 : BitVec w).toNat = 1 := by
        rcases Nat.eq_zero_or_pos w with h | h
        · subst h; exact absurd (BitVec.eq_nil _) (by rw [BitVec.eq_nil (0 : BitVec 0)] at hc; exact hc)
        · rw [BitVec.ofNat_eq_ofNat, BitVec.toNat_ofNat, Nat.mod_eq_of_lt (Nat.one_lt_two_pow (by omega))]
      rw [if_neg ((hzero _).not.2 hc), if_neg hc, BitVec.toNat_sub_of_le]
      · rw [h1]
      · rw [BitVec.le_def, h1]
        have := (hzero (st k).cnt).not.2 hc
        omega
  have hp : ∀ k, Pending (fun k => (ds k).toNat) smp (fun k => (st k).old) k (st k).cnt.toNat := by
    intro k
    induction k with
    | zero => exact Or.inl ⟨by rw [h0]; rfl, Or.inl rfl⟩
    | succ k ih =>
      refine pending_succ ih ?_ ?_ ?_
      · intro hm
        rw [hst, Bit.next, if_pos hm]; exact ⟨rfl, rfl⟩
      · intro hm hz
        rw [hite, hzero] at hz
        rw [hst, Bit.next, if_neg hm]
        simp only [if_pos hz]; exact ⟨trivial, rfl⟩
      · intro hm hz
        rw [hite] at hz ⊢
        rw [ne_eq, hzero] at hz
        rw [hst, Bit.next, if_neg hm]
        simp only [if_neg hz, and_self]
  apply rule_of_pending (hp k)
  rw [hite, hzero, hst, ← flips_iff, Bit.flips]
  simp

/-- With the same debounce value in every call, the rule takes the simple form. -/
theorem rule_of_varying {d : Nat} {smp lev : Nat → Bool} (h : ∀ k, RuleVarying (fun _ => d) smp lev k) (k : Nat) :
    Rule d smp lev k := by
  rw [Rule, show lev (k + 1) ≠ lev k ↔ _ from h k]
  constructor
  · rintro ⟨s, hk, -, hj⟩
    have hk : k = s + d := hk
    exact ⟨by omega, fun j h1 h2 => hj j (by omega) h2⟩
  · rintro ⟨hd, hj⟩
    -- the start of the run
    have hex : ∃ s, s ≤ k - d ∧ Starts smp lev s ∧ ∀ j, s ≤ j → j ≤ k → lev j = lev k ∧ smp j ≠ lev k := by
      have : ∀ n s, s = n → s ≤ k - d → (∀ j, s ≤ j → j ≤ k → lev j = lev k ∧ smp j ≠ lev k) →
          ∃ s, s ≤ k - d ∧ Starts smp lev s ∧ ∀ j, s ≤ j → j ≤ k → lev j = lev k ∧ smp j ≠ lev k := by
        intro n
        induction n with
        | zero => intro s hs h1 h2; exact ⟨s, h1, Or.inl hs, h2⟩
        | succ n ih =>
          intro s hs h1 h2
          by_cases hst : Starts smp lev s
          · exact ⟨s, h1, hst, h2⟩
          · apply ih (s - 1) (by omega) (by omega)
            intro j h3 h4
            by_cases hjs : j = s - 1
            · subst hjs
              have a1 : smp (s - 1) ≠ lev (s - 1) := fun h => hst (Or.inr (Or.inl h))
              have a2 : lev s = lev (s - 1) := by
                by_contra h; exact hst (Or.inr (Or.inr h))
              have a3 := (h2 s (Nat.le_refl s) (by omega)).1
              rw [← a2] at a1
              rw [a3] at a1 a2
              exact ⟨a2.symm, a1⟩
            · exact h2 j (by omega) h4
      exact this (k - d) (k - d) rfl (Nat.le_refl _) hj
    obtain ⟨s, hs, hst, hrun⟩ := hex
    by_cases hsk : s = k - d
    · exact ⟨s, show k = s + d by omega, hst, hrun⟩
    · exfalso
      have hfl : lev (s + d + 1) ≠ lev (s + d) := by
        rw [show lev (s + d + 1) ≠ lev (s + d) ↔ _ from h (s + d)]
        refine ⟨s, rfl, hst, ?_⟩
        intro j h1 h2
        rw [(hrun (s + d) (by omega) (by omega)).1]
        exact hrun j h1 (by omega)
      exact hfl ((hrun _ (by omega) (by omega)).1.trans (hrun _ (by omega) (by omega)).1.symm)

end Gel.Debounce
