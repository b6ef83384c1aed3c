import Verif.Scheduler.MoreProps

/-!
# Scheduler: the state after initialization (C133)
-/
namespace Gel.Scheduler
open Spec

theorem zero_inactive (tm : Tm) : isActive zeroEntry tm = false := by
  have : isDayIncluded zeroEntry.days tm.wday = false := by simp [isDayIncluded, zeroEntry]
  simp [isActive, this]

theorem search_init (L : Nat) (tm : Tm) (f : Found) : ∀ n i, search L tm f (init n) i = f := by
  intro n
  induction n with
  | zero => intro i; rfl
  | succ n ih =>
    intro i
    rw [init, List.replicate_succ, search]
    have : consider L tm f zeroEntry i = f := by simp [consider, zeroEntry]
    rw [this]
    exact ih (i + 1)

/-- **C133.** After `scheduler_init` every entry is disabled with all members 0, nothing is active at any time, the first
available entry is 0 and nothing overlaps. -/
theorem C133_init (n L : Nat) (tm : Tm) (e : Entry) :
    (∀ i < n, ∃ z, getEntry (init n) i = .ok (some z) ∧ z.enabled = 0 ∧ z.days = 0 ∧ z.start = 0 ∧ z.stop = 0 ∧ z.value = 0) ∧
    (∀ i, n ≤ i → getEntry (init n) i = .ok none) ∧
    activeEntry L (init n) tm = -1 ∧ isSchedActive L (init n) tm = false ∧ currentValue L (init n) tm = .ok none ∧
    currentRemaining L (init n) tm = .ok 0 ∧ (∀ i, remaining L (init n) i tm = .ok 0) ∧
    (∀ i, nextEnabled (init n) i = .ok (-1)) ∧ (0 < n → firstAvailable (init n) = .ok 0) ∧ overlapping (init n) e = 0 ∧
    (n ≤ 16 → activeMap tm (init n) 0 0 = .ok 0) := by
  have hlen : (init n).length = n := by simp [init]
  have hget : ∀ i < n, (init n)[i]? = some zeroEntry := by
    intro i hi
    simp [init, hi]
  have hmem : ∀ a ∈ init n, a = zeroEntry := fun a ha => List.eq_of_mem_replicate ha
  have hact : activeEntry L (init n) tm = -1 := by rw [activeEntry, search_init]
  have hin : ∀ i < n, getEntry (init n) i = .ok (some zeroEntry) := by
    intro i hi
    rw [(C85_inside (init n) i e (by omega)).1]
    simp [init]
  have hout : ∀ i, n ≤ i → getEntry (init n) i = .ok none := fun i hi => (C85_outside (init n) i e (by omega)).1
  refine ⟨fun i hi => ⟨zeroEntry, hin i hi, rfl, rfl, rfl, rfl, rfl⟩, hout, hact, by simp [isSchedActive, hact],
    by simp [currentValue, hact], by simp [currentRemaining, hact], ?_, ?_, ?_, ?_, ?_⟩
  · intro i
    rw [remaining]
    rcases Nat.lt_or_ge i n with hi | hi
    · rw [hin i hi]
      simp [Res.ok_bind, zero_inactive, Res.pure_eq]
    · rw [hout i hi]
      simp [Res.ok_bind, Res.pure_eq]
  · intro i
    rcases (C85_search (init n) i).1 with ⟨h, -⟩ | ⟨j, a, -, -, h3, h4, -⟩
    · exact h
    · exact absurd (by rw [hmem a (List.mem_of_getElem? h3)]; rfl) h4
  · intro hn
    rcases (C85_search (init n) 0).2 with ⟨-, h⟩ | ⟨j, a, h1, -, -, h4⟩
    · exact absurd rfl (h zeroEntry (List.mem_of_getElem? (hget 0 hn)))
    · rcases Nat.eq_zero_or_pos j with hj | hj
      · rw [h1, hj]; rfl
      · exact absurd rfl (h4 0 zeroEntry hj (hget 0 hn))
  · rw [overlapping_countP, List.countP_eq_zero]
    intro a ha
    rw [hmem a ha]
    simp [overlaps, zeroEntry]
  · intro hn
    obtain ⟨m, h1, h2⟩ := C86_exact (init n) tm (by omega)
    rw [h1]
    congr 1
    ext k hk
    rw [← BitVec.getLsbD_eq_getElem, h2 k hk]
    rcases Nat.lt_or_ge k n with hi | hi
    · rw [hget k hi]
      simp [zero_inactive]
    · rw [List.getElem?_eq_none (by omega)]
      simp

example : firstAvailable (init 4) = .ok 0 ∧ activeMap ⟨1, 12, 30, 0⟩ (init 4) 0 0 = .ok 0 := by decide

end Gel.Scheduler
