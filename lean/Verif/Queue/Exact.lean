import Verif.Queue.Props

/-!
# Which capacities work, exactly (C10)
-/
namespace Gel.Queue

/-- **C10**, exactly: a queue declared with `n` items, `n` from 1 to 32768, gives in every history of calls the results of a FIFO if and
only if `n` is a power of two. (`NAME_count` is the subject of C09.) -/
theorem C10_exact {n : Nat} (h0 : 0 < n) (hn : n ≤ 32768) (items : List Nat) (hi : items.length = n) :
    (∀ cs : List (Call Nat), .count ∉ cs → ∃ q', run (init items) cs = .ok (q', (Spec.run n [] cs).2)) ↔ ∃ k, n = 2 ^ k := by
  constructor
  · intro h
    by_cases hp : ∃ k, n = 2 ^ k
    · exact hp
    · exfalso
      obtain ⟨q, os, v, h1, h2, h3⟩ := C10_other_capacities_wrong h0 hn (fun k e => hp ⟨k, e⟩) items hi
      obtain ⟨q', h4⟩ := h ((List.range n).map .enqueue ++ [.dequeue]) (by simp)
      rw [h1] at h4
      injection h4 with h4
      injection h4 with _ h4
      rw [← h4] at h3
      simp at h3
      exact h2 h3
  · intro hp cs hc
    exact C10_power_of_two_partial hn hp items hi cs hc

-- 4 items work, with 3 the second element comes first
example : (do let (_, os) ← run (init [0, 0, 0, 0]) [.enqueue 7, .enqueue 8, .enqueue 9, .enqueue 10, .dequeue]; pure os.getLast?) =
      .ok (some ⟨0, some 7⟩) ∧
    (do let (_, os) ← run (init [0, 0, 0]) [.enqueue 7, .enqueue 8, .enqueue 9, .dequeue]; pure os.getLast?) ≠
      .ok (some ⟨0, some 7⟩) := by decide

end Gel.Queue
