import Verif.Queue.Lemmas

/-!
# Macro queue: properties C08, C09, C10
-/
namespace Gel.Queue

variable {α : Type u}

/-- **C08.** A queue declared with a power of two up to 32768 items is a bounded FIFO in every history, however often
its 16-bit indices wrap; no access leaves the item array. -/
theorem C08_fifo {k : Nat} (hk : k ≤ 15) (items : List α) (hi : items.length = 2 ^ k) (cs : List (Call α))
    (hc : .count ∉ cs) :
    ∃ q', run (init items) cs = .ok (q', (Spec.run (2 ^ k) [] cs).2) := by
  obtain ⟨q', h, -⟩ := run_rep hk (hi ▸ init_rep items) cs hc
  exact ⟨q', h⟩

-- a full queue, a refused enqueue, a drop and the emptying of it
example : run (init [0, 0]) [.enqueue 1, .enqueue 2, .enqueue 3, .isFull, .drop, .enqueue 4, .dequeue, .dequeue,
      .dequeue, .isEmpty] =
    .ok (⟨3, 3, [4, 2]⟩, [⟨0, none⟩, ⟨0, none⟩, ⟨1, none⟩, ⟨1, none⟩, ⟨0, none⟩, ⟨0, none⟩, ⟨0, some 2⟩, ⟨0, some 4⟩,
      ⟨1, none⟩, ⟨1, none⟩]) := by decide

-- across the wrap of the indices
example : run (⟨65535, 65535, [0, 0]⟩ : Queue Nat) [.enqueue 1, .enqueue 2, .isFull, .dequeue, .dequeue, .dequeue] =
    .ok (⟨1, 1, [2, 1]⟩, [⟨0, none⟩, ⟨0, none⟩, ⟨1, none⟩, ⟨0, some 1⟩, ⟨0, some 2⟩, ⟨1, none⟩]) := by decide

/-- What `NAME_count` returns after every history of a queue with a power of two capacity: the number of elements in
the queue if as many multiples of 65536 have been enqueued as dequeued, otherwise that number minus 65536 converted to
`size_t`. -/
theorem C09_count_exact {k : Nat} (hk : k ≤ 15) (items : List α) (hi : items.length = 2 ^ k) (cs : List (Call α))
    (hc : .count ∉ cs) :
    ∃ q' os r, run (init items) (cs ++ [.count]) = .ok (q', os ++ [⟨r, none⟩]) ∧ os = (Spec.run (2 ^ k) [] cs).2 ∧
      r = if Spec.enqueued cs os / 65536 = Spec.dequeued cs os / 65536 then
          Spec.enqueued cs os - Spec.dequeued cs os
        else 2 ^ 64 - 65536 + (Spec.enqueued cs os - Spec.dequeued cs os) := by
  obtain ⟨q', h, r, b⟩ := run_rep hk (hi ▸ init_rep items) cs hc
  have h1 : 2 ^ k ≤ 2 ^ 15 := Nat.pow_le_pow_right (by decide) hk
  have hcnt := r.count (by omega)
  refine ⟨q', _, _, ?_, rfl, rfl⟩
  rw [run_append, h]
  simp only [List.length_nil] at b
  simp only [Res.ok_bind, run, step, Res.pure_eq]
  rw [hcnt, show 0 + Spec.dequeued cs (Spec.run (2 ^ k) [] cs).2 + (Spec.run (2 ^ k) [] cs).1.length =
    Spec.enqueued cs (Spec.run (2 ^ k) [] cs).2 by omega,
    show (Spec.run (2 ^ k) [] cs).1.length = Spec.enqueued cs (Spec.run (2 ^ k) [] cs).2 -
      Spec.dequeued cs (Spec.run (2 ^ k) [] cs).2 by omega, Nat.zero_add]

/-- **C09, partial.** As long as fewer than 65536 elements have been enqueued, `NAME_count` returns the number of
elements in the queue. Missing: later histories, for which it is false (`C09_count_wrong`). -/
theorem C09_count_partial {k : Nat} (hk : k ≤ 15) (items : List α) (hi : items.length = 2 ^ k) (cs : List (Call α))
    (hc : .count ∉ cs) (hlt : Spec.enqueued cs (Spec.run (2 ^ k) [] cs).2 < 65536) :
    ∃ q', run (init items) (cs ++ [.count]) =
      .ok (q', (Spec.run (2 ^ k) [] cs).2 ++ [⟨(Spec.run (2 ^ k) [] cs).1.length, none⟩]) := by
  obtain ⟨-, -, -, b⟩ := run_rep hk (hi ▸ init_rep items) cs hc
  obtain ⟨q', os, r, h, rfl, hr⟩ := C09_count_exact hk items hi cs hc
  refine ⟨q', ?_⟩
  rw [h, hr, if_pos (by rw [List.length_nil] at b; omega)]
  congr 5
  rw [List.length_nil] at b; omega

-- the hypotheses are met by a history with elements in the queue
example : Spec.enqueued [.enqueue 1, .enqueue 2, .enqueue 3, .dequeue]
    (Spec.run (2 ^ 1) [] [.enqueue 1, .enqueue 2, .enqueue 3, .dequeue]).2 = 2 := by decide

/-- `m` elements go through the queue one at a time. -/
def passing (x : α) : Nat → List (Call α)
  | 0 => []
  | m + 1 => .enqueue x :: .drop :: passing x m

theorem specRun_passing (cap : Nat) (hc : 0 < cap) (x : α) (m : Nat) :
    (Spec.run cap [] (passing x m ++ [.enqueue x])).1 = [x] ∧
    Spec.enqueued (passing x m ++ [.enqueue x]) (Spec.run cap [] (passing x m ++ [.enqueue x])).2 = m + 1 ∧
    Spec.dequeued (passing x m ++ [.enqueue x]) (Spec.run cap [] (passing x m ++ [.enqueue x])).2 = m := by
  induction m with
  | zero => simp [passing, Spec.run, Spec.step, hc, Spec.enqueued, Spec.dequeued]
  | succ m ih =>
    obtain ⟨h1, h2, h3⟩ := ih
    simp only [passing, List.cons_append, Spec.run, Spec.step, hc, List.length_nil, if_true, List.nil_append,
      Spec.enqueued, Spec.dequeued]
    exact ⟨h1, by rw [h2]; omega, by rw [h3]; omega⟩

/-- **C09 is false of the code.** For every usable capacity: after 65535 elements have gone through the queue, a queue
holding one element reports a count of 2^64 - 65535. -/
theorem C09_count_wrong {k : Nat} (hk : k ≤ 15) (items : List α) (hi : items.length = 2 ^ k) (x : α) :
    ∃ q' os, run (init items) (passing x 65535 ++ [.enqueue x] ++ [.count]) =
      .ok (q', os ++ [⟨2 ^ 64 - 65535, none⟩]) ∧ (Spec.run (2 ^ k) [] (passing x 65535 ++ [.enqueue x])).1 = [x] := by
  have hc : ∀ m, Call.count ∉ passing x m := by
    intro m; induction m <;> simp_all [passing]
  have hN : ∃ N, N = 65535 := ⟨_, rfl⟩
  obtain ⟨N, hN⟩ := hN
  rw [← hN]
  obtain ⟨h1, h2, h3⟩ := specRun_passing (2 ^ k) (Nat.two_pow_pos k) x N
  obtain ⟨q', os, r, h, rfl, hr⟩ := C09_count_exact hk items hi (passing x N ++ [.enqueue x]) (by simp [hc])
  rw [h2, h3] at hr
  have hr' : r = 2 ^ 64 - N := by rw [hr, if_neg (by omega)]; omega
  exact ⟨q', _, by rw [h, hr'], h1⟩

example : count (⟨65535, 0, [0, 0]⟩ : Queue Nat) = 2 ^ 64 - 65535 := by decide

/-- **C10, partial** (powers of two only; the claim is false for every other capacity, `C10_other_capacities_wrong`). -/
theorem C10_power_of_two_partial {n : Nat} (hn : n ≤ 32768) (hp : ∃ k, n = 2 ^ k) (items : List α)
    (hi : items.length = n) (cs : List (Call α)) (hc : .count ∉ cs) :
    ∃ q', run (init items) cs = .ok (q', (Spec.run n [] cs).2) := by
  obtain ⟨k, rfl⟩ := hp
  have : k ≤ 15 := by
    rw [← Nat.pow_le_pow_iff_right (a := 2) (by decide)]; omega
  exact C08_fifo this items hi cs hc

/-- **C10 is false of the code** for every capacity from 1 to 32768 that is not a power of two: after filling the queue
with different elements, the first one got back is not the first one put in. -/
theorem C10_other_capacities_wrong {n : Nat} (h0 : 0 < n) (hn : n ≤ 32768) (hp : ∀ k, n ≠ 2 ^ k) (items : List Nat)
    (hi : items.length = n) :
    ∃ q' os v, run (init items) ((List.range n).map .enqueue ++ [.dequeue]) = .ok (q', os ++ [⟨0, some v⟩]) ∧
      v ≠ 0 ∧ (Spec.run n [] ((List.range n).map .enqueue ++ [.dequeue])).2.getLast? = some ⟨0, some 0⟩ := by
  subst hi
  obtain ⟨j, j1, j2⟩ := collide h0 hp
  obtain ⟨its, h1, h2, h3⟩ := enqueue_seq (fun i => i) items h0 (by omega) items.length (Nat.le_refl _)
  obtain ⟨m, m1, m2, m3⟩ := h3 _ j1 j2
  have hpos : 0 < 2 ^ j := Nat.two_pow_pos j
  have h16 : items.length % 2 ^ 16 = items.length := Nat.mod_eq_of_lt (by omega)
  refine ⟨⟨1, items.length % 2 ^ 16, its⟩, (List.range items.length).map (fun _ => ⟨0, none⟩), m, ?_, by omega, ?_⟩
  · rw [run_append, h2]
    simp only [Res.ok_bind, run, step, dequeue, h16]
    rw [if_neg (by simp only [elementsIn]; omega)]
    simp [mask, rd, m3]
  · have hspec : ∀ k q, q.length + k ≤ items.length →
        ∀ d, Spec.run items.length q ((List.range' d k).map .enqueue ++ [.dequeue]) =
          ((Spec.step items.length (q ++ List.range' d k) .dequeue).1,
            (List.range' d k).map (fun _ => ⟨0, none⟩) ++ [(Spec.step items.length (q ++ List.range' d k) .dequeue).2]) := by
      intro k
      induction k with
      | zero => intro q _ d; simp [Spec.run]
      | succ k ih =>
        intro q hq d
        have := ih (q ++ [d]) (by simp; omega) (d + 1)
        simp only [List.range'_succ, List.map_cons, List.cons_append, Spec.run]
        rw [show Spec.step items.length q (.enqueue d) = (q ++ [d], ⟨0, none⟩) by
          simp only [Spec.step]; rw [if_pos (by omega)], this]
        simp
    have := hspec items.length [] (by simp) 0
    rw [← List.range_eq_range'] at this
    rw [this]
    obtain ⟨n, hn⟩ : ∃ n, items.length = n + 1 := ⟨items.length - 1, by omega⟩
    rw [show List.range items.length = 0 :: (List.range n).map Nat.succ by rw [hn, List.range_succ_eq_map]]
    simp only [Spec.step, List.nil_append, List.getLast?_concat]

-- capacity 3: the third element overwrites the first
example : run (init [9, 9, 9]) [.enqueue 0, .enqueue 1, .enqueue 2, .dequeue] =
    .ok (⟨1, 3, [1, 9, 2]⟩, [⟨0, none⟩, ⟨0, none⟩, ⟨0, none⟩, ⟨0, some 1⟩]) := by decide

end Gel.Queue
