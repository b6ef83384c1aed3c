import Verif.Watcher.Model

/-!
# Watchers without `malloc`, property C124
-/
namespace Gel.Watcher

/-- `watcher_list_init`, watcher.c:8-20, without `malloc` and with `NDEBUG`: the assertion of line 15 is not there, and
`memcpy` into `old[GEL_STATIC_BLOCK_SIZE]` (watcher.h:46) is undefined if there is not enough room. -/
def initNdebug (block : Nat) (env : Env M) (m : M) : Nat → List (Watcher w) → Res (List (Watcher w))
  | _, [] => .ok []
  | i, x :: xs => do
    if x.size ≤ block then do
      let l ← initNdebug block env m (i + 1) xs
      pure ({ x with old := now env m i x } :: l)
    else .ub

/-- The values of the blocks when they are stored. -/
def stored (env : Env M) (m : M) : Nat → List (Watcher w) → List (Watcher w)
  | _, [] => []
  | i, x :: xs => { x with old := now env m i x } :: stored env m (i + 1) xs

/-- **C124.** With `malloc`, `watcher_list_init` stores the present value of every block. Without it, it does the same if
every block fits into `GEL_STATIC_BLOCK_SIZE` bytes, exactly that many included; otherwise an assertion fails, or, with
`NDEBUG`, the behaviour is undefined. -/
theorem C124_static (env : Env M) (m : M) (i : Nat) (l : List (Watcher w)) :
    init none env m i l = .ok (stored env m i l) ∧
    ∀ b, ((∀ x ∈ l, x.size ≤ b) → init (some b) env m i l = .ok (stored env m i l) ∧
        initNdebug b env m i l = .ok (stored env m i l)) ∧
      ((∃ x ∈ l, b < x.size) → init (some b) env m i l = .abort ∧ initNdebug b env m i l = .ub) := by
  induction l generalizing i with
  | nil => exact ⟨rfl, fun b => ⟨fun _ => ⟨rfl, rfl⟩, by simp⟩⟩
  | cons x xs ih =>
    obtain ⟨h1, h2⟩ := ih (i + 1)
    refine ⟨?_, fun b => ⟨fun h => ?_, fun h => ?_⟩⟩
    · simp only [init, fitsBlock, cassert, if_true, Res.ok_bind, h1, stored, Res.pure_eq]
    · have h3 := (h2 b).1 fun y hy => h y (by simp [hy])
      have hx := h x (by simp)
      simp only [init, initNdebug, fitsBlock, cassert, hx, decide_true, if_true, Res.ok_bind, h3.1, h3.2, stored, Res.pure_eq,
        and_self]
    · by_cases hx : x.size ≤ b
      · have h3 := (h2 b).2 (by
          obtain ⟨y, hy, hb⟩ := h
          rcases List.mem_cons.1 hy with rfl | hy
          · omega
          · exact ⟨y, hy, hb⟩)
        simp [init, initNdebug, fitsBlock, cassert, hx, h3.1, h3.2, Res.ok_bind]
      · simp [init, initNdebug, fitsBlock, cassert, hx]

example : let env : Env (List Byte) := ⟨fun m i => m.drop (4 * i), fun m _ => m⟩
    init (some 4) env [1, 2, 3, 4, 5] 0 [make 8 false 4 0, make 8 false 1 3] =
      .ok [⟨[1, 2, 3, 4], 4, 0, 0, false⟩, ⟨[5], 1, 3, 0, false⟩] ∧
    init (some 4) env [1, 2, 3, 4, 5] 0 [make 8 false 1 0, make 8 false 5 3] = .abort ∧
    initNdebug 4 env [1, 2, 3, 4, 5] 0 [make 8 false 1 0, make 8 false 5 3] = .ub := by decide

end Gel.Watcher
