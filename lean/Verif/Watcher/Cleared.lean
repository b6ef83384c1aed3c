import Verif.Watcher.Props

/-!
# Exactly which watchers are still called after watcher_clear_changes (C64)
-/
namespace Gel.Watcher

open Spec

/-- A time at which a delay is over always comes, even with the memory unchanged. -/
theorem expires (ts delay : BitVec w) : Time.isLooselyExpired ts (ts + delay) delay = true := by
  simp [Time.isLooselyExpired, Time.timeAfterOrEqual]

/-- What `watcher_clear_changes` makes of one watcher. -/
theorem clear_getElem (env : Env M) (m : M) (ts : BitVec w) : ∀ (l : List (Watcher w)) (k j : Nat) (x : Watcher w),
    l[j]? = some x → (clear env m ts k l)[j]? =
      some (if x.old ≠ now env m (k + j) x then
        (if x.delay > 0 then { x with ts := ts, moved := false, old := now env m (k + j) x }
         else { x with old := now env m (k + j) x }) else x) := by
  intro l
  induction l with
  | nil => intro k j x h; simp at h
  | cons y ys ih =>
    intro k j x h
    cases j with
    | zero =>
      simp only [List.getElem?_cons_zero, Option.some.injEq] at h
      subst h
      simp [clear]
    | succ j =>
      have := ih (k + 1) j x (by simpa using h)
      simp only [clear, List.getElem?_cons_succ]
      rw [this, show k + 1 + j = k + (j + 1) by omega]

/-- **C64**: after `watcher_clear_changes`, with its bytes unchanged, a watcher is called by `watcher_process_changes` at some
time exactly if a notification was pending and either its bytes were those last seen or it has no delay. -/
theorem C64_exact (env : Env M) (m : M) (ts : BitVec w) (l : List (Watcher w)) (i : Nat) (x : Watcher w)
    (hx : l[i]? = some x) :
    ∃ y, (clear env m ts 0 l)[i]? = some y ∧
      ((∃ ts', (step env m ts' i y).called = true) ↔ x.moved = true ∧ (x.old = now env m i x ∨ ¬ x.delay > 0)) := by
  have hk := clear_getElem env m ts l 0 i x hx
  rw [Nat.zero_add] at hk
  refine ⟨_, hk, ?_⟩
  have called : ∀ (y : Watcher w), y.old = now env m i y →
      ((∃ ts', (step env m ts' i y).called = true) ↔ y.moved = true) := by
    intro y hy
    constructor
    · rintro ⟨ts', h⟩
      rw [step, if_neg (not_not.2 hy)] at h
      split_ifs at h with h1
      exact h1
    · intro h
      refine ⟨y.ts + y.delay, ?_⟩
      rw [step, if_neg (not_not.2 hy), if_pos h, if_pos (expires _ _)]
  split_ifs with h1 h2
  · rw [called _ rfl]
    simp only [h1, h2, not_true_eq_false, or_self, and_false, Bool.false_eq_true]
  · rw [called _ rfl]
    simp only [h2, not_false_eq_true, or_true, and_true]
  · have h1 : x.old = now env m i x := not_not.1 h1
    rw [called _ h1]
    simp [h1]

-- watcher 1 (delayed): noticed at 100 and cleared at 105 it is still called later; cleared when it changed again it is not
example : ((clear toy ([1, 9, 3], 0) 105 0 (process toy ([1, 9, 3], 0) 100 0 threeInit).list)[1]?.map
      fun y => (step toy ([1, 9, 3], 0) 120 1 y).called) = some true ∧
    ((clear toy ([1, 8, 3], 0) 105 0 (process toy ([1, 9, 3], 0) 100 0 threeInit).list)[1]?.map
      fun y => (step toy ([1, 8, 3], 0) 120 1 y).called) = some false := by decide

end Gel.Watcher
