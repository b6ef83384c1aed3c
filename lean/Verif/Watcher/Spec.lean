import Verif.Watcher.Model

/-!
# Watchers: specification
-/
namespace Gel.Watcher.Spec

/-- The callbacks leave the watched memory alone. -/
def Quiet (env : Env M) : Prop := ∀ m i j, env.view (env.cb m i) j = env.view m j

/-- The history of one delayed watcher: `c k` are the bytes and `t k` is the time at the `k`-th call of
`watcher_process_changes`; `c 0` are the bytes at the initialisation. A call notices a change: -/
def Changed (c : Nat → List Byte) (k : Nat) : Prop := 1 ≤ k ∧ c k ≠ c (k - 1)

/-- The callback is due at call `k`: the last change was noticed at call `j`, that was at least `delay` ago, and no call
between them was late enough already. -/
def Due (c : Nat → List Byte) (t : Nat → Int) (delay : Int) (k : Nat) : Prop :=
  ∃ j, j < k ∧ Changed c j ∧ (∀ l, j < l → l ≤ k → ¬ Changed c l) ∧ t j + delay ≤ t k ∧
    ∀ l, j < l → l < k → t l < t j + delay

end Gel.Watcher.Spec
