/-!
# Debounce: specification

The level of one input over time, as a predicate on sequences. Nothing here refers to counters.
-/
namespace Gel.Debounce.Spec

/-- `lev k` is the level before call `k`, `smp k` the sample passed to call `k`. Call `k` changes the level exactly if
it is the last of `d + 1` calls during which the level was the same and the samples differed from it. -/
def Rule (d : Nat) (smp lev : Nat → Bool) (k : Nat) : Prop :=
  lev (k + 1) ≠ lev k ↔ d ≤ k ∧ ∀ j, k - d ≤ j → j ≤ k → lev j = lev k ∧ smp j ≠ lev k

/-- A run of differing samples starts at call `s`: the call before it, if any, had the stored level or changed it. -/
def Starts (smp lev : Nat → Bool) (s : Nat) : Prop :=
  s = 0 ∨ smp (s - 1) = lev (s - 1) ∨ lev s ≠ lev (s - 1)

/-- The rule when every call has its own debounce value `d k`: what counts is the value at the start of the run. -/
def RuleVarying (d : Nat → Nat) (smp lev : Nat → Bool) (k : Nat) : Prop :=
  lev (k + 1) ≠ lev k ↔
    ∃ s, k = s + d s ∧ Starts smp lev s ∧ ∀ j, s ≤ j → j ≤ k → lev j = lev k ∧ smp j ≠ lev k

end Gel.Debounce.Spec
