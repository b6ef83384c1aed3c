import Verif.Time.StopwatchProps

/-!
# Stopwatch: the macro stopwatch_setngo as a statement (C170)
-/
namespace Gel.Stopwatch

variable {w : Nat}

/-- `if (c) stopwatch_setngo(t, period, now);`: the macro (stopwatch.h:23) is two statements, of which the `if` governs the
first. -/
def ifSetngo (c : Bool) (s : Watch w) (period now : BitVec w) : Watch w :=
  let s := if c then (set s period).1 else s
  (start s now).1

/-- A pointer expression with a side effect: from a variable to its new value and the index of the stopwatch. -/
abbrev Ptr := Nat → Nat × Nat

/-- `stopwatch_setngo(e, period, now)` on an array of stopwatches, for an expression `e` with a side effect on the variable `x`:
the macro evaluates it twice. -/
def setngoPtr (ws : List (Watch w)) (x : Nat) (e : Ptr) (period now : BitVec w) : Res (List (Watch w) × Nat) := do
  let (x, i) := e x
  let s ← rd ws i
  let ws ← wr ws i (set s period).1
  let (x, j) := e x
  let s ← rd ws j
  let ws ← wr ws j (start s now).1
  pure (ws, x)

/-- What one evaluation would do. -/
def setngoOnce (ws : List (Watch w)) (x : Nat) (e : Ptr) (period now : BitVec w) : Res (List (Watch w) × Nat) := do
  let (x, i) := e x
  let s ← rd ws i
  let ws ← wr ws i (setngo s period now)
  pure (ws, x)

/-- **C170**, proved part: with a condition that holds the macro sets and starts the stopwatch, and with one that does not it
leaves a counting stopwatch alone. Missing: other stopwatches, for which it is false. -/
theorem C170_if_partial (s : Watch w) (period now : BitVec w) :
    ifSetngo true s period now = setngo s period now ∧ (s.mode = .counting → ifSetngo false s period now = s) := by
  refine ⟨rfl, fun h => ?_⟩
  simp [ifSetngo, start, h]

/-- **C170**, where it fails: with a condition that does not hold a stopped or paused stopwatch is started. -/
theorem C170_if_wrong (s : Watch w) (period now : BitVec w) (h : s.mode ≠ .counting) :
    (ifSetngo false s period now).mode = .counting ∧ (ifSetngo false s period now).starting = now ∧
      (ifSetngo false s period now).total = s.total ∧ ifSetngo false s period now ≠ s := by
  obtain ⟨a, b, c, m⟩ := s
  cases m with
  | counting => exact absurd rfl h
  | stopped => exact ⟨rfl, rfl, rfl, fun e => by injection e with _ _ _ e; cases e⟩
  | paused => exact ⟨rfl, rfl, rfl, fun e => by injection e with _ _ _ e; cases e⟩

/-- **C170**, proved part: an argument without side effects is as good as evaluated once. -/
theorem C170_arg_partial (ws : List (Watch w)) (x i : Nat) (hi : i < ws.length) (period now : BitVec w) :
    setngoPtr ws x (fun x => (x, i)) period now = setngoOnce ws x (fun x => (x, i)) period now := by
  simp [setngoPtr, setngoOnce, rd, wr, hi, setngo]

/-- **C170**, where it fails: `stopwatch_setngo(&timers[x++], period, now)` sets the period of one stopwatch and starts the next
one. -/
theorem C170_arg_wrong (ws : List (Watch w)) (x : Nat) (hx : x + 1 < ws.length) (period now : BitVec w) :
    ∃ s t, ws[x]? = some s ∧ ws[x + 1]? = some t ∧
      setngoPtr ws x (fun x => (x + 1, x)) period now =
        .ok ((ws.set x (set s period).1).set (x + 1) (start t now).1, x + 2) ∧
      setngoOnce ws x (fun x => (x + 1, x)) period now = .ok (ws.set x (setngo s period now), x + 1) := by
  refine ⟨ws[x]'(by omega), ws[x + 1], List.getElem?_eq_getElem _, List.getElem?_eq_getElem _, ?_, ?_⟩
  · simp [setngoPtr, rd, wr, hx, show x < ws.length by omega, List.getElem?_set]
  · simp [setngoOnce, rd, wr, show x < ws.length by omega]

/-- Stopwatches of 8 bits. -/
example : ifSetngo false (init 8) 10 3 = ⟨3, 0, 0, .counting⟩ ∧
    setngoPtr [init 8, init 8] 0 (fun x => (x + 1, x)) 10 3 = .ok ([⟨0, 0, 10, .stopped⟩, ⟨3, 0, 0, .counting⟩], 2) ∧
    setngoOnce [init 8, init 8] 0 (fun x => (x + 1, x)) 10 3 = .ok ([⟨3, 0, 10, .counting⟩, init 8], 1) := by decide

end Gel.Stopwatch
