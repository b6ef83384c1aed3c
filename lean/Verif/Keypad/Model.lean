import Verif.Time.Check

/-!
# Keypad: model of gel/keypad/keypad.c and keypad.h

`w` is the width of `unsigned long`. The members `value`, `oldvalue` and `ignore` are only ever assigned 0 and 1 and are
Booleans here. The index `i` of the loops is a natural number: tables with more than INT_MAX keys are left out.
`keypad_get_click_time` (keypad.h:50) is declared but not defined.
-/
namespace Gel.Keypad

open Time

/-- `keypad_event_t`, keypad.h:11-19. -/
inductive Event where
  | nothing | press | pressing | click | longclick | longpress | release
  deriving DecidableEq, Repr

/-- `keypad_key_t`, keypad.h:23-37. -/
structure Key (w : Nat) where
  bitvalue : BitVec w
  code : Int
  timeState : BitVec w
  timePeriod : BitVec w
  value : Bool
  oldvalue : Bool
  ignore : Bool
  lastevent : Event
  deriving DecidableEq, Repr

/-- The arguments of `keypad_routine` apart from the table. -/
structure Args (w : Nat) where
  click : BitVec w
  longclick : BitVec w
  period : BitVec w
  timestamp : BitVec w
  bitvalue : BitVec w

/-- The loop of `keypad_routine`, keypad.c:16-38, from key `i` on: the table with the assigned values, and `found`
(`none` for -1). The table ends at the first key with bitvalue 0; without one the loop reads beyond it. -/
def scan (bv : BitVec w) : List (Key w) → Nat → Option Nat → Res (List (Key w) × Option Nat)
  | [], _, _ => .ub
  | k :: ks, i, found =>
    if k.bitvalue = 0 then .ok (k :: ks, found)
    else if k.bitvalue = bv then do
      let (ks, f) ← scan bv ks (i + 1) (some i)
      pure ({ k with value := true } :: ks, f)
    else if k.oldvalue then .ok ({ k with value := false } :: ks, some i)
    else if k.lastevent ≠ .release ∧ k.lastevent ≠ .nothing then .ok (k :: ks, some i)
    else do
      let (ks, f) ← scan bv ks (i + 1) found
      pure (k :: ks, f)

/-- What `keypad_routine` does with the key it found, keypad.c:45-82: the key and the event. -/
def process (a : Args w) (k : Key w) : Key w × Event :=
  if k.value = k.oldvalue ∧ k.ignore = false then
    if k.lastevent = .press ∧ k.value = true ∧ isStrictlyExpired k.timeState a.timestamp a.click then
      ({ k with timePeriod := a.timestamp, lastevent := .click }, .click)
    else if (k.lastevent ≠ .release ∨ k.lastevent = .nothing) ∧ k.value = false ∧
        isStrictlyExpired k.timeState a.timestamp a.click then
      ({ k with lastevent := .release }, .release)
    else if (k.lastevent = .click ∨ k.lastevent = .press) ∧ isStrictlyExpired k.timeState a.timestamp a.longclick then
      ({ k with timeState := a.timestamp, timePeriod := a.timestamp, lastevent := .longclick }, .longclick)
    else if k.lastevent = .longclick ∧ k.value = true ∧ isStrictlyExpired k.timePeriod a.timestamp a.period then
      ({ k with timePeriod := a.timestamp }, .longpress)
    else if k.lastevent = .click ∧ k.value = true ∧ isStrictlyExpired k.timePeriod a.timestamp a.period then
      ({ k with timePeriod := a.timestamp }, .pressing)
    else (k, .nothing)
  else if k.value ≠ k.oldvalue then
    let k := { k with ignore := false, oldvalue := k.value, timeState := a.timestamp }
    if k.value then ({ k with lastevent := .press }, .press)
    else if k.lastevent = .press then ({ k with lastevent := .release }, .release)
    else (k, .nothing)
  else (k, .nothing)

/-- `keypad_routine`, keypad.c:10-85: the table and the returned code and event. -/
def routine (keys : List (Key w)) (a : Args w) : Res (List (Key w) × Int × Event) := do
  let (keys, found) ← scan a.bitvalue keys 0 none
  match found with
  | none => pure (keys, 0, .nothing)
  | some i => do
    let k ← rd keys i
    let (k', e) := process a k
    let keys ← wr keys i k'
    pure (keys, k.code, e)

/-- `keypad_reset_keys`, keypad.c:87-99. -/
def reset : List (Key w) → Res (List (Key w))
  | [] => .ub
  | k :: ks =>
    if k.bitvalue = 0 then .ok (k :: ks)
    else do
      let ks ← reset ks
      let k := { k with timeState := 0, timePeriod := 0, lastevent := .nothing }
      let k := { k with oldvalue := false, value := false, ignore := true }
      pure (k :: ks)

/-- `keypad_get_key_state`, keypad.c:6-8. -/
def getKeyState (k : Key w) : Bool := k.value

/-! ## Histories -/

/-- The table after `keypad_reset_keys` and `n` calls. -/
def run (keys : List (Key w)) (as : Nat → Args w) : Nat → Res (List (Key w))
  | 0 => reset keys
  | n + 1 => do
    let keys ← run keys as n
    let (keys, _) ← routine keys (as n)
    pure keys

/-- What call `n` returns. -/
def out (keys : List (Key w)) (as : Nat → Args w) (n : Nat) : Res (Int × Event) := do
  let keys ← run keys as n
  let (_, r) ← routine keys (as n)
  pure r

/-- The events other than KEY_NOTHING returned with a code by the first `n` calls. -/
def trace (keys : List (Key w)) (as : Nat → Args w) (code : Int) : Nat → Res (List Event)
  | 0 => .ok []
  | n + 1 => do
    let l ← trace keys as code n
    let (c, e) ← out keys as n
    pure (if c = code ∧ e ≠ .nothing then l ++ [e] else l)

end Gel.Keypad
