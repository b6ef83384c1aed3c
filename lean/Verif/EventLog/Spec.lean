import Verif.EventLog.Model

/-!
# Circular event log: specification

The history of saved events is a list, oldest first.
-/
namespace Gel.EventLog.Spec

/-- A working storage of `max` slots: `save` and `load` as their users write them. Saving fails outside of the storage and
when the argument `refuse` says so; loading returns the number of events and fails outside. -/
def store (refuse : Nat → List Byte → Int) : Dev (List (List Byte)) where
  save d event pos :=
    if refuse pos event ≠ 0 then (refuse pos event, d)
    else if pos < d.length then (0, d.set pos event) else (-1, d)
  load d number start :=
    if start + number ≤ d.length then (number, ((d.drop start).take number).flatten) else (-1, [])

/-- The `number` events before the `jump` last ones, oldest first; only the last `max` ones are kept. -/
def window (history : List (List Byte)) (max number jump : Nat) : List (List Byte) :=
  let kept := history.drop (history.length - max)
  let before := kept.take (kept.length - jump)
  before.drop (before.length - number)

end Gel.EventLog.Spec
