import Verif.Keypad.Model

/-!
# Keypad: specification

The life cycle of a key, as the events that may follow each other, and what a table is.
-/
namespace Gel.Keypad.Spec

/-- Which event may come after which (`none`: at the beginning). -/
def Next : Option Event → Event → Prop
  | none, e => e = .press
  | some .press, e => e = .click ∨ e = .longclick ∨ e = .release
  | some .click, e => e = .pressing ∨ e = .longclick ∨ e = .release ∨ e = .press
  | some .pressing, e => e = .pressing ∨ e = .longclick ∨ e = .release ∨ e = .press
  | some .longclick, e => e = .longpress ∨ e = .release ∨ e = .press
  | some .longpress, e => e = .longpress ∨ e = .release ∨ e = .press
  | some .release, e => e = .press
  | some .nothing, _ => False

/-- A sequence of events in which every event may come after the one before it. -/
def LifeCycle (l : List Event) : Prop :=
  ∀ pre e post, l = pre ++ e :: post → Next pre.getLast? e

/-- `ks` are the keys of a table: up to the first one with bitvalue 0. -/
def Table (tbl ks : List (Key w)) : Prop :=
  (∀ k ∈ ks, k.bitvalue ≠ 0) ∧ ∃ t rest, t.bitvalue = 0 ∧ tbl = ks ++ t :: rest

end Gel.Keypad.Spec
