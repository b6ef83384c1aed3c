/-!
# Nullable type: model of gel/data_structures/maybe.h

`MAYBE_DECLARATION` and `MAYBE_DEFINITION` for a type `α`.
-/
namespace Gel.Maybe

/-- `maybe_TYPE_t`, maybe.h:16-19. -/
structure Maybe (α : Type) where
  just : α
  nothing : Int
  deriving DecidableEq, Repr

/-- `maybe_TYPE_return`, maybe.h:28-30. -/
def ret (value : α) : Maybe α := ⟨value, 0⟩

/-- `maybe_TYPE_is_just`, maybe.h:31-33. -/
def isJust (m : Maybe α) : Bool := m.nothing == 0

/-- `maybe_TYPE_nothing`, maybe.h:34-36; the member that is not named is initialised with zero. -/
def none (zero : α) : Maybe α := ⟨zero, 1⟩

/-- `maybe_TYPE_with_default`, maybe.h:37-42. -/
def withDefault (m : Maybe α) (defval : α) : α := if isJust m then m.just else defval

/-- `maybe_TYPE_map`, maybe.h:43-48. -/
def map (m : Maybe α) (fn : α → α) : Maybe α := if isJust m then ret (fn m.just) else m

/-- `maybe_TYPE_bind`, maybe.h:49-54. -/
def bind (m : Maybe α) (fn : α → Maybe α) : Maybe α := if isJust m then fn m.just else m

end Gel.Maybe
