/-!
# Macro stack: calls and observations

The interface declared by `STACK_DECLARATION`, gel/collections/stack.h:18-29.
-/
namespace Gel.Stack

/-- A call on an initialised stack. -/
inductive Call (α : Type u) where
  | push (x : α)
  /-- `NAME_pop` with a pointer to store the element -/
  | pop
  /-- `NAME_pop` with NULL -/
  | popNull
  /-- `NAME_peek` with a pointer to store the element -/
  | peek
  /-- `NAME_peek` with NULL -/
  | peekNull
  | dequeue
  | isEmpty
  | isFull
  deriving Repr, DecidableEq

/-- What the caller sees: the returned value (results: 0 success, 1 full/empty; 0 for `dequeue`, which returns nothing)
and the element stored through the pointer, if any. -/
structure Obs (α : Type u) where
  ret : Nat
  out : Option α
  deriving Repr, DecidableEq

end Gel.Stack
