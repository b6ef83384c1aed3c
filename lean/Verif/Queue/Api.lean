/-!
# Macro queue: calls and observations

The interface declared by `QUEUE_DECLARATION`, gel/collections/queue.h:19-31.
-/
namespace Gel.Queue

/-- A call on an initialised queue. -/
inductive Call (α : Type u) where
  | enqueue (x : α)
  /-- `NAME_dequeue` with a pointer to store the element -/
  | dequeue
  /-- `NAME_drop`, also `NAME_dequeue` with NULL -/
  | drop
  | count
  | isEmpty
  | isFull
  deriving Repr, DecidableEq

/-- What the caller sees: the returned value (results: 0 success, 1 full/empty) and the element stored through the
pointer, if any. -/
structure Obs (α : Type u) where
  ret : Nat
  out : Option α
  deriving Repr, DecidableEq

end Gel.Queue
