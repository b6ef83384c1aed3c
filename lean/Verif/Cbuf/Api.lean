/-!
# Circular buffer: the calls a user makes and what they observe
-/
namespace Gel.Cbuf

/-- A call made by the user on an initialised buffer. The arrays passed to the bulk reads are the caller's; `none`
is NULL. -/
inductive Call (α : Type u) where
  | putc (x : α)
  | getc
  | getcNull
  | puts (data : List α) (len : Nat)
  | gets (out : Option (List α)) (len : Int)
  | peek (out : Option (List α)) (len : Int)
  | drop (len : Int)
  | reset
  | isEmpty
  | isFull
  | size
  | capacity

/-- What the user observes of a call: the return value (booleans as 0/1) and the data stored through the pointer
argument. -/
structure Obs (α : Type u) where
  ret : Int
  data : Option (List α) := none
  deriving Repr, DecidableEq

/-- C booleans. -/
def b2i (b : Bool) : Int := if b then 1 else 0

end Gel.Cbuf
