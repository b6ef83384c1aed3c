import Verif.C
import Verif.Stack.Api

/-!
# Macro stack: model of gel/collections/stack.h

Element copies are atomic in the model. The field `num` of the struct is never used and is left out. The capacity is
the length of the item list.
-/
namespace Gel.Stack

variable {α : Type u}

/-- `struct NAME`, stack.h:19-22; `idx` is a `uint16_t`. -/
structure Stack (α : Type u) where
  idx : Nat
  items : List α
  deriving Repr, DecidableEq

/-- `NAME_init`, stack.h:32-34, on a struct whose item array has some content. -/
def init (items : List α) : Stack α := ⟨0, items⟩

/-- `NAME_push`, stack.h:36-44. -/
def push (s : Stack α) (x : α) : Res (Stack α × Nat) :=
  if s.idx = s.items.length then .ok (s, 1)
  else do
    let items ← wr s.items s.idx x
    pure (⟨(s.idx + 1) % 2 ^ 16, items⟩, 0)

/-- `NAME_pop` with a non-NULL pointer, stack.h:46-56. -/
def pop (s : Stack α) : Res (Stack α × Nat × Option α) :=
  if s.idx = 0 then .ok (s, 1, none)
  else do
    let x ← rd s.items (s.idx - 1)
    pure ({ s with idx := s.idx - 1 }, 0, some x)

/-- `NAME_pop` with NULL, stack.h:46-56. -/
def popNull (s : Stack α) : Stack α × Nat :=
  if s.idx = 0 then (s, 1) else ({ s with idx := s.idx - 1 }, 0)

/-- `NAME_peek` with a non-NULL pointer, stack.h:58-67; returns the status and the element stored. -/
def peek (s : Stack α) : Res (Nat × Option α) :=
  if s.idx = 0 then .ok (1, none)
  else do
    let x ← rd s.items s.idx
    pure (0, some x)

/-- `NAME_peek` with NULL, stack.h:58-67. -/
def peekNull (s : Stack α) : Nat := if s.idx = 0 then 1 else 0

/-- The loop of `NAME_dequeue` from `i`, with `cnt` iterations to go, stack.h:72-73. -/
def shift (items : List α) (i : Nat) : Nat → Res (List α)
  | 0 => .ok items
  | cnt + 1 => do
    let x ← rd items (i + 1)
    let items ← wr items i x
    shift items (i + 1) cnt

/-- `NAME_dequeue`, stack.h:69-77. -/
def dequeue (s : Stack α) : Res (Stack α) :=
  if s.idx > 0 then do
    let items ← shift s.items 0 (s.idx - 1)
    pure ⟨s.idx - 1, items⟩
  else .ok s

/-- `NAME_is_empty`, stack.h:79-81. -/
def isEmpty (s : Stack α) : Bool := s.idx == 0

/-- `NAME_is_full`, stack.h:83-86. -/
def isFull (s : Stack α) : Bool := s.idx == s.items.length

/-- One call. -/
def step (s : Stack α) : Call α → Res (Stack α × Obs α)
  | .push x => do let (s, r) ← push s x; pure (s, ⟨r, none⟩)
  | .pop => do let (s, r, o) ← pop s; pure (s, ⟨r, o⟩)
  | .popNull => .ok ((popNull s).1, ⟨(popNull s).2, none⟩)
  | .peek => do let (r, o) ← peek s; pure (s, ⟨r, o⟩)
  | .peekNull => .ok (s, ⟨peekNull s, none⟩)
  | .dequeue => do let s ← dequeue s; pure (s, ⟨0, none⟩)
  | .isEmpty => .ok (s, ⟨(isEmpty s).toNat, none⟩)
  | .isFull => .ok (s, ⟨(isFull s).toNat, none⟩)

/-- A history of calls. -/
def run : Stack α → List (Call α) → Res (Stack α × List (Obs α))
  | s, [] => .ok (s, [])
  | s, c :: cs => do
    let (s, o) ← step s c
    let (s, os) ← run s cs
    pure (s, o :: os)

end Gel.Stack
