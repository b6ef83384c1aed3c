import Verif.C
import Verif.Queue.Api

/-!
# Macro queue: model of gel/collections/queue.h

Element copies are atomic in the model (an assignment of `ITEM_TYPE`). `size_t` has 64 bits. The capacity
(`ARRAY_LENGTH(p_queue->items)`) is the length of the item list.
-/
namespace Gel.Queue

variable {α : Type u}

/-- `struct NAME`, queue.h:20-24. The indices are `uint16_t`: below 65536. -/
structure Queue (α : Type u) where
  readIdx : Nat
  writeIdx : Nat
  items : List α
  deriving Repr, DecidableEq

/-- `NAME_init`, queue.h:34-37, on a struct whose item array has some content. -/
def init (items : List α) : Queue α := ⟨0, 0, items⟩

/-- `uint16_t elements_in = p_queue->write_idx - p_queue->read_idx`: an `int` difference converted to 16 bits. -/
def elementsIn (q : Queue α) : Nat := (((q.writeIdx : Int) - q.readIdx) % 2 ^ 16).toNat

/-- `NAME_count`, queue.h:39-41: the `int` difference converted to `size_t`. -/
def count (q : Queue α) : Nat := asSize ((q.writeIdx : Int) - q.readIdx)

/-- The index of `x & (capacity - 1)` converted to `uint16_t`, queue.h:51 and :64. -/
def mask (q : Queue α) (idx : Nat) : Nat := (idx &&& (q.items.length - 1)) % 2 ^ 16

/-- `NAME_enqueue`, queue.h:43-54. -/
def enqueue (q : Queue α) (x : α) : Res (Queue α × Nat) :=
  if elementsIn q = q.items.length then .ok (q, 1)
  else do
    let items ← wr q.items (mask q q.writeIdx) x
    pure ({ q with writeIdx := (q.writeIdx + 1) % 2 ^ 16, items := items }, 0)

/-- `NAME_dequeue` with a non-NULL pointer, queue.h:56-69. -/
def dequeue (q : Queue α) : Res (Queue α × Nat × Option α) :=
  if elementsIn q = 0 then .ok (q, 1, none)
  else do
    let x ← rd q.items (mask q q.readIdx)
    pure ({ q with readIdx := (q.readIdx + 1) % 2 ^ 16 }, 0, some x)

/-- `NAME_drop` (and `NAME_dequeue` with NULL), queue.h:71-73 and :56-69. -/
def drop (q : Queue α) : Queue α × Nat :=
  if elementsIn q = 0 then (q, 1)
  else ({ q with readIdx := (q.readIdx + 1) % 2 ^ 16 }, 0)

/-- `NAME_is_empty`, queue.h:75-77: an `int` comparison. -/
def isEmpty (q : Queue α) : Bool := (q.writeIdx : Int) - q.readIdx == 0

/-- `NAME_is_full`, queue.h:79-84. -/
def isFull (q : Queue α) : Bool := elementsIn q == q.items.length

/-- One call. -/
def step (q : Queue α) : Call α → Res (Queue α × Obs α)
  | .enqueue x => do let (q, r) ← enqueue q x; pure (q, ⟨r, none⟩)
  | .dequeue => do let (q, r, o) ← dequeue q; pure (q, ⟨r, o⟩)
  | .drop => .ok ((drop q).1, ⟨(drop q).2, none⟩)
  | .count => .ok (q, ⟨count q, none⟩)
  | .isEmpty => .ok (q, ⟨(isEmpty q).toNat, none⟩)
  | .isFull => .ok (q, ⟨(isFull q).toNat, none⟩)

/-- A history of calls. -/
def run : Queue α → List (Call α) → Res (Queue α × List (Obs α))
  | q, [] => .ok (q, [])
  | q, c :: cs => do
    let (q, o) ← step q c
    let (q, os) ← run q cs
    pure (q, o :: os)

end Gel.Queue
