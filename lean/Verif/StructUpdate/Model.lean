import Verif.C

/-!
# Struct updates: model of gel/data_structures/struct_update.c and struct_update.h

The memory is a list of blocks; a pointer is the number of a block and an offset. Freed blocks are `none`. `malloc`
succeeds (simplification).
-/
namespace Gel.StructUpdate

abbrev Byte := BitVec 8

abbrev Heap := List (Option (List Byte))

/-- Reading `n` bytes. -/
def load (h : Heap) (p off n : Nat) : Res (List Byte) :=
  match h[p]? with
  | some (some b) => if off + n ≤ b.length then .ok ((b.drop off).take n) else .ub
  | _ => .ub

/-- `bytes` at `off` in a block. -/
def splice (b : List Byte) (off : Nat) (bytes : List Byte) : List Byte :=
  b.take off ++ bytes ++ b.drop (off + bytes.length)

/-- Writing. -/
def store (h : Heap) (p off : Nat) (bytes : List Byte) : Res Heap :=
  match h[p]? with
  | some (some b) => if off + bytes.length ≤ b.length then .ok (h.set p (some (splice b off bytes))) else .ub
  | _ => .ub

/-- `struct_update_t`, struct_update.h:41-45. -/
structure Update where
  offset : Nat
  data : Nat
  size : Nat
  deriving DecidableEq, Repr

/-- `struct_update_from_data`, struct_update.c:8-14. -/
def fromData (h : Heap) (offset p off size : Nat) : Res (Heap × Update) := do
  let bytes ← load h p off size
  pure (h ++ [some bytes], { offset := offset, data := h.length, size := size })

/-- `struct_update_apply`, struct_update.c:17-20, for a structure at the offset `off` of block `p`. `memcpy` between
overlapping regions cannot happen, as the data is a block of its own. -/
def apply (h : Heap) (p off : Nat) (u : Update) : Res Heap := do
  let bytes ← load h u.data 0 u.size
  store h p (off + u.offset) bytes

/-- `struct_update_free`, struct_update.c:23-25. -/
def free (h : Heap) (u : Update) : Res Heap :=
  match h[u.data]? with
  | some (some _) => .ok (h.set u.data none)
  | _ => .ub

/-- The argument `length` of `STRUCT_UPDATE_ARRAY`: a primary expression, or a sum. -/
inductive Length where
  | one (n : Nat)
  | sum (a b : Nat)

/-- Its value. -/
def Length.value : Length → Nat
  | one n => n
  | sum a b => a + b

/-- `sizeof(array[0]) * length`, struct_update.h:38: the macro has no parentheses around its argument. -/
def arraySize (elem : Nat) : Length → Nat
  | .one n => elem * n
  | .sum a b => elem * a + b

end Gel.StructUpdate
