import Verif.Cbuf.Model
import Verif.Queue.Model

/-!
# The project's own tests of the collections, run on the models

Every test of test/collections, with the assertions as expected observations. Arrays that the tests leave uninitialised hold
arbitrary bytes. Loops of 1000 and 40000 rounds are cut to what shows every position of the indices.
-/
namespace Gel.Tests

section Cbuf
open Gel.Cbuf

/-- The observations of some calls on a fresh buffer of 64 bytes. -/
def cbuf (cs : List (Call (BitVec 8))) : Res (List (Obs (BitVec 8))) :=
  match init (some (List.replicate 64 0)) 64 with
  | some cb => do
    let (_, os) ← run cb cs
    pure os
  | none => .abort

/-- `put_get_string`, circular_buffer_test.c:9-26: the calls and what is expected. -/
def putGet (w : List (BitVec 8)) : List (Call (BitVec 8)) :=
  [.puts w w.length, .size, .gets (some (List.replicate w.length 0x55)) w.length]
def putGetObs (w : List (BitVec 8)) : List (Obs (BitVec 8)) := [⟨w.length, none⟩, ⟨w.length, none⟩, ⟨w.length, some w⟩]

def bytes3 : List (BitVec 8) := (List.range 32).map fun i => BitVec.ofNat 8 (i * 3)
def bytes7 : List (BitVec 8) := (List.range 17).map fun i => BitVec.ofNat 8 (i * 7)
def junk : List (BitVec 8) := (List.range 64).map fun i => BitVec.ofNat 8 (i * 5 + 1)

-- test_initialization, circular_buffer_test.c:42-47
example : cbuf [.size, .capacity] = .ok [⟨0, none⟩, ⟨63, none⟩] := by decide +kernel
-- test_single_put_get, :49-54
example : cbuf [.putc 0xAA, .getc, .isEmpty] = .ok [⟨0, none⟩, ⟨0, some [0xAA]⟩, ⟨1, none⟩] := by decide +kernel
-- test_string_put_get, :56-67
example : cbuf (putGet bytes3 ++ [.isEmpty]) = .ok (putGetObs bytes3 ++ [⟨1, none⟩]) := by decide +kernel
-- test_multiple_string_put_get, :69-83; after 64 rounds the positions repeat
example : cbuf ((List.replicate 64 (putGet bytes7)).flatten ++ [.isEmpty]) =
    .ok ((List.replicate 64 (putGetObs bytes7)).flatten ++ [⟨1, none⟩]) := by decide +kernel
-- test_put_get, :85-94
example : cbuf [.puts [1, 2, 3, 4, 5, 6, 7, 8] 8, .gets (some (List.replicate 8 0)) 8,
      .gets (some [1, 2, 3, 4, 5, 6, 7, 8]) 8] =
    .ok [⟨8, none⟩, ⟨8, some [1, 2, 3, 4, 5, 6, 7, 8]⟩, ⟨0, some [1, 2, 3, 4, 5, 6, 7, 8]⟩] := by decide +kernel
-- test_overflow, :96-107
example : cbuf [.puts junk 32, .isFull, .puts junk 32, .isFull, .puts junk 32, .isFull] =
    .ok [⟨32, none⟩, ⟨0, none⟩, ⟨31, none⟩, ⟨1, none⟩, ⟨0, none⟩, ⟨1, none⟩] := by decide +kernel
-- test_underflow, :109-117
example : (cbuf [.puts junk 32, .gets (some junk) 64, .gets (some junk) 64] >>= fun os => pure (os.map (·.ret))) =
    .ok [32, 32, 0] := by decide +kernel
-- test_multiple, :119-139; after 32 rounds the positions repeat
example : cbuf ([.puts [0xAA, 0, 1, 5, 9, 9] 6, .gets (some (List.replicate 6 0)) 6] ++
      (List.replicate 33 [.puts [0xAA, 0, 1, 6, 9, 9] 6, .gets (some (List.replicate 6 0)) 6]).flatten) =
    .ok ([⟨6, none⟩, ⟨6, some [0xAA, 0, 1, 5, 9, 9]⟩] ++
      (List.replicate 33 [⟨6, none⟩, ⟨6, some [0xAA, 0, 1, 6, 9, 9]⟩]).flatten) := by decide +kernel

end Cbuf

section Queue
open Gel.Queue

/-- One round of the tests on a queue of `n` items, macro_queue_test.c:18-42: the calls and what is expected. -/
def round (n : Nat) (item : Nat → α) (extra : α) : List (Call α) :=
  ((List.range n).map fun i => [.enqueue (item i), .isEmpty]).flatten ++ [.enqueue extra] ++
    (List.replicate n [.isEmpty, .dequeue]).flatten ++ [.dequeue, .isEmpty]
def roundObs (n : Nat) (item : Nat → α) : List (Obs α) :=
  (List.replicate n [⟨0, none⟩, ⟨0, none⟩]).flatten ++ [⟨1, none⟩] ++
    ((List.range n).map fun i => [⟨0, none⟩, ⟨0, some (item i)⟩]).flatten ++ [⟨1, none⟩, ⟨1, none⟩]

def queue (q : Queue α) (cs : List (Call α)) : Res (List (Obs α)) := do
  let (_, os) ← run q cs
  pure os

-- test_queue_works_with_integers, macro_queue_test.c:13-43
example : queue (init (List.replicate 8 0xDEAD)) (.isEmpty :: round 8 id 55) = .ok (⟨1, none⟩ :: roundObs 8 id) := by
  decide +kernel
-- test_queue_works_for_structs, :51-85
example : queue (init (List.replicate 16 [])) (.isEmpty :: round 16 (List.replicate 13) []) =
    .ok (⟨1, none⟩ :: roundObs 16 (List.replicate 13)) := by decide +kernel
-- test_queue_works_when_read_and_write_pointers_overflow, :87-119: the first rounds, and those around the overflow
example : queue (init (List.replicate 8 0xDEAD)) (.isEmpty :: (List.replicate 5 (round 8 id 55)).flatten) =
    .ok (⟨1, none⟩ :: (List.replicate 5 (roundObs 8 id)).flatten) ∧
    queue ⟨65520, 65520, [0, 1, 2, 3, 4, 5, 6, 7]⟩ (List.replicate 5 (round 8 id 55)).flatten =
      .ok (List.replicate 5 (roundObs 8 id)).flatten := by decide +kernel

end Queue

end Gel.Tests
