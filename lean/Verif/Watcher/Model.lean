import Verif.Time.Check

/-!
# Watchers: model of gel/data_structures/watcher.c and watcher.h

The memory is an abstract state `M`; the watched blocks are seen through `Env.view` and the callbacks are functions on
`M`. Pointers are assumed to be valid and `malloc` to succeed (simplification). A list is given without its terminating
null element. `w` is the width of `long`.
-/
namespace Gel.Watcher

abbrev Byte := BitVec 8

/-- The memory and the callbacks: the bytes at `list[i].current`, and what `list[i].cb` does. -/
structure Env (M : Type) where
  view : M → Nat → List Byte
  cb : M → Nat → M

/-- `watcher_t` without pointers, watcher.h:38-63. -/
structure Watcher (w : Nat) where
  old : List Byte
  size : Nat
  delay : BitVec w
  ts : BitVec w
  moved : Bool
  deriving DecidableEq, Repr

/-- `WATCHER_DELAYED_ARRAY`, watcher.h:18-26, with the sum of the element sizes and the delay as the user gives them. With
`GEL_WATCHER_REDUCE_RAM_FOOTPRINT` (`packed`) the fields have 8 and 16 bits, watcher.h:49-62. -/
def make (w : Nat) (packed : Bool) (size delay : Nat) : Watcher w :=
  { old := [], size := if packed then size % 2 ^ 8 else size, moved := false, ts := 0,
    delay := if packed then BitVec.ofNat w (delay % 2 ^ 16) else BitVec.ofNat w delay }

/-- The watched bytes. -/
def now (env : Env M) (m : M) (i : Nat) (x : Watcher w) : List Byte := (env.view m i).take x.size

/-- `GEL_STATIC_BLOCK_SIZE >= list[i].size`, watcher.c:15; there is no such limit with `malloc`. -/
def fitsBlock : Option Nat → Nat → Bool
  | none, _ => true
  | some b, size => decide (size ≤ b)

/-- `watcher_list_init`, watcher.c:8-20, from element `i` on; `block` is `GEL_STATIC_BLOCK_SIZE` if there is no
`malloc`. -/
def init (block : Option Nat) (env : Env M) (m : M) : Nat → List (Watcher w) → Res (List (Watcher w))
  | _, [] => .ok []
  | i, x :: xs => do
    cassert (fitsBlock block x.size)
    let l ← init block env m (i + 1) xs
    pure ({ x with old := now env m i x } :: l)

/-- `watcher_check_for_changes`, watcher.c:23-36. -/
def check (env : Env M) (m : M) : Nat → List (Watcher w) → Bool
  | _, [] => false
  | i, x :: xs => if x.old ≠ now env m i x then true else check env m (i + 1) xs

/-- `watcher_clear_changes`, watcher.c:39-53. -/
def clear (env : Env M) (m : M) (ts : BitVec w) : Nat → List (Watcher w) → List (Watcher w)
  | _, [] => []
  | i, x :: xs =>
    (if x.old ≠ now env m i x then
      (if x.delay > 0 then { x with ts := ts, moved := false, old := now env m i x } else { x with old := now env m i x })
     else x) :: clear env m ts (i + 1) xs

/-- `watcher_trigger_all`, watcher.c:71-78, `watcher_trigger_all_cb`, 56-63, and `watcher_trigger_cb`, 66-68: the memory
and the indices of the callbacks called. -/
def triggerAll (env : Env M) (m : M) : Nat → List (Watcher w) → M × List Nat
  | _, [] => (m, [])
  | i, _ :: xs =>
    let r := triggerAll env (env.cb m i) (i + 1) xs
    (r.1, i :: r.2)

/-- What one iteration of `watcher_process_changes` does: the element, the memory, whether `res` is set and whether the
callback is called. -/
structure Out (w : Nat) (M : Type) where
  elem : Watcher w
  mem : M
  res : Bool
  called : Bool

/-- The body of the loop, watcher.c:86-102. The copy of line 95 comes after the callback of line 92. -/
def step (env : Env M) (m : M) (ts : BitVec w) (i : Nat) (x : Watcher w) : Out w M :=
  if x.old ≠ now env m i x then
    if x.delay > 0 then ⟨{ x with ts := ts, moved := true, old := now env m i x }, m, true, false⟩
    else ⟨{ x with moved := false, old := now env (env.cb m i) i x }, env.cb m i, true, true⟩
  else if x.moved then
    if Time.isLooselyExpired x.ts ts x.delay then ⟨{ x with moved := false }, env.cb m i, false, true⟩
    else ⟨x, m, false, false⟩
  else ⟨x, m, false, false⟩

/-- The result of `watcher_process_changes` with the indices of the callbacks called, in order. -/
structure Outs (w : Nat) (M : Type) where
  list : List (Watcher w)
  mem : M
  res : Bool
  calls : List Nat

/-- `watcher_process_changes`, watcher.c:81-108, from element `i` on. -/
def process (env : Env M) (m : M) (ts : BitVec w) : Nat → List (Watcher w) → Outs w M
  | _, [] => ⟨[], m, false, []⟩
  | i, x :: xs =>
    let o := step env m ts i x
    let r := process env o.mem ts (i + 1) xs
    ⟨o.elem :: r.list, r.mem, o.res || r.res, if o.called then i :: r.calls else r.calls⟩

end Gel.Watcher
