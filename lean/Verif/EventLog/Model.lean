import Verif.C

/-!
# Circular event log: model of gel/circular_event_log/circular_event_log.c

The two callbacks are a parameter (`Dev`), functions of an abstract storage. Loading does not change the storage
(simplification). `size_t` has 64 bits, `int` 32.
-/
namespace Gel.EventLog

abbrev Byte := BitVec 8

/-- The callbacks, circular_event_log.h:14-15: the returned code with the new storage, or with the bytes written to the
address passed. -/
structure Dev (D : Type) where
  save : D → List Byte → Nat → Int × D
  load : D → Nat → Nat → Int × List Byte

/-- `circular_event_log_t` without the callbacks, circular_event_log.h:8-16. -/
structure Log where
  next : Nat
  max : Nat
  size : Nat
  full : Bool
  deriving DecidableEq, Repr

/-- `circular_event_log_new_event`, circular_event_log.c:7-19: storage, log and returned value. -/
def newEvent (dev : Dev D) (d : D) (l : Log) (event : List Byte) : D × Log × Int :=
  let (res, d) := dev.save d event l.next
  if res = 0 then
    let next := (l.next + 1) % 2 ^ 64
    if next ≥ l.max then (d, { l with next := 0, full := true }, res)
    else (d, { l with next := next }, res)
  else (d, l, res)

/-- `circular_event_log_total_events`, circular_event_log.c:22-28. -/
def total (l : Log) : Nat := if l.full then l.max else l.next

/-- `size_t` subtraction. -/
def subZ (a b : Nat) : Nat := asSize ((a : Int) - b)

/-- `nth_last_event`, circular_event_log.c:59-67. -/
def nthLast (l : Log) (jump : Nat) : Nat :=
  if l.next ≥ jump then l.next - jump
  else if l.full then subZ l.max (jump - l.next)
  else 0

/-- A callback writes `bytes` at `&events[off]`. -/
def place (events : List Byte) (off : Nat) (bytes : List Byte) : Res (List Byte) :=
  if off + bytes.length ≤ events.length then .ok (events.take off ++ bytes ++ events.drop (off + bytes.length)) else .ub

/-- `circular_event_log_load_last_events`, circular_event_log.c:31-56: the returned value and the caller's array. -/
def loadLast (dev : Dev D) (d : D) (l : Log) (events : List Byte) (number jump : Nat) : Res (Int × List Byte) :=
  if jump > total l then .ok (0, events)
  else
    let actual := if (jump + number) % 2 ^ 64 > total l then total l - jump else number
    let start := nthLast l ((actual + jump) % 2 ^ 64)
    if (start + actual) % 2 ^ 64 > l.max then do
      let toRead := subZ l.max start
      let first := dev.load d toRead start
      let events ← place events 0 first.2
      if first.1 ≤ 0 then pure (first.1, events)
      else do
        let second := dev.load d (subZ actual toRead) 0
        let events ← place events (toRead * l.size % 2 ^ 64) second.2
        let r ← chkS 32 (first.1 + second.1)
        pure (r, events)
    else do
      let only := dev.load d actual start
      let events ← place events 0 only.2
      pure (only.1, events)

end Gel.EventLog
