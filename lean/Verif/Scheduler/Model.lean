import Verif.C
import Verif.Serial.Model

/-!
# Scheduler: model of gel/scheduler/scheduler.c (without `GEL_SCHEDULER_DYNAMIC_ENTRIES`, which does not compile)

`int` has 32 bits; `unsigned long` has `L` bits, at least 32. The members of `struct tm` are naturals; theorems about valid
times assume the ranges of the C standard.
-/
namespace Gel.Scheduler

/-- `scheduler_entry_t`, scheduler.h:28-34. -/
structure Entry where
  enabled : BitVec 8
  days : BitVec 8
  start : BitVec 32
  stop : BitVec 32
  value : BitVec 32
  deriving DecidableEq, Repr

/-- The members of `struct tm` that are used. -/
structure Tm where
  wday : Nat
  hour : Nat
  min : Nat
  sec : Nat
  deriving DecidableEq, Repr

/-- `scheduler_t`, scheduler.h:37-44: `GEL_SCHEDULER_MAX_ENTRIES` entries. -/
abbrev Sched := List Entry

def zeroEntry : Entry := ⟨0, 0, 0, 0, 0⟩

/-- `scheduler_init`, scheduler.c:25-39. -/
def init (n : Nat) : Sched := List.replicate n zeroEntry

/-- `scheduler_get_entry`, scheduler.c:42-48, and `scheduler_get_entry_mut`, 51-57; `none` is `NULL`. -/
def getEntry (s : Sched) (i : Nat) : Res (Option Entry) :=
  if s.length ≤ i then .ok none
  else do
    let e ← rd s i
    pure (some e)

/-- `scheduler_set_entry`, scheduler.c:60-67. -/
def setEntry (s : Sched) (i : Nat) (e : Entry) : Res (Sched × Int) :=
  if s.length ≤ i then .ok (s, -1)
  else do
    let s ← wr s i e
    pure (s, 0)

/-- `scheduler_is_schedule_entry_enabled`, scheduler.c:70-76: -1 converted to `uint8_t` out of range. -/
def isEnabled (s : Sched) (i : Nat) : Res (BitVec 8) :=
  if s.length ≤ i then .ok (BitVec.ofInt 8 (-1))
  else do
    let e ← rd s i
    pure e.enabled

/-- `scheduler_disable_schedule_entry`, scheduler.c:79-86. -/
def disable (s : Sched) (i : Nat) : Res (Sched × Int) :=
  if s.length ≤ i then .ok (s, -1)
  else do
    let e ← rd s i
    let s ← wr s i { e with enabled := 0 }
    pure (s, 0)

/-- `seconds_in_day`, scheduler.c:22. -/
def secondsInDay : Nat := 60 * 60 * 24

/-- `to_seconds`, scheduler.c:288-290, with the conversions of its arguments to `uint8_t`. -/
def toSeconds (hour minute seconds : Nat) : Nat :=
  hour % 256 * 60 * 60 + minute % 256 * 60 + seconds % 256

/-- `is_day_included`, scheduler.c:293-295; `tm_wday` and the loop variable of line 300 are below 7. -/
def isDayIncluded (days : BitVec 8) (today : Nat) : Bool :=
  decide (days.toNat &&& (1 <<< (today % 256)) > 0)

/-- The time of day in seconds. -/
def Tm.now (tm : Tm) : Nat := toSeconds tm.hour tm.min tm.sec

/-- `is_entry_active`, scheduler.c:89-105. -/
def isActive (e : Entry) (tm : Tm) : Bool :=
  if !isDayIncluded e.days tm.wday then false
  else
    let current := tm.now
    let start := e.start.toNat
    let stop := e.stop.toNat
    if stop > secondsInDay then
      decide (current < stop - secondsInDay) || (decide (current ≥ start) && decide (current < secondsInDay))
    else decide (current ≥ start) && decide (current < stop)

/-- `scheduler_get_entry_duration`, scheduler.c:275-285: a `uint32_t` difference. -/
def duration (e : Entry) : Nat :=
  if e.start.toNat < e.stop.toNat then (e.stop - e.start).toNat else (e.start - e.stop).toNat

/-- The loop of `total_week_timespan`, scheduler.c:299-302. -/
def numDays (days : BitVec 8) : Nat := ((List.range 7).map fun i => if isDayIncluded days i then 1 else 0).sum

/-- `total_week_timespan`, scheduler.c:298-305. -/
def weekSpan (L : Nat) (e : Entry) : Nat := duration e * numDays e.days % 2 ^ L

/-- The variables of `scheduler_get_active_entry_number`. -/
structure Found where
  found : Bool
  total : Nat
  value : BitVec 8
  id : Int
  deriving DecidableEq, Repr

/-- The body of its loop, scheduler.c:119-136. -/
def consider (L : Nat) (tm : Tm) (f : Found) (e : Entry) (i : Nat) : Found :=
  if e.enabled = 0 then f
  else if isActive e tm then
    if !f.found || decide (weekSpan L e < f.total) ||
        (decide (weekSpan L e = f.total) && decide ((f.value.toNat : Int) < e.value.toInt)) then
      ⟨true, weekSpan L e, e.value.setWidth 8, i⟩
    else f
  else f

def search (L : Nat) (tm : Tm) (f : Found) : List Entry → Nat → Found
  | [], _ => f
  | e :: es, i => search L tm (consider L tm f e i) es (i + 1)

/-- `scheduler_get_active_entry_number`, scheduler.c:113-139. -/
def activeEntry (L : Nat) (s : Sched) (tm : Tm) : Int := (search L tm ⟨false, 0, 0, -1⟩ s 0).id

/-- `scheduler_is_active`, scheduler.c:108-110. -/
def isSchedActive (L : Nat) (s : Sched) (tm : Tm) : Bool := decide (activeEntry L s tm ≥ 0)

/-- `scheduler_current_value`, scheduler.c:166-177: the value, if there is one. -/
def currentValue (L : Nat) (s : Sched) (tm : Tm) : Res (Option (BitVec 32)) :=
  if activeEntry L s tm ≥ 0 then do
    let e ← rd s (activeEntry L s tm).toNat
    pure (some e.value)
  else .ok none

/-- `INCLUDED`, scheduler.c:143. -/
def included (instant : BitVec 32) (e : Entry) : Bool :=
  decide (instant.toNat ≥ e.start.toNat) && decide (instant.toNat ≤ e.stop.toNat)

/-- The conditions of scheduler.c:149-155. -/
def overlaps (o e : Entry) : Bool :=
  o.enabled ≠ 0 && decide ((o.days &&& e.days).toNat > 0) &&
    (included e.start o || included e.stop o || included o.start e || included o.stop e)

/-- `scheduler_are_there_overlapping_entries`, scheduler.c:142-163. -/
def overlapping (s : Sched) (e : Entry) : Nat := (s.map fun o => if overlaps o e then 1 else 0).sum

/-- The loop of `scheduler_get_next_enabled_entry`, scheduler.c:180-188: `k` entries left from `i` on. -/
def nextEnabledFrom (s : Sched) : Nat → Nat → Res Int
  | 0, _ => .ok (-1)
  | k + 1, i => do
    let b ← isEnabled s i
    if b ≠ 0 then pure (i : Int) else nextEnabledFrom s k (i + 1)

def nextEnabled (s : Sched) (start : Nat) : Res Int := nextEnabledFrom s (s.length - start) start

/-- `scheduler_get_first_available_entry`, scheduler.c:191-199. -/
def firstAvailableFrom (s : Sched) : Nat → Nat → Res Int
  | 0, _ => .ok (-1)
  | k + 1, i => do
    let b ← isEnabled s i
    if b = 0 then pure (i : Int) else firstAvailableFrom s k (i + 1)

def firstAvailable (s : Sched) : Res Int := firstAvailableFrom s s.length 0

/-- `scheduler_get_active_entries_map`, scheduler.c:202-210: the shift is one of `int`s, the result is converted to
`uint16_t`. -/
def activeMap (tm : Tm) : List Entry → Nat → BitVec 16 → Res (BitVec 16)
  | [], _, acc => .ok acc
  | e :: es, i, acc => do
    let b ← shlS false (if isActive e tm then 1#32 else 0#32) i
    activeMap tm es (i + 1) (acc ||| b.setWidth 16)

/-- `scheduler_get_schedule_remaining_duration`, scheduler.c:213-228. -/
def remaining (L : Nat) (s : Sched) (i : Nat) (tm : Tm) : Res Int := do
  let e ← getEntry s i
  match e with
  | none => pure 0
  | some e =>
    if !isActive e tm then pure 0
    else pure (((e.stop.toNat : Int) - tm.now) % 2 ^ L)

/-- `scheduler_get_current_remaining_duration`, scheduler.c:231-239. -/
def currentRemaining (L : Nat) (s : Sched) (tm : Tm) : Res Int :=
  if activeEntry L s tm ≥ 0 then remaining L s (activeEntry L s tm).toNat tm else .ok 0

open Serial in
/-- `scheduler_entry_serialize`, scheduler.c:247-257. -/
def serialize (buf : Mem) (e : Entry) : Res (Mem × Nat) := do
  let r1 ← serializeU8 buf 0 e.enabled
  let r2 ← serializeU8 r1.1 (0 + r1.2) e.days
  let r3 ← serializeU32Le r2.1 (0 + r1.2 + r2.2) e.start
  let r4 ← serializeU32Le r3.1 (0 + r1.2 + r2.2 + r3.2) e.stop
  let r5 ← serializeU8 r4.1 (0 + r1.2 + r2.2 + r3.2 + r4.2) (e.value.setWidth 8)
  cassert (decide (0 + r1.2 + r2.2 + r3.2 + r4.2 + r5.2 = 11))
  pure (r5.1, 0 + r1.2 + r2.2 + r3.2 + r4.2 + r5.2)

open Serial in
/-- `scheduler_entry_deserialize`, scheduler.c:260-272. -/
def deserialize (buf : Mem) : Res (Entry × Nat) := do
  let r1 ← deserializeU8 buf 0
  let r2 ← deserializeU8 buf (0 + r1.2)
  let r3 ← deserializeU32Le buf (0 + r1.2 + r2.2)
  let r4 ← deserializeU32Le buf (0 + r1.2 + r2.2 + r3.2)
  let r5 ← deserializeU8 buf (0 + r1.2 + r2.2 + r3.2 + r4.2)
  cassert (decide (0 + r1.2 + r2.2 + r3.2 + r4.2 + r5.2 = 11))
  pure (⟨r1.1, r2.1, r3.1, r4.1, r5.1.setWidth 32⟩, 0 + r1.2 + r2.2 + r3.2 + r4.2 + r5.2)

end Gel.Scheduler
