import Verif.Serial.Model
import Verif.Maybe.Model
import Verif.StructUpdate.Model
import Verif.Watcher.Model
import Verif.EventLog.Model
import Verif.Wear.Model

/-!
# The project's own tests of the serializer, the data structures, the event log and wear leveling, run on the models

Random numbers are replaced by other numbers. The event log has 30 events here instead of 237, and wear leveling 16 blocks
instead of 128.
-/
namespace Gel.Tests

section Serial
open Gel.Serial

/-- Serialisation, then deserialisation. -/
def trip (n : Nat) (ser : Mem → Nat → α → Res (Mem × Nat)) (de : Mem → Nat → Res (β × Nat)) (x : α) : Res (Nat × Nat × β) := do
  let (buf, k) ← ser (List.replicate n 0xEE) 0 x
  let (y, l) ← de buf 0
  pure (k, l, y)

-- test_identity and test_one_byte, serializer_test.c:12-32
example : trip 1 serializeU8 deserializeU8 0x67 = .ok (1, 1, 0x67) ∧ serializeU8 [0] 0 0x67 = .ok ([0x67], 1) ∧
    (trip 1 serializeU8 deserializeI8 (BitVec.ofInt 8 (-105)) >>= fun r => .ok r.2.2.toInt) = .ok (-105) := by decide +kernel
-- test_two_bytes, :34-54
example : trip 2 serializeU16Le deserializeU16Le 0xC667 = .ok (2, 2, 0xC667) ∧
    trip 2 serializeU16Be deserializeU16Be 0xC667 = .ok (2, 2, 0xC667) ∧
    (trip 2 serializeU16Le (deserializeI16Le true) (BitVec.ofInt 16 (-23924)) >>= fun r => .ok r.2.2.toInt) = .ok (-23924) ∧
    (trip 2 serializeU16Be (deserializeI16Be true) (BitVec.ofInt 16 (-23924)) >>= fun r => .ok r.2.2.toInt) = .ok (-23924) := by
  decide +kernel
-- test_four_bytes, :56-76
example : trip 4 serializeU32Le deserializeU32Le 0x6B8B4567 = .ok (4, 4, 0x6B8B4567) ∧
    trip 4 serializeU32Be deserializeU32Be 0x6B8B4567 = .ok (4, 4, 0x6B8B4567) ∧
    (trip 4 serializeU32Le (deserializeI32Le true) (BitVec.ofInt 32 (-846930886)) >>= fun r => .ok r.2.2.toInt) =
      .ok (-846930886) ∧
    (trip 4 serializeU32Be (deserializeI32Be true) (BitVec.ofInt 32 (-846930886)) >>= fun r => .ok r.2.2.toInt) =
      .ok (-846930886) := by decide +kernel
-- test_eight_bytes, :78-98
example : trip 8 serializeU64Le deserializeU64Le 0x153EA438C2A6B9F1 = .ok (8, 8, 0x153EA438C2A6B9F1) ∧
    trip 8 serializeU64Be deserializeU64Be 0x153EA438C2A6B9F1 = .ok (8, 8, 0x153EA438C2A6B9F1) ∧
    (trip 8 serializeU64Le (deserializeI64Le true) (BitVec.ofInt 64 (-1681692777846930886)) >>= fun r => .ok r.2.2.toInt) =
      .ok (-1681692777846930886) ∧
    (trip 8 serializeU64Be (deserializeI64Be true) (BitVec.ofInt 64 (-1681692777846930886)) >>= fun r => .ok r.2.2.toInt) =
      .ok (-1681692777846930886) := by decide +kernel

end Serial

section Maybe
open Gel.Maybe

-- test_maybe, maybe_test.c:22-54
example : isJust (Maybe.none (0 : Int)) = false ∧ isJust (ret (42 : Int)) = true ∧ withDefault (Maybe.none (0 : Int)) 5 = 5 ∧
    withDefault (ret (42 : Int)) 5 = 42 ∧
    withDefault (Maybe.none ((0, 0, "", 'x') : Int × Int × String × Char)) (1, 2, ".3", 'd') = (1, 2, ".3", 'd') ∧
    withDefault (ret ((42, 420, "4.2", 'a') : Int × Int × String × Char)) (1, 2, ".3", 'd') = (42, 420, "4.2", 'a') := by
  decide +kernel

end Maybe

section StructUpdate
open Gel.StructUpdate

/-- One of the updates of struct_update_test.c:21-35: block 0 is the structure, block 1 the new value of the member at the
offset. The bytes of the member after the update. -/
def update (off : Nat) (bytes : List (BitVec 8)) : Res (List (BitVec 8)) := do
  let h : Heap := [some ((List.range 64).map (BitVec.ofNat 8)), some bytes]
  let (h, u) ← fromData h off 1 0 bytes.length
  let h ← apply h 0 0 u
  let r ← load h 0 off bytes.length
  let _ ← free h u
  pure r

-- test_update: `value1` is at 0, `value2` at 8, `value3` at 16 and `value4` at 24
example : update 0 [100, 0, 0, 0] = .ok [100, 0, 0, 0] ∧ update 8 [200, 0, 0, 0, 0, 0, 0, 0] = .ok [200, 0, 0, 0, 0, 0, 0, 0] ∧
    update 16 [0x33, 0x33, 0x33, 0x33, 0x33, 0x33, 0xD3, 0x3F] = .ok [0x33, 0x33, 0x33, 0x33, 0x33, 0x33, 0xD3, 0x3F] ∧
    update 24 [0x34] = .ok [0x34] := by decide +kernel

end StructUpdate

section Watcher
open Gel.Watcher

/-- The watched variables, and `cbtest`, watcher_test.c:18-29. -/
abbrev Vars := List (List (BitVec 8)) × Nat
def env : Env Vars := ⟨fun m i => m.1.getD i [], fun m _ => (m.1, m.2 + 1)⟩

/-- The variables of watcher_test.c:6-16, of 1, 4, 8, 24 and 80 bytes, with a value of the second. -/
def vars (v : BitVec 8) : List (List (BitVec 8)) :=
  [[0], [v, 0, 0, 0], List.replicate 8 0, List.replicate 24 0, List.replicate 80 0]

-- test_watcher, watcher_test.c:31-44
example : (do
    let l ← Watcher.init (some 80) env (vars 0, 0) 0 ([1, 4, 8, 24, 80].map fun n => make 64 false n 0)
    let a := process env (vars 0, 0) 0 0 l
    let b := process env (vars 1, a.mem.2) 0 0 a.list
    pure (a.res, b.res, b.mem.2)) = .ok (false, true, 1) := by decide +kernel

/-- Calls of `watcher_process_changes` with the value of `var1` and the time: what each returns and `cbtest` after it. -/
def processes (l : List (Watcher 64)) (cb : Nat) : List (BitVec 8 × BitVec 64) → List (Bool × Nat)
  | [] => []
  | (v, ts) :: r =>
    let o := process env ([[v]], cb) ts 0 l
    (o.res, o.mem.2) :: processes o.list o.mem.2 r

-- test_watcher_delayed, watcher_test.c:47-64; also with GEL_WATCHER_REDUCE_RAM_FOOTPRINT
example : ∀ packed, (do
    let l ← Watcher.init (some 80) env ([[0]], 0) 0 [make 64 packed 1 5000]
    pure (processes l 0 [(1, 0), (1, 1000), (1, 4000), (2, 6000), (2, 11000)])) =
    .ok [(true, 0), (false, 0), (false, 0), (true, 0), (false, 1)] := by decide +kernel

end Watcher

section EventLog
open Gel.EventLog

/-- `save_new_event` and `load_events`, circular_event_log_test.c:136-154, for 30 events of 2 bytes. -/
def flash : Dev (List (BitVec 8)) where
  save d e p := if p < 30 then (0, d.take (p * 2) ++ e ++ d.drop (p * 2 + 2)) else (-1, d)
  load d n s := if s + n > 30 then (-1, []) else (n, (d.drop (s * 2)).take (n * 2))

def event (i : Nat) : List (BitVec 8) := [BitVec.ofNat 8 i, BitVec.ofNat 8 (i / 256)]

/-- Events numbered from `k` on, `n` of them; the returned values. -/
def logs (code : Nat → Nat) (d : List (BitVec 8)) (l : Log) (k : Nat) : Nat → List (BitVec 8) × Log × List (Int × Nat × Bool)
  | 0 => (d, l, [])
  | n + 1 =>
    let (d, l, r) := newEvent flash d l (event (code k))
    let (d, l', rs) := logs code d l (k + 1) n
    (d, l', (r, total l, l.full) :: rs)

def log0 : Log := ⟨0, 30, 2, false⟩
def blank : List (BitVec 8) := List.replicate 60 0

-- test_event_count, circular_event_log_test.c:46-59
example : (logs (fun _ => 0) blank log0 0 (29 + 60)).2.2 =
    (List.range 29).map (fun i => (0, i + 1, false)) ++ List.replicate 60 (0, 30, true) := by decide +kernel

/-- The loop of `test_single_event`, circular_event_log_test.c:65-80: whether the assertions hold. -/
def singles (d : List (BitVec 8)) (l : Log) (i : Nat) : Nat → Bool
  | 0 => true
  | n + 1 =>
    let (d, l, r) := newEvent flash d l (event i)
    r == 0 && decide (loadLast flash d l [0xFF, 0xFF] 1 0 = .ok (1, event i)) &&
    decide (loadLast flash d l [0xFF, 0xFF] 1 13 = .ok (if i ≥ 13 then (1, event (i - 13)) else (0, [0xFF, 0xFF]))) &&
    singles d l (i + 1) n

-- test_single_event, circular_event_log_test.c:62-81
example : singles blank log0 0 90 = true := by decide +kernel

/-- `random_write_and_read`, circular_event_log_test.c:118-133. -/
def writeRead (total jump window : Nat) : Bool :=
  let code := fun i => i * i * 31 + 7
  let (d, l, rs) := logs code blank log0 0 total
  rs.all (·.1 == 0) && decide (loadLast flash d l (List.replicate (window * 2) 0) window jump =
    .ok (window, (List.range window).flatMap fun i => event (code (total - jump - window + i))))

-- test_overflow, circular_event_log_test.c:84-96, and test_random_stuff, :99-115
example : writeRead 45 0 30 = true ∧ writeRead 17 4 9 = true ∧ writeRead 30 0 29 = true ∧ writeRead 31 3 20 = true ∧
    writeRead 89 29 0 = true ∧ writeRead 74 8 21 = true ∧ writeRead 60 11 18 = true := by decide +kernel

end EventLog

section Wear
open Gel.Wear

/-- `eeprom`, `markers` and `write_count`, wearleveling_test.c:12-14. -/
abbrev Eeprom := List (List (BitVec 8)) × List (BitVec 8) × Nat

/-- `read_block`, `write_block` and `read_marker`, wearleveling_test.c:23-51. -/
def eeprom : Dev Eeprom where
  readBlock d b len := (0, (d.1.getD b []).take len)
  writeBlock d b m buf := (0, (d.1.set b (buf ++ (d.1.getD b []).drop buf.length), d.2.1.set b m, d.2.2 + 1))
  readMarker d b := (0, d.2.1.getD b 0)

/-- A write and a read: what both return, the bytes read and the number of writes. -/
def writeThenRead (d : Eeprom) (w : Wlm) (buf : List (BitVec 8)) : Res (Eeprom × Wlm × Bool) := do
  let (d, w, r) ← Wear.write eeprom d w buf
  let (r', bytes) := Wear.read eeprom d w buf.length
  pure (d, w, r == 0 && r' == 0 && bytes == buf)

/-- `naive_test`, wearleveling_test.c:62-92. -/
def naive (d : Eeprom) (w : Wlm) : Res (Eeprom × Wlm × Bool) := do
  let (d, w, a) ← writeThenRead (d.1, d.2.1, 0) w [42, 43, 44]
  let n := d.2.2
  let (d, w, r) ← Wear.write eeprom d w [42, 43, 44]
  let n' := d.2.2
  let (d, w, b) ← writeThenRead d w [42, 43, 45]
  pure (d, w, a && n == 1 && r == 0 && n' == 1 && b && d.2.2 == 2)

/-- `thorugh_test`, wearleveling_test.c:95-112: `k` writes of the same bytes. -/
def thorough (buf : List (BitVec 8)) (d : Eeprom) (w : Wlm) : Nat → Res (Eeprom × Wlm × Bool)
  | 0 => .ok (d, w, true)
  | k + 1 => do
    let (d, w, a) ← writeThenRead d w buf
    let (d, w, b) ← thorough buf d w k
    pure (d, w, a && b)

-- test_init and test_wear_leveling, wearleveling_test.c:53-59 and 115-132: the markers change below the library's feet
example : (do
    let d : Eeprom := (List.replicate 16 (List.replicate 12 0), List.replicate 16 0, 0)
    let w ← Wear.init eeprom d 16
    let (d, w, a) ← naive d w
    let (d, w, b) ← thorough [103, 198, 105, 115, 81, 255, 74, 236, 41, 205, 186, 171] d w 40
    let (d, w, a') ← naive (d.1, List.replicate 16 0xFF, d.2.2) w
    let (d, w, b') ← thorough [242, 251, 227, 70, 124, 194, 84, 248, 27, 232, 231, 141] d w 40
    let (d, w, a'') ← naive (d.1, (List.range 16).map fun i => BitVec.ofNat 8 (i * i * 37), d.2.2) w
    let (_, w, b'') ← thorough [118, 90, 46, 99, 51, 159, 201, 154, 102, 50, 13, 183] d w 40
    pure (w.n, [a, b, a', b', a'', b''])) = .ok (16, List.replicate 6 true) := by decide +kernel

end Wear

end Gel.Tests
