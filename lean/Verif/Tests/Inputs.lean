import Verif.Debounce.Model
import Verif.Pulse.Model
import Verif.Keypad.Model
import Verif.Time.Stopwatch

/-!
# The project's own tests of debouncing, pulse counting, the keypad and the timers, run on the models

`int` has 32 bits and `long` 64, as on the hosts the tests run on. Loops over inputs, rounds and periods are cut to a few of
their values.
-/
namespace Gel.Tests

section Debounce
open Gel.Debounce

/-- The filter the tests start from, digin_test.c:13-14. -/
def filter0 : Res (Filter 32) := do
  let f ← Debounce.init ⟨0xDEAD, 0xBEEF, List.replicate 32 77⟩
  pure (Debounce.set f 0)

/-- `n` calls of `debounce_filter`, and what the last returned. -/
def calls (input d : BitVec 32) : Nat → Filter 32 × BitVec 32 → Res (Filter 32 × BitVec 32)
  | 0, r => .ok r
  | n + 1, (f, _) => do
    let r ← Debounce.filter true f input d
    calls input d n r

/-- The inner loop of `do_100_changes`, digin_test.c:27-35, for the given values of `j`: whether both assertions hold. -/
def changes (i : Nat) (d : Nat) (f : Filter 32) : List Nat → Res (Filter 32 × Bool)
  | [] => .ok (f, true)
  | j :: js => do
    let value : BitVec 32 := if j % 2 = 0 then 1 else 0
    let (f, res) ← calls (value <<< i) (BitVec.ofNat 32 d) (d + 1) (f, 0)
    let r ← Debounce.read f i
    let (f, ok) ← changes i d f js
    pure (f, res != 0 && r == value.toNat && ok)

/-- `do_100_changes`, digin_test.c:20-37, for the given values of `i` and `j`. -/
def doChanges (d : Nat) (js : List Nat) (f : Filter 32) : List Nat → Res Bool
  | [] => .ok true
  | i :: is => do
    let (f, a) ← changes i d f js
    let b ← doChanges d js f is
    pure (a && b)

-- test_init, digin_test.c:11-18
example : ∀ i < 16, (filter0 >>= fun f => Debounce.read f i) = .ok 0 := by decide +kernel
-- test_no_debounce, test_1_debounce and test_100_debounce, digin_test.c:39-49
example : (filter0 >>= fun f => doChanges 0 [0, 1, 2, 3] f [0, 1, 15]) = .ok true := by decide +kernel
example : (filter0 >>= fun f => doChanges 1 [0, 1] f [0, 1, 15]) = .ok true := by decide +kernel
example : (filter0 >>= fun f => doChanges 100 [0] f [15]) = .ok true := by decide +kernel

/-- What a series of calls returns. -/
def returns (f : Filter 32) (d : BitVec 32) : List (BitVec 32) → Res (List (BitVec 32))
  | [] => .ok []
  | x :: xs => do
    let (f, r) ← Debounce.filter true f x d
    let rs ← returns f d xs
    pure (r :: rs)

-- test_interrupt_change, digin_test.c:52-67
example : (filter0 >>= fun f => returns f 4 [1, 1, 1, 0, 1, 1, 1, 1, 1]) = .ok [0, 0, 0, 0, 0, 0, 0, 0, 1] := by
  decide +kernel

end Debounce

section Pulse
open Gel.Pulse

/-- `n` calls of `pulse_filter`, and what the last returned. -/
def pulses (input d : BitVec 32) : Nat → Pulse.Filter 32 × Int → Res (Pulse.Filter 32 × Int)
  | 0, r => .ok r
  | n + 1, (f, _) => do
    let r ← Pulse.filter true f input d
    pulses input d n r

/-- The inner loop of `do_100_pulses`, pulsecount_test.c:25-37, from `j` on: whether all assertions hold. -/
def pulseRounds (type : Kind) (i d : Nat) (f : Pulse.Filter 32) (j : Nat) : Nat → Res (Pulse.Filter 32 × Bool)
  | 0 => .ok (f, true)
  | n + 1 => do
    let (f, res) ← pulses (if type = .high then 1#32 <<< i else 0) (BitVec.ofNat 32 d) (d + 1) (f, 0)
    let c ← Pulse.count f i
    let (f, res') ← pulses (if type = .high then 0 else 1#32 <<< i) (BitVec.ofNat 32 d) (d + 1) (f, 0)
    let c' ← Pulse.count f i
    let (f, ok) ← pulseRounds type i d f (j + 1) n
    pure (f, res == 0 && c == j && res' != 0 && c' == j + 1 && ok)

/-- The outer loop, pulsecount_test.c:24, for the given values of `i`. -/
def pulseInputs (type : Kind) (d n : Nat) (f : Pulse.Filter 32) : List Nat → Res (Pulse.Filter 32 × Bool)
  | [] => .ok (f, true)
  | i :: is => do
    let (f, a) ← pulseRounds type i d f 0 n
    let (f, b) ← pulseInputs type d n f is
    pure (f, a && b)

/-- `do_100_pulses`, pulsecount_test.c:19-39, for both types in turn; the filter is a global variable. -/
def doPulses (d n : Nat) (is : List Nat) : Res (Bool × Bool) := do
  let f ← Pulse.init ⟨.other, 0, List.replicate 32 0, List.replicate 32 0⟩ .high 0
  let (f, a) ← pulseInputs .high d n f is
  let f ← Pulse.init f .low 0xFFFFFFFF
  let (_, b) ← pulseInputs .low d n f is
  pure (a, b)

-- test_init, pulsecount_test.c:11-17
example : ∀ i < 16, (Pulse.init (w := 32) ⟨.low, 9, List.replicate 32 0, List.replicate 32 9⟩ .high 0 >>= fun f => Pulse.count f (i : Nat)) = .ok 0 := by
  decide +kernel
-- test_no_debounce, test_1_debounce and test_100_debounce (which uses 1), pulsecount_test.c:41-54
example : doPulses 0 3 [0, 1, 31] = .ok (true, true) := by decide +kernel
example : doPulses 1 2 [0, 31] = .ok (true, true) := by decide +kernel

end Pulse

section Keypad
open Gel.Keypad

def key (bv : BitVec 64) (code : Int) : Key 64 := ⟨bv, code, 5, 6, true, true, false, .click⟩

/-- The table, keyboard_test.c:9-20; the members other than the first two have some value before the reset of line 23. -/
def keys : List (Key 64) :=
  [key 0x13 6, key 0x11 5, key 0x01 0, key 0x02 1, key 0x04 2, key 0x08 3, key 0x10 4, ⟨0, 0, 0, 0, false, false, false, .nothing⟩]

/-- A series of calls with the same `click`, `longclick` and `period`: timestamps and bitmaps; what is returned. -/
def events (ks : List (Key 64)) (click long period : BitVec 64) : List (BitVec 64 × BitVec 64) → Res (List (Key 64) × List (Int × Event))
  | [] => .ok (ks, [])
  | (t, bv) :: l => do
    let (ks, c, e) ← routine ks ⟨click, long, period, t, bv⟩
    let (ks, r) ← events ks click long period l
    pure (ks, (c, e) :: r)

/-- The events only. -/
def kinds (r : Res (List (Key 64) × List (Int × Event))) : Res (List Event) := do
  let (_, l) ← r
  pure (l.map (·.2))

/-- `click_release`, keyboard_test.c:28-52: whether all assertions hold. -/
def clickRelease (ks : List (Key 64)) (bm : BitVec 64) (code : Int) (p : BitVec 64) : Res (List (Key 64) × Bool) := do
  let (ks, r) ← events ks p (p * 10) 1 [(0, bm), (p, bm), (p + 1, bm), (p + 2, 0), (p * 2 + 2, 0), (p * 2 + 3, 0)]
  pure (ks, r.map (·.2) == [.press, .nothing, .click, .nothing, .nothing, .release] &&
    (r.map (·.1))[2]? == some code && (r.map (·.1))[5]? == some code)

/-- `test_click_release`, keyboard_test.c:54-62, for the given periods and keys. -/
def clickAll (ks : List (Key 64)) : List (BitVec 64 × BitVec 64 × Int) → Res Bool
  | [] => .ok true
  | (p, bm, code) :: l => do
    let (ks, a) ← clickRelease ks bm code p
    let b ← clickAll ks l
    pure (a && b)

example : (reset keys >>= fun ks => clickAll ks ([40, 80, 4000].flatMap fun p =>
    (keys.take 7).map fun k => (p, k.bitvalue, k.code))) = .ok true := by decide +kernel

-- test_event_chain, keyboard_test.c:65-113
example : kinds (reset keys >>= fun ks => events ks 40 2000 100 [(0, 0), (1, 1), (20, 1), (42, 1), (42 + 50, 1),
      (42 + 101, 1), (42 + 101 * 2, 1), (42 + 2001, 1), (42 + 2001 + 101, 1), (42 + 2001 + 102, 1),
      (42 + 2001 + 101 * 2, 1), (4000, 1), (4001, 0), (4042, 0)]) =
    .ok [.nothing, .press, .nothing, .click, .nothing, .pressing, .pressing, .longclick, .longpress, .nothing, .longpress,
      .longpress, .nothing, .release] := by decide +kernel
-- test_longclick, keyboard_test.c:116-140: the period changes on the way
example : (reset keys >>= fun ks => events ks 40 2000 5 [(0, 1), (2001, 1), (2001, 1), (2007, 1)] >>= fun r =>
      kinds (events r.1 40 2000 1 [(2004, 0), (2043, 0), (2045, 0)]) >>= fun l => .ok (r.2.map (·.2) ++ l)) =
    .ok [.press, .click, .longclick, .longpress, .nothing, .nothing, .release] := by decide +kernel
-- test_multiclick, keyboard_test.c:143-178
example : (reset keys >>= fun ks => events ks 40 2000 1 [(0, 0x11), (50, 0x11), (60, 1), (120, 1), (120, 1), (180, 1),
      (180, 0), (250, 0), (300, 1), (350, 1)] >>= fun r => .ok r.2) =
    .ok [(5, .press), (5, .click), (5, .nothing), (5, .release), (0, .press), (0, .click), (0, .nothing), (0, .release),
      (0, .press), (0, .click)] := by decide +kernel
-- test_comboclick, keyboard_test.c:181-215
example : (reset keys >>= fun ks => events ks 40 2000 1 [(0, 0x11), (41, 0x11), (41, 0x13), (82, 0x13), (82, 0x11),
      (123, 0x11), (123, 0x13), (164, 0x13), (165, 0x13), (206, 0x13)] >>= fun r => .ok r.2) =
    .ok [(5, .press), (5, .click), (5, .nothing), (5, .release), (5, .press), (5, .click), (5, .nothing), (5, .release),
      (6, .press), (6, .click)] := by decide +kernel

end Keypad

section Time
open Gel.Time

/-- `is_expired` is `is_loosely_expired`, timecheck.h:31. -/
abbrev isExpired (start current delay : BitVec 64) : Bool := isLooselyExpired start current delay

/-- ULONG_MAX. -/
def ulongMax : BitVec 64 := -1

-- test_expired_timers, timecheck_test.c:9-14
example : isExpired 0 0 1 = false ∧ isStrictlyExpired 0 (1 : BitVec 64) 1 = false ∧
    isLooselyExpired 0 (1 : BitVec 64) 1 = true ∧ isExpired 0 2 1 = true := by decide +kernel
-- test_time_travel, :16-22
example : isExpired 200 50 100 = false ∧ isExpired 200 150 100 = false ∧ isExpired 200 200 100 = false ∧
    isExpired 200 250 100 = false ∧ isExpired 200 350 100 = true := by decide +kernel
-- test_rollback, :24-37
example : (∀ i < 500, isExpired (ulongMax - 166) (ulongMax - 166 + BitVec.ofNat 64 i) 500 = false) ∧
    isExpired (ulongMax - 166) (ulongMax - 166 + 501) 500 = true := by decide +kernel
-- test_interval, :39-47
example : timeInterval (0 : BitVec 64) 0 = 0 ∧ timeInterval (0 : BitVec 64) 10 = 10 ∧ timeInterval (10 : BitVec 64) 0 = 10 ∧
    timeInterval (100 : BitVec 64) 1000 = 900 ∧ timeInterval (ulongMax - 10) 10 = 21 ∧
    timeInterval (ulongMax - 10) (ulongMax + 10) = 20 ∧ timeInterval (ulongMax + 10) (ulongMax - 10) = 20 := by
  decide +kernel

end Time

section Stopwatch
open Gel.Stopwatch

-- test_start_timer, timer_test.c:11-20
example : let t := init 64
    t.mode = .stopped ∧ (start t 0).2 = 0 ∧ (start t 0).1.mode = .counting ∧ (start (start t 0).1 0).2 = -1 := by
  decide +kernel
-- test_count_timer, :22-38
example : let t := (start (init 64) 0).1
    let u := (stop t).1
    getElapsed t 0 = 0 ∧ getElapsed t 10 = 10 ∧ getElapsed t 1000 = 1000 ∧ getElapsed t 200 = 200 ∧ u.mode = .stopped ∧
    getElapsed u 0 = 0 ∧ getElapsed u 10 = 0 ∧ getElapsed u 1000 = 0 := by decide +kernel
-- test_set_timer, :40-67
example : let t := (set (init 64) 1000).1
    let u := (set t 2000).1
    let v := (start u 0).1
    let x := change (set v 2000).1 42 40
    (set (init 64) 1000).2 = 0 ∧ t.total = 1000 ∧ (set t 2000).2 = 0 ∧ u.total = 2000 ∧ u.mode = .stopped ∧
    (set v 2000).2 = -1 ∧ getRemaining v 0 = 2000 ∧ getRemaining v 500 = 1500 ∧ isReached v 500 = false ∧
    getRemaining v 1500 = 500 ∧ getRemaining v 2000 = 0 ∧ isReached v 2001 = true ∧ getRemaining v 2500 = 0 ∧
    isReached x 40 = false ∧ isReached x 82 = true ∧ x.total = 42 := by decide +kernel
-- test_pause_timer, :69-90
example : let t := (start (set (init 64) 100).1 0).1
    let u := (pause t 20).1
    let v := (start (pause u 20).1 120).1
    (pause t 20).2 = 0 ∧ (pause u 20).2 = -1 ∧ getRemaining v 120 = 80 ∧ getRemaining v 190 = 10 ∧ getRemaining v 200 = 0 := by
  decide +kernel

/-- The loop of `test_stress`, timer_test.c:103-121, for the given results of `rand()`: whether the assertion of line 120
holds until the timer is reached or the results end. -/
def stress (s : Watch 64) (time elapsed : BitVec 64) : List (BitVec 64 × BitVec 64) → Bool
  | [] => true
  | (r, q) :: l =>
    if isReached s time then true
    else
      let delay := r % 1000
      let time := time + delay
      let elapsed := if s.mode = .counting then elapsed + delay else elapsed
      let s := if q % 2 = 0 then (pause s time).1 else (start s time).1
      getElapsed s time == elapsed && stress s time elapsed l

-- test_stress, with other numbers than those of the C library
example : stress (start (set (init 64) 100000000).1 0).1 0 0
    ((List.range 100).map fun i => (BitVec.ofNat 64 (i * 7919 * i + 13), BitVec.ofNat 64 (i * i / 3))) = true := by
  decide +kernel

end Stopwatch

end Gel.Tests
