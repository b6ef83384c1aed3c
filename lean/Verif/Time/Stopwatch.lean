import Verif.Time.Check

/-!
# Stopwatch: model of gel/timer/stopwatch.c and stopwatch.h

`w` is the width of `unsigned long`, which is also the timestamp type of timecheck.h. The pointer to the stopwatch is the
state `s`.
-/
namespace Gel.Stopwatch

open Time

/-- `STOPWATCH_STATE`, stopwatch.h:25-30. -/
inductive Mode where
  | stopped | counting | paused
  deriving DecidableEq, Repr

/-- `stopwatch_t`, stopwatch.h:33-38. -/
structure Watch (w : Nat) where
  starting : BitVec w
  elapsed : BitVec w
  total : BitVec w
  mode : Mode
  deriving DecidableEq, Repr

/-- `stopwatch_init`, stopwatch.c:27-32, and `STOPWATCH_NULL`, stopwatch.h:21. -/
def init (w : Nat) : Watch w := ⟨0, 0, 0, .stopped⟩

/-- `stopwatch_start`, stopwatch.c:36-49. -/
def start (s : Watch w) (now : BitVec w) : Watch w × Int :=
  match s.mode with
  | .stopped | .paused => ({ s with starting := now, mode := .counting }, 0)
  | .counting => (s, -1)

/-- `stopwatch_stop`, stopwatch.c:53-58. -/
def stop (s : Watch w) : Watch w × Int := ({ s with starting := 0, elapsed := 0, mode := .stopped }, 0)

/-- `stopwatch_pause`, stopwatch.c:62-73. -/
def pause (s : Watch w) (now : BitVec w) : Watch w × Int :=
  match s.mode with
  | .counting => ({ s with mode := .paused, elapsed := s.elapsed + timeInterval s.starting now }, 0)
  | .stopped | .paused => (s, -1)

/-- `stopwatch_restart`, stopwatch.c:77-80. -/
def restart (s : Watch w) (now : BitVec w) : Watch w × Int := start (stop s).1 now

/-- `stopwatch_change`, stopwatch.c:84-87. -/
def change (s : Watch w) (period now : BitVec w) : Watch w := (restart { s with total := period } now).1

/-- `stopwatch_set`, stopwatch.c:91-97. -/
def set (s : Watch w) (period : BitVec w) : Watch w × Int :=
  if s.mode ≠ .stopped then (s, -1) else ({ s with total := period }, 0)

/-- `stopwatch_get_elapsed`, stopwatch.c:107-112. -/
def getElapsed (s : Watch w) (now : BitVec w) : BitVec w :=
  if s.mode = .counting then s.elapsed + timeInterval s.starting now else s.elapsed

/-- `stopwatch_set_elapsed`, stopwatch.c:115-122. -/
def setElapsed (s : Watch w) (e : BitVec w) : Watch w × Int :=
  if s.mode = .stopped then ({ s with elapsed := e }, 0) else (s, -1)

/-- `stopwatch_get_remaining`, stopwatch.c:125-128. -/
def getRemaining (s : Watch w) (now : BitVec w) : BitVec w :=
  if getElapsed s now < s.total then s.total - getElapsed s now else 0

/-- `stopwatch_is_timer_reached`, stopwatch.c:138-156. `stopwatch_get_state` (stopwatch.c:101-103) and
`stopwatch_get_total_time` (stopwatch.c:132-134) read the members. -/
def isReached (s : Watch w) (now : BitVec w) : Bool :=
  match s.mode with
  | .stopped => false
  | .counting => if s.elapsed < s.total then isLooselyExpired s.starting now (s.total - s.elapsed) else true
  | .paused => decide (s.total ≤ s.elapsed)

/-- `stopwatch_setngo`, stopwatch.h:23: two statements, the results of both are dropped. -/
def setngo (s : Watch w) (period now : BitVec w) : Watch w := (start (set s period).1 now).1

/-- The calls a client can make. -/
inductive Op (w : Nat) where
  | init | start | stop | pause | restart
  | change (period : BitVec w) | set (period : BitVec w) | setElapsed (e : BitVec w) | setngo (period : BitVec w)
  deriving DecidableEq

/-- One call at a time. -/
def Op.exec (o : Op w) (s : Watch w) (now : BitVec w) : Watch w :=
  match o with
  | .init => Stopwatch.init w
  | .start => (Stopwatch.start s now).1
  | .stop => (Stopwatch.stop s).1
  | .pause => (Stopwatch.pause s now).1
  | .restart => (Stopwatch.restart s now).1
  | .change p => Stopwatch.change s p now
  | .set p => (Stopwatch.set s p).1
  | .setElapsed e => (Stopwatch.setElapsed s e).1
  | .setngo p => Stopwatch.setngo s p now

/-- A history: every call with the time that passes before it. Timestamps are true times modulo 2^w. -/
def run (s : Watch w) (t : Nat) : List (Nat × Op w) → Watch w × Nat
  | [] => (s, t)
  | (dt, o) :: l => run (o.exec s (BitVec.ofNat w (t + dt))) (t + dt) l

end Gel.Stopwatch
