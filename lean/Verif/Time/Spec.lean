/-!
# Stopwatch: specification

An ideal stopwatch: a mode, and a number which grows by one with every unit of time while it runs.
-/
namespace Gel.Stopwatch.Spec

inductive Mode where
  | stopped | running | paused
  deriving DecidableEq, Repr

structure Ideal where
  mode : Mode
  /-- Units of time shown. -/
  elapsed : Nat
  /-- Units of time since it was last set running. -/
  stretch : Nat
  period : Nat
  deriving DecidableEq

/-- One unit of time passes. -/
def tick (s : Ideal) : Ideal :=
  if s.mode = .running then { s with elapsed := s.elapsed + 1, stretch := s.stretch + 1 } else s

/-- Time passes. -/
def wait (s : Ideal) : Nat → Ideal
  | 0 => s
  | n + 1 => tick (wait s n)

inductive Call where
  | init | start | stop | pause | restart | change (p : Nat) | set (p : Nat) | setElapsed (e : Nat) | setngo (p : Nat)

def begin (s : Ideal) : Ideal := if s.mode = .running then s else { s with mode := .running, stretch := 0 }

def Call.exec (o : Call) (s : Ideal) : Ideal :=
  match o with
  | .init => ⟨.stopped, 0, 0, 0⟩
  | .start => begin s
  | .stop => { s with mode := .stopped, elapsed := 0 }
  | .pause => if s.mode = .running then { s with mode := .paused } else s
  | .restart => { s with mode := .running, elapsed := 0, stretch := 0 }
  | .change p => { s with mode := .running, elapsed := 0, stretch := 0, period := p }
  | .set p => if s.mode = .stopped then { s with period := p } else s
  | .setElapsed e => if s.mode = .stopped then { s with elapsed := e } else s
  | .setngo p => begin (if s.mode = .stopped then { s with period := p } else s)

/-- A history: every call with the time that passes before it. -/
def run (s : Ideal) : List (Nat × Call) → Ideal
  | [] => s
  | (dt, o) :: l => run (o.exec (wait s dt)) l

/-- Every stretch of running is at most `m` long, up to `dt` units of time after the history. -/
def Fits (m : Nat) (s : Ideal) (dt : Nat) : List (Nat × Call) → Prop
  | [] => (wait s dt).mode = .running → (wait s dt).stretch ≤ m
  | (d, o) :: l => ((wait s d).mode = .running → (wait s d).stretch ≤ m) ∧ Fits m (o.exec (wait s d)) dt l

end Gel.Stopwatch.Spec
