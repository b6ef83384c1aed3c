import Verif.Scheduler.Model

/-!
# Scheduler: specification
-/
namespace Gel.Scheduler.Spec

/-- A valid time (without leap seconds). -/
structure Valid (tm : Tm) : Prop where
  wday : tm.wday < 7
  hour : tm.hour < 24
  min : tm.min < 60
  sec : tm.sec < 60

/-- The second of the day. -/
def second (tm : Tm) : Nat := tm.hour * 3600 + tm.min * 60 + tm.sec

/-- The day is among the days of the entry. -/
def on (e : Entry) (day : Nat) : Prop := e.days.getLsbD day = true

instance {e : Entry} {day : Nat} : Decidable (on e day) := inferInstanceAs (Decidable (_ = true))

/-- The day before. -/
def prev (day : Nat) : Nat := (day + 6) % 7

/-- What an entry means: active from `start` of its days up to `stop`, which may be on the next day. -/
def active (e : Entry) (day t : Nat) : Prop :=
  (on e day ∧ e.start.toNat ≤ t ∧ t < e.stop.toNat) ∨ (on e (prev day) ∧ e.start.toNat ≤ t + 86400 ∧ t + 86400 < e.stop.toNat)

/-- The number of seconds an entry takes in a week. -/
def span (e : Entry) : Nat :=
  ((e.stop.toNat : Int) - e.start.toNat).natAbs * ((List.range 7).filter fun d => decide (on e d)).length

end Gel.Scheduler.Spec
