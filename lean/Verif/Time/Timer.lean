import Verif.Time.Stopwatch

/-!
# Timer: model of gel/timer/timer.c and timer.h

The client's callbacks are functions `env c : Timer → Timer` for callback pointers `c`: a callback gets a pointer to the
timer and may change it. What else it does, and the two opaque pointers handed to it (`arg` and `user_pointer`), are left
out. `w` is the width of `unsigned long`.
-/
namespace Gel.Timer

open Stopwatch

/-- `gel_timer_t`, timer.h:15-20, without `arg`. A null callback is `none`. -/
structure Timer (w : Nat) (κ : Type) where
  autoreload : BitVec 8
  watch : Watch w
  callback : Option κ
  deriving DecidableEq

/-- `gel_timer_init`, timer.c:5-13. All members are assigned. -/
def init (period now : BitVec w) (cb : Option κ) : Timer w κ :=
  ⟨0, setngo (Stopwatch.init w) period now, cb⟩

/-- `gel_timer_reset`, timer.c:16-30. -/
def reset (t : Timer w κ) (now : BitVec w) : Timer w κ :=
  match t.watch.mode with
  | .counting => { t with watch := (restart t.watch now).1 }
  | .paused => { t with watch := (Stopwatch.pause (restart t.watch now).1 now).1 }
  | .stopped => t

/-- `gel_timer_stop`, timer.c:33-35. -/
def stop (t : Timer w κ) : Timer w κ := { t with watch := (Stopwatch.stop t.watch).1 }

/-- `gel_timer_resume`, timer.c:38-40. -/
def resume (t : Timer w κ) (now : BitVec w) : Timer w κ := { t with watch := (start t.watch now).1 }

/-- `gel_timer_set_autoreload`, timer.c:43-45. -/
def setAutoreload (t : Timer w κ) (a : BitVec 8) : Timer w κ := { t with autoreload := a }

/-- `gel_timer_pause`, timer.c:48-50. -/
def pause (t : Timer w κ) (now : BitVec w) : Timer w κ := { t with watch := (Stopwatch.pause t.watch now).1 }

/-- `gel_timer_change_period`, timer.c:53-67. -/
def changePeriod (t : Timer w κ) (period now : BitVec w) : Timer w κ :=
  match t.watch.mode with
  | .counting => { t with watch := change t.watch period now }
  | .paused => { t with watch := (Stopwatch.pause (change t.watch period now) now).1 }
  | .stopped => t

/-- `gel_timer_manage_callback`, timer.c:70-82: the timer afterwards and the returned value, 1 (`true`) if the callback
was called. Calling a null pointer is undefined. -/
def manage (env : κ → Timer w κ → Timer w κ) (t : Timer w κ) (now : BitVec w) : Res (Timer w κ × Bool) :=
  if isReached t.watch now then
    match t.callback with
    | none => .ub
    | some c =>
      let t := env c t
      if t.autoreload ≠ 0 then .ok ({ t with watch := (restart t.watch now).1 }, true)
      else .ok ({ t with watch := (Stopwatch.stop t.watch).1 }, true)
  else .ok (t, false)

/-- `gel_timer_get_remaining`, timer.c:85-87. -/
def getRemaining (t : Timer w κ) (now : BitVec w) : BitVec w := Stopwatch.getRemaining t.watch now

/-- The timer before poll `k`, when polled at the true times `τ 0`, `τ 1`, ... -/
def polls (env : κ → Timer w κ → Timer w κ) (t : Timer w κ) (τ : Nat → Nat) : Nat → Res (Timer w κ)
  | 0 => .ok t
  | k + 1 => do
    let t ← polls env t τ k
    let (t, _) ← manage env t (BitVec.ofNat w (τ k))
    pure t

/-- Whether poll `k` calls the callback. -/
def fired (env : κ → Timer w κ → Timer w κ) (t : Timer w κ) (τ : Nat → Nat) (k : Nat) : Res Bool := do
  let t ← polls env t τ k
  let (_, b) ← manage env t (BitVec.ofNat w (τ k))
  pure b

end Gel.Timer
