import Verif.Scheduler.Isr
import Verif.Scheduler.Spec

/-!
# Scheduler: what an interrupt handler does to a query in progress (C216)
-/
namespace Gel.Scheduler

open Prog

/-- The table after the call of `scheduler_disable_schedule_entry` by a handler. -/
def callDisable (k : Nat) (s : Sched) : Sched := match disable s k with
  | .ok r => r.1
  | _ => s

/-- The table after the call of `scheduler_set_entry` by a handler. -/
def callSet (k : Nat) (e : Entry) (s : Sched) : Sched := match setEntry s k e with
  | .ok r => r.1
  | _ => s

theorem callDisable_eq {k : Nat} {s : Sched} {e : Entry} (h : s[k]? = some e) : callDisable k s = s.set k { e with enabled := 0 } := by
  obtain ⟨hk, rfl⟩ := List.getElem?_eq_some_iff.1 h
  simp [callDisable, disable, rd, wr, hk, show ¬ s.length ≤ k by omega]

theorem callDisable_out {k : Nat} {s : Sched} (h : s.length ≤ k) : callDisable k s = s := by
  simp [callDisable, disable, h]

theorem callSet_eq {k : Nat} {s : Sched} (h : k < s.length) (e : Entry) : callSet k e s = s.set k e := by
  simp [callSet, setEntry, wr, h, show ¬ s.length ≤ k by omega]

theorem callSet_out {k : Nat} {s : Sched} (h : s.length ≤ k) (e : Entry) : callSet k e s = s := by
  simp [callSet, setEntry, h]

theorem exec_same {α : Type} (t : Nat) (g : Sched → Sched) (s : Sched) (h : g s = s) (p : Prog α) (n : Nat) :
    exec (onceAt t g) n p s = exec quiet n p s := by
  rw [exec_congr t g (fun s => s) s h]
  have : onceAt t (fun s => s) = quiet := by
    funext n s
    simp [onceAt, quiet]
  rw [this]

/-- **C216**: without a handler the queries answer what the first model says. -/
theorem C216_quiet {α : Type} (L : Nat) (tm : Tm) (s : Sched) (q : Query α) :
    exec quiet 0 (q.prog L s.length tm) s = q.ask L tm s := quiet_query L tm s q

/-- **C216** (of handlers that change one entry, only `enabled` of it or one that is disabled): whenever the handler runs, the query
answers as if the handler had run before it or after it. -/
theorem C216_partial {α : Type} (L : Nat) (tm : Tm) (s : Sched) (q : Query α) (t k : Nat) (g : Sched → Sched) (e e' : Entry)
    (he : s[k]? = some e) (hg : g s = s.set k e') (h : e.enabled = 0 ∨ ∃ x, e' = { e with enabled := x }) :
    exec (onceAt t g) 0 (q.prog L s.length tm) s = q.ask L tm s ∨
      exec (onceAt t g) 0 (q.prog L s.length tm) s = q.ask L tm (g s) := by
  rw [exec_congr t g (fun s => s.set k e') s hg, hg, ← quiet_query L tm s q, ← quiet_query L tm (s.set k e') q, List.length_set]
  exact exec_atomic h t _ _ _ he (guarded_query L s.length tm k q)

/-- **C216**: of `scheduler_disable_schedule_entry`, for every index. -/
theorem C216_disable {α : Type} (L : Nat) (tm : Tm) (s : Sched) (q : Query α) (t k : Nat) :
    exec (onceAt t (callDisable k)) 0 (q.prog L s.length tm) s = q.ask L tm s ∨
      exec (onceAt t (callDisable k)) 0 (q.prog L s.length tm) s = q.ask L tm (callDisable k s) := by
  cases he : s[k]? with
  | none =>
    have hk : s.length ≤ k := List.getElem?_eq_none_iff.1 he
    exact .inl (by rw [exec_same _ _ _ (callDisable_out hk), quiet_query])
  | some e => exact C216_partial L tm s q t k _ e _ he (callDisable_eq he) (.inr ⟨0, rfl⟩)

/-- **C216** (of entries that are disabled): of `scheduler_set_entry`, for every index. -/
theorem C216_set_partial {α : Type} (L : Nat) (tm : Tm) (s : Sched) (q : Query α) (t k : Nat) (e' : Entry)
    (h : ∀ e, s[k]? = some e → e.enabled = 0) :
    exec (onceAt t (callSet k e')) 0 (q.prog L s.length tm) s = q.ask L tm s ∨
      exec (onceAt t (callSet k e')) 0 (q.prog L s.length tm) s = q.ask L tm (callSet k e' s) := by
  cases he : s[k]? with
  | none =>
    have hk : s.length ≤ k := List.getElem?_eq_none_iff.1 he
    exact .inl (by rw [exec_same _ _ _ (callSet_out hk e'), quiet_query])
  | some e =>
    exact C216_partial L tm s q t k _ e e' he (callSet_eq (List.getElem?_eq_some_iff.1 he).1 e') (.inl (h e he))

/-- Monday from 8 to 10 at 20, and Tuesday from 12 to 14 at 25. -/
def mondayEntry : Entry := ⟨1, 2, 28800, 36000, 20⟩
def tuesdayEntry : Entry := ⟨1, 4, 43200, 50400, 25⟩

/-- Both answers occur: before the load of `enabled` the entry is disabled in time, after it is not. -/
example : exec (onceAt 0 (callDisable 0)) 0 (activeEntryP 64 1 ⟨1, 9, 0, 0⟩) [mondayEntry] = .ok (-1) ∧
    exec (onceAt 1 (callDisable 0)) 0 (activeEntryP 64 1 ⟨1, 9, 0, 0⟩) [mondayEntry] = .ok 0 := by
  constructor <;> rfl

/-- An entry that is free is set while the query looks at the first one. -/
example : exec (onceAt 1 (callSet 1 mondayEntry)) 0 (currentValueP 64 2 ⟨1, 9, 0, 0⟩) [tuesdayEntry, zeroEntry] = .ok (some 20) ∧
    exec (onceAt 3 (callSet 1 mondayEntry)) 0 (currentValueP 64 2 ⟨1, 9, 0, 0⟩) [tuesdayEntry, zeroEntry] = .ok none := by
  constructor <;> rfl

/-- **C216** is false of `scheduler_set_entry` of an enabled entry: with the days of the old entry and the times of the new one the
schedule is active on Monday at 13, when neither is. -/
theorem C216_torn_wrong : ∃ t, exec (onceAt t (callSet 0 tuesdayEntry)) 0 (activeEntryP 64 1 ⟨1, 13, 0, 0⟩) [mondayEntry] = .ok 0 ∧
    activeEntry 64 [mondayEntry] ⟨1, 13, 0, 0⟩ = -1 ∧ activeEntry 64 (callSet 0 tuesdayEntry [mondayEntry]) ⟨1, 13, 0, 0⟩ = -1 :=
  ⟨2, rfl, rfl, rfl⟩

/-- **C216** is false of `scheduler_current_value`: if the handler runs after the search, the value is the new one of the entry that
was found in the old table, whatever the handler has made of the entry. -/
theorem C216_value_wrong (L : Nat) (tm : Tm) (s : Sched) (g : Sched → Sched) (i : Nat) (e : Entry) (h : activeEntry L s tm = i)
    (he : (g s)[i]? = some e) :
    exec (onceAt (loads s (activeEntryP L s.length tm)) g) 0 (currentValueP L s.length tm) s = .ok (some e.value) := by
  rw [currentValueP, exec_second g s _ _ _ _ _ (quiet_activeEntry L tm s) (by omega), h]
  simp only [show ((i : Int) ≥ 0) by omega, decide_true, cond_true, Nat.zero_add, exec, onceAt, if_true, Int.toNat_natCast, rd, he,
    Res.ok_bind, Fld.get]

/-- On Monday at 9 the value is 25, that of an entry that is only active on Tuesday. -/
example : exec (onceAt 16 (callSet 0 tuesdayEntry)) 0 (currentValueP 64 1 ⟨1, 9, 0, 0⟩) [mondayEntry] = .ok (some 25) ∧
    currentValue 64 [mondayEntry] ⟨1, 9, 0, 0⟩ = .ok (some 20) ∧ currentValue 64 [tuesdayEntry] ⟨1, 9, 0, 0⟩ = .ok none := by
  refine ⟨?_, ?_, ?_⟩ <;> rfl

/-- **C216** is false of the remaining time: if the handler runs after the check that the entry is active, the new end is taken, and
the difference wraps around if it has passed. -/
theorem C216_left_wrong (L : Nat) (tm : Tm) (s : Sched) (g : Sched → Sched) (i : Nat) (o e : Entry) (h : activeEntry L s tm = i)
    (ho : s[i]? = some o) (ha : isActive o tm = true) (he : (g s)[i]? = some e) :
    exec (onceAt (loads s (activeEntryP L s.length tm) + loads s (isActiveP i tm)) g) 0 (currentRemainingP L s.length tm) s =
      .ok (((e.stop.toNat : Int) - tm.now) % 2 ^ L) := by
  have hi : ¬ s.length ≤ i := by
    have := (List.getElem?_eq_some_iff.1 ho).1
    omega
  rw [currentRemainingP, exec_second g s _ _ _ _ _ (quiet_activeEntry L tm s) (by omega), h]
  simp only [show ((i : Int) ≥ 0) by omega, decide_true, cond_true, Nat.zero_add, Int.toNat_natCast, remainingP, hi, decide_false,
    cond_false]
  rw [exec_second g s _ _ _ _ _ (quiet_isActive ho tm) (by omega), ha]
  simp only [Bool.not_true, cond_false, exec, onceAt, if_true, rd, he, Res.ok_bind, Fld.get]

/-- On Monday at 9, of the entry that ends at 10, 2^64 - 1800 seconds are said to remain when it is made to end at 8:30. -/
example : exec (onceAt 19 (callSet 0 { mondayEntry with stop := 30600 })) 0 (currentRemainingP 64 1 ⟨1, 9, 0, 0⟩) [mondayEntry] =
      .ok (2 ^ 64 - 1800) ∧
    currentRemaining 64 [mondayEntry] ⟨1, 9, 0, 0⟩ = .ok 3600 ∧
    currentRemaining 64 [{ mondayEntry with stop := 30600 }] ⟨1, 9, 0, 0⟩ = .ok 0 := by
  refine ⟨?_, ?_, ?_⟩ <;> rfl

/-- Handlers that run twice. -/
def twiceAt (t u : Nat) (f g : Sched → Sched) : Nat → Sched → Sched := fun n s => if n = t then f s else if n = u then g s else s

/-- **C216** is false of two handlers that each disable one entry: the query finds the first entry, which was disabled while the second,
of a shorter time, was still the active one, and does not find the second. -/
theorem C216_twice_wrong : let long : Entry := ⟨1, 2, 28800, 57600, 10⟩
    let s := [long, mondayEntry]
    let tm : Tm := ⟨1, 9, 0, 0⟩
    ∃ t u, t < u ∧ exec (twiceAt t u (callDisable 0) (callDisable 1)) 0 (activeEntryP 64 2 tm) s = .ok 0 ∧
      activeEntry 64 s tm = 1 ∧ activeEntry 64 (callDisable 0 s) tm = 1 ∧ activeEntry 64 (callDisable 1 (callDisable 0 s)) tm = -1 :=
  ⟨1, 16, by decide, rfl, rfl, rfl, rfl⟩

end Gel.Scheduler
