import Verif.Scheduler.Model

/-!
# Scheduler: queries in progress when an interrupt handler changes the table (C216)

The functions that search the table as programs that load one member of one entry at a time. Before each load an interrupt handler
may run to its end: it does `H t` to the table before load number `t`. A member is loaded in one access (true of the bytes, and of the
words on a machine of 32 bits); the members are not `volatile`, and every access of the source is one of the program, in the order of
the source.
-/
namespace Gel.Scheduler

/-- The members of `scheduler_entry_t`, scheduler.h:28-34. -/
inductive Fld
  | enabled
  | days
  | start
  | stop
  | value
  deriving DecidableEq, Repr

/-- The type of a member. -/
@[reducible] def Fld.ty : Fld → Type
  | .enabled => BitVec 8
  | .days => BitVec 8
  | .start => BitVec 32
  | .stop => BitVec 32
  | .value => BitVec 32

/-- The member of an entry. -/
def Fld.get : (f : Fld) → Entry → f.ty
  | .enabled, e => e.enabled
  | .days, e => e.days
  | .start, e => e.start
  | .stop, e => e.stop
  | .value, e => e.value

/-- A program that loads members of the entries of the table. -/
inductive Prog (α : Type) where
  | ret (a : α)
  | ld (i : Nat) (f : Fld) (k : f.ty → Prog α)

namespace Prog

def bind {α β : Type} : Prog α → (α → Prog β) → Prog β
  | .ret a, g => g a
  | .ld i f k, g => .ld i f fun v => (k v).bind g

/-- The result, with the handler before each load, the first of which has number `n`. -/
def exec {α : Type} (H : Nat → Sched → Sched) : Nat → Prog α → Sched → Res α
  | _, .ret a, _ => .ok a
  | n, .ld i f k, s => do
    let e ← rd (H n s) i
    exec H (n + 1) (k (f.get e)) (H n s)

end Prog

/-- Nothing happens. -/
def quiet : Nat → Sched → Sched := fun _ s => s

/-- The handler runs once, before load number `t`. -/
def onceAt (t : Nat) (f : Sched → Sched) : Nat → Sched → Sched := fun n s => if n = t then f s else s

/-! ## The functions -/

/-- `is_entry_active`, scheduler.c:89-105, for entry `i`. -/
def isActiveP (i : Nat) (tm : Tm) : Prog Bool :=
  .ld i .days fun (days : BitVec 8) =>
    bif !isDayIncluded days tm.wday then .ret false
    else .ld i .start fun (start : BitVec 32) => .ld i .stop fun (stop : BitVec 32) =>
      .ret (isActive ⟨0, days, start, stop, 0⟩ tm)

/-- The loop of `total_week_timespan`, scheduler.c:299-302: `k` days left from `d` on. -/
def numDaysP (i : Nat) : Nat → Nat → Nat → Prog Nat
  | 0, _, acc => .ret acc
  | k + 1, d, acc => .ld i .days fun (days : BitVec 8) => numDaysP i k (d + 1) (acc + if isDayIncluded days d then 1 else 0)

/-- `scheduler_get_entry_duration`, scheduler.c:275-285. -/
def durationP (i : Nat) : Prog Nat :=
  .ld i .start fun (a : BitVec 32) => .ld i .stop fun (b : BitVec 32) =>
    bif decide (a.toNat < b.toNat) then .ld i .stop fun (b : BitVec 32) => .ld i .start fun (a : BitVec 32) => .ret (b - a).toNat
    else .ld i .start fun (a : BitVec 32) => .ld i .stop fun (b : BitVec 32) => .ret (a - b).toNat

/-- `total_week_timespan`, scheduler.c:298-305. -/
def weekSpanP (L : Nat) (i : Nat) : Prog Nat :=
  (numDaysP i 7 0 0).bind fun n => (durationP i).bind fun d => .ret (d * n % 2 ^ L)

/-- scheduler.c:130-133. -/
def takeP (L : Nat) (i : Nat) : Prog Found :=
  (weekSpanP L i).bind fun w => .ld i .value fun (v : BitVec 32) => .ret ⟨true, w, v.setWidth 8, i⟩

/-- The body of the loop of `scheduler_get_active_entry_number`, scheduler.c:119-136. -/
def considerP (L : Nat) (tm : Tm) (f : Found) (i : Nat) : Prog Found :=
  .ld i .enabled fun (en : BitVec 8) =>
    bif decide (en = 0) then .ret f
    else (isActiveP i tm).bind fun act =>
      bif !act then .ret f
      else bif !f.found then takeP L i
      else (weekSpanP L i).bind fun w =>
        bif decide (w < f.total) then takeP L i
        else (weekSpanP L i).bind fun w =>
          bif decide (w = f.total) then .ld i .value fun (v : BitVec 32) =>
            bif decide ((f.value.toNat : Int) < v.toInt) then takeP L i else .ret f
          else .ret f

/-- The loop: `k` entries left from `i` on. -/
def searchP (L : Nat) (tm : Tm) : Nat → Nat → Found → Prog Found
  | 0, _, f => .ret f
  | k + 1, i, f => (considerP L tm f i).bind fun f => searchP L tm k (i + 1) f

/-- `scheduler_get_active_entry_number`, scheduler.c:113-139, for a table of `n` entries. -/
def activeEntryP (L n : Nat) (tm : Tm) : Prog Int := (searchP L tm n 0 ⟨false, 0, 0, -1⟩).bind fun f => .ret f.id

/-- `scheduler_is_active`, scheduler.c:108-110. -/
def isSchedActiveP (L n : Nat) (tm : Tm) : Prog Bool := (activeEntryP L n tm).bind fun id => .ret (decide (id ≥ 0))

/-- `scheduler_current_value`, scheduler.c:166-177. -/
def currentValueP (L n : Nat) (tm : Tm) : Prog (Option (BitVec 32)) :=
  (activeEntryP L n tm).bind fun id =>
    bif decide (id ≥ 0) then .ld id.toNat .value fun (v : BitVec 32) => .ret (some v) else .ret none

/-- `scheduler_get_schedule_remaining_duration`, scheduler.c:213-228. -/
def remainingP (L n : Nat) (i : Nat) (tm : Tm) : Prog Int :=
  bif decide (n ≤ i) then .ret 0
  else (isActiveP i tm).bind fun act =>
    bif !act then .ret 0
    else .ld i .stop fun (stop : BitVec 32) => .ret (((stop.toNat : Int) - tm.now) % 2 ^ L)

/-- `scheduler_get_current_remaining_duration`, scheduler.c:231-239. -/
def currentRemainingP (L n : Nat) (tm : Tm) : Prog Int :=
  (activeEntryP L n tm).bind fun id =>
    bif decide (id ≥ 0) then remainingP L n id.toNat tm else .ret 0

/-- `INCLUDED(instant, entry)`, scheduler.c:143, with an instant of the given entry and the limits of entry `i`. -/
def includedP (x : BitVec 32) (i : Nat) : Prog Bool :=
  .ld i .start fun (a : BitVec 32) =>
    bif decide (x.toNat ≥ a.toNat) then .ld i .stop fun (b : BitVec 32) => .ret (decide (x.toNat ≤ b.toNat)) else .ret false

/-- `INCLUDED(instant, entry)` with the instant `f` of entry `i` and the limits of the given entry. -/
def includesP (i : Nat) (f : Bool) (e : Entry) : Prog Bool :=
  bif f then .ld i .start fun (x : BitVec 32) =>
      bif decide (x.toNat ≥ e.start.toNat) then .ld i .start fun (x : BitVec 32) => .ret (decide (x.toNat ≤ e.stop.toNat)) else .ret false
  else .ld i .stop fun (x : BitVec 32) =>
      bif decide (x.toNat ≥ e.start.toNat) then .ld i .stop fun (x : BitVec 32) => .ret (decide (x.toNat ≤ e.stop.toNat)) else .ret false

/-- scheduler.c:149-157 for entry `i`; the given entry is not part of the table. -/
def overlapsP (i : Nat) (e : Entry) : Prog Bool :=
  .ld i .enabled fun (en : BitVec 8) =>
    bif decide (en = 0) then .ret false
    else .ld i .days fun (days : BitVec 8) =>
      bif !decide ((days &&& e.days).toNat > 0) then .ret false
      else (includedP e.start i).bind fun b =>
        bif b then .ret true
        else (includedP e.stop i).bind fun b =>
          bif b then .ret true
          else (includesP i true e).bind fun b =>
            bif b then .ret true else includesP i false e

/-- `scheduler_are_there_overlapping_entries`, scheduler.c:142-163: `k` entries left from `i` on. -/
def overlappingP (e : Entry) : Nat → Nat → Nat → Prog Nat
  | 0, _, acc => .ret acc
  | k + 1, i, acc => (overlapsP i e).bind fun b => overlappingP e k (i + 1) (acc + bif b then 1 else 0)

/-- The loops of `scheduler_get_next_enabled_entry`, scheduler.c:180-188 (`want = true`), and
`scheduler_get_first_available_entry`, 191-199 (`want = false`): `k` entries left from `i` on. -/
def findP (want : Bool) : Nat → Nat → Prog Int
  | 0, _ => .ret (-1)
  | k + 1, i => .ld i .enabled fun (en : BitVec 8) =>
    bif decide (en ≠ 0) == want then .ret (i : Int) else findP want k (i + 1)

/-- A query by the main program. -/
inductive Query : Type → Type 1
  | number : Query Int
  | active : Query Bool
  | value : Query (Option (BitVec 32))
  | left : Query Int
  | overlapping (e : Entry) : Query Nat
  | next (start : Nat) : Query Int
  | available : Query Int

/-- Its program, for a table of `n` entries. -/
def Query.prog (L n : Nat) (tm : Tm) {α : Type} : Query α → Prog α
  | .number => activeEntryP L n tm
  | .active => isSchedActiveP L n tm
  | .value => currentValueP L n tm
  | .left => currentRemainingP L n tm
  | .overlapping e => overlappingP e n 0 0
  | .next start => findP true (n - start) start
  | .available => findP false n 0

/-- Its answer without a handler, according to the first model. -/
def Query.ask (L : Nat) (tm : Tm) {α : Type} (s : Sched) : Query α → Res α
  | .number => .ok (activeEntry L s tm)
  | .active => .ok (isSchedActive L s tm)
  | .value => currentValue L s tm
  | .left => currentRemaining L s tm
  | .overlapping e => .ok (Scheduler.overlapping s e)
  | .next start => nextEnabled s start
  | .available => firstAvailable s

/-! ## Without a handler -/

open Prog

theorem bind_ret {α β : Type} (a : α) (g : α → Prog β) : (Prog.ret a).bind g = g a := rfl

theorem exec_ret {α : Type} (H : Nat → Sched → Sched) (n : Nat) (a : α) (s : Sched) : exec H n (.ret a) s = .ok a := rfl

/-- Without a handler the numbers of the loads do not matter. -/
theorem quiet_num {α : Type} (p : Prog α) (s : Sched) : ∀ n m, exec quiet n p s = exec quiet m p s := by
  induction p with
  | ret a => intros; rfl
  | ld i f k ih =>
    intro n m
    simp only [exec, quiet]
    cases h : rd s i with
    | ok e => simp only [Res.ok_bind]; exact ih _ _ _
    | _ => rfl

theorem quiet_ld {α : Type} {s : Sched} {i : Nat} {e : Entry} (he : s[i]? = some e) (f : Fld) (k : f.ty → Prog α) (n : Nat) :
    exec quiet n (.ld i f k) s = exec quiet 0 (k (f.get e)) s := by
  simp only [exec, quiet, rd, he, Res.ok_bind]
  exact quiet_num _ _ _ _

theorem quiet_bind {α β : Type} (p : Prog α) (g : α → Prog β) (s : Sched) : ∀ n,
    exec quiet n (p.bind g) s = (exec quiet 0 p s >>= fun a => exec quiet 0 (g a) s) := by
  induction p with
  | ret a => intro n; exact quiet_num _ _ _ _
  | ld i f k ih =>
    intro n
    simp only [exec, quiet, Prog.bind]
    cases h : rd s i with
    | ok e =>
      simp only [Res.ok_bind]
      exact (ih _ _).trans (by rw [quiet_num (k (f.get e)) s 0 (0 + 1)])
    | _ => rfl

theorem quiet_bif {α : Type} (b : Bool) (p q : Prog α) (n : Nat) (s : Sched) :
    exec quiet n (bif b then p else q) s = bif b then exec quiet n p s else exec quiet n q s := by cases b <;> rfl

section
variable {s : Sched} {i : Nat} {e : Entry} (he : s[i]? = some e)
include he

theorem quiet_isActive (tm : Tm) : exec quiet 0 (isActiveP i tm) s = .ok (isActive e tm) := by
  rw [isActiveP, quiet_ld he, quiet_bif]
  cases h : isDayIncluded e.days tm.wday
  · simp [isActive, h, Fld.get, exec]
  · simp only [Fld.get, h, Bool.not_true, cond_false]
    rw [quiet_ld he, quiet_ld he]
    rfl

theorem quiet_numDays : ∀ k d acc, exec quiet 0 (numDaysP i k d acc) s =
    .ok (acc + ((List.range' d k).map fun j => if isDayIncluded e.days j then 1 else 0).sum) := by
  intro k
  induction k with
  | zero => intro d acc; rfl
  | succ k ih =>
    intro d acc
    rw [numDaysP, quiet_ld he, ih]
    simp only [List.range'_succ, List.map_cons, List.sum_cons, Fld.get, Nat.add_assoc]
    rfl

theorem quiet_duration : exec quiet 0 (durationP i) s = .ok (duration e) := by
  rw [durationP, quiet_ld he, quiet_ld he, quiet_bif, quiet_ld he, quiet_ld he, quiet_ld he, quiet_ld he]
  simp only [Fld.get, duration]
  by_cases h : e.start.toNat < e.stop.toNat
  · simp only [h, decide_true, cond_true, if_true]; rfl
  · simp only [h, decide_false, cond_false, if_false]; rfl

theorem quiet_weekSpan (L : Nat) : exec quiet 0 (weekSpanP L i) s = .ok (weekSpan L e) := by
  rw [weekSpanP, quiet_bind, quiet_numDays he, Res.ok_bind, quiet_bind, quiet_duration he, Res.ok_bind, exec_ret, weekSpan, numDays,
    List.range_eq_range', Nat.zero_add]

theorem quiet_take (L : Nat) : exec quiet 0 (takeP L i) s = .ok ⟨true, weekSpan L e, e.value.setWidth 8, i⟩ := by
  rw [takeP, quiet_bind, quiet_weekSpan he, Res.ok_bind, quiet_ld he]
  rfl

theorem quiet_consider (L : Nat) (tm : Tm) (f : Found) : exec quiet 0 (considerP L tm f i) s = .ok (consider L tm f e i) := by
  rw [considerP, quiet_ld he, quiet_bif, quiet_bind, quiet_isActive he, Res.ok_bind, quiet_bif, quiet_bif, quiet_take he, quiet_bind,
    quiet_weekSpan he, Res.ok_bind, quiet_bif, quiet_take he, quiet_bind, quiet_weekSpan he, Res.ok_bind, quiet_bif, quiet_ld he, quiet_bif,
    quiet_take he]
  simp only [Fld.get, consider, exec_ret]
  by_cases h0 : e.enabled = 0
  · simp only [h0, decide_true, cond_true, if_true]
  · simp only [h0, decide_false, cond_false, if_false]
    cases isActive e tm
    · rfl
    · cases f.found
      · rfl
      · by_cases h1 : weekSpan L e < f.total
        · simp [h1]
        · by_cases h2 : weekSpan L e = f.total
          · by_cases h3 : (f.value.toNat : Int) < e.value.toInt
            · simp [h2, h3]
            · simp [h2, h3]
          · simp [h1, h2]

theorem quiet_remaining (L : Nat) (tm : Tm) : exec quiet 0 (remainingP L s.length i tm) s = remaining L s i tm := by
  have hi : ¬ s.length ≤ i := by
    have := (List.getElem?_eq_some_iff.1 he).1
    omega
  rw [remainingP, quiet_bif, quiet_bind, quiet_isActive he, Res.ok_bind, quiet_bif, quiet_ld he, remaining, getEntry]
  simp only [hi, decide_false, cond_false, if_false, rd, he, Res.ok_bind, Res.pure_eq, exec_ret, Fld.get]
  cases isActive e tm <;> rfl

theorem quiet_included (x : BitVec 32) : exec quiet 0 (includedP x i) s = .ok (included x e) := by
  rw [includedP, quiet_ld he, quiet_bif, quiet_ld he, included]
  simp only [Fld.get, exec_ret]
  by_cases h : x.toNat ≥ e.start.toNat
  · simp [h]; rfl
  · simp [h]

theorem quiet_includes (b : Bool) (o : Entry) : exec quiet 0 (includesP i b o) s = .ok (included (bif b then e.start else e.stop) o) := by
  rw [includesP, quiet_bif, quiet_ld he, quiet_bif, quiet_ld he, quiet_ld he, quiet_bif, quiet_ld he, included]
  simp only [Fld.get, exec_ret]
  cases b
  · simp only [cond_false]
    by_cases h : e.stop.toNat ≥ o.start.toNat
    · simp [h]; rfl
    · simp [h]
  · simp only [cond_true]
    by_cases h : e.start.toNat ≥ o.start.toNat
    · simp [h]; rfl
    · simp [h]

theorem quiet_overlaps (o : Entry) : exec quiet 0 (overlapsP i o) s = .ok (overlaps e o) := by
  rw [overlapsP, quiet_ld he, quiet_bif, quiet_ld he, quiet_bif, quiet_bind, quiet_included he, Res.ok_bind, quiet_bif, quiet_bind,
    quiet_included he, Res.ok_bind, quiet_bif, quiet_bind, quiet_includes he, Res.ok_bind, quiet_bif, quiet_includes he, overlaps]
  simp only [Fld.get, exec_ret, cond_true, cond_false]
  by_cases h0 : e.enabled = 0
  · simp [h0]
  · by_cases h1 : (e.days &&& o.days).toNat > 0
    · simp only [h0, h1, decide_false, decide_true, cond_false, Bool.not_true, ne_eq, not_false_eq_true, Bool.true_and]
      cases included o.start e <;> cases included o.stop e <;> cases included e.start o <;> rfl
    · simp only [h0, h1, decide_false, cond_false, Bool.not_false, cond_true, Bool.and_false, Bool.false_and]

end

theorem quiet_search (L : Nat) (tm : Tm) (s : Sched) : ∀ k i f, i + k = s.length →
    exec quiet 0 (searchP L tm k i f) s = .ok (search L tm f (s.drop i) i) := by
  intro k
  induction k with
  | zero => intro i f h; rw [List.drop_eq_nil_of_le (by omega)]; rfl
  | succ k ih =>
    intro i f h
    have hi : i < s.length := by omega
    rw [searchP, quiet_bind, quiet_consider (List.getElem?_eq_getElem hi), Res.ok_bind, ih _ _ (by omega), List.drop_eq_getElem_cons hi]
    rfl

theorem quiet_activeEntry (L : Nat) (tm : Tm) (s : Sched) : exec quiet 0 (activeEntryP L s.length tm) s = .ok (activeEntry L s tm) := by
  rw [activeEntryP, quiet_bind, quiet_search L tm s _ _ _ (by omega)]
  rfl

theorem quiet_overlapping (o : Entry) (s : Sched) : ∀ k i acc, i + k = s.length →
    exec quiet 0 (overlappingP o k i acc) s = .ok (acc + overlapping (s.drop i) o) := by
  intro k
  induction k with
  | zero => intro i acc h; rw [List.drop_eq_nil_of_le (by omega)]; rfl
  | succ k ih =>
    intro i acc h
    have hi : i < s.length := by omega
    rw [overlappingP, quiet_bind, quiet_overlaps (List.getElem?_eq_getElem hi), Res.ok_bind, ih _ _ (by omega), List.drop_eq_getElem_cons hi]
    simp only [overlapping, List.map_cons, List.sum_cons]
    cases overlaps s[i] o <;> simp [Nat.add_assoc]

theorem quiet_next (s : Sched) : ∀ k i, i + k = s.length → exec quiet 0 (findP true k i) s = nextEnabledFrom s k i := by
  intro k
  induction k with
  | zero => intro i h; rfl
  | succ k ih =>
    intro i h
    have hi : i < s.length := by omega
    rw [findP, quiet_ld (List.getElem?_eq_getElem hi), quiet_bif, ih _ (by omega), nextEnabledFrom, isEnabled]
    simp only [show ¬ s.length ≤ i by omega, if_false, rd, List.getElem?_eq_getElem hi, Res.ok_bind, Res.pure_eq, Fld.get, exec_ret]
    by_cases h0 : s[i].enabled = 0#8
    · simp [h0]
    · simp [h0]

theorem quiet_available (s : Sched) : ∀ k i, i + k = s.length → exec quiet 0 (findP false k i) s = firstAvailableFrom s k i := by
  intro k
  induction k with
  | zero => intro i h; rfl
  | succ k ih =>
    intro i h
    have hi : i < s.length := by omega
    rw [findP, quiet_ld (List.getElem?_eq_getElem hi), quiet_bif, ih _ (by omega), firstAvailableFrom, isEnabled]
    simp only [show ¬ s.length ≤ i by omega, if_false, rd, List.getElem?_eq_getElem hi, Res.ok_bind, Res.pure_eq, Fld.get, exec_ret]
    by_cases h0 : s[i].enabled = 0#8
    · simp [h0]
    · simp [h0]

/-- Without a handler the programs answer what the first model says. -/
theorem quiet_query {α : Type} (L : Nat) (tm : Tm) (s : Sched) (q : Query α) :
    exec quiet 0 (q.prog L s.length tm) s = q.ask L tm s := by
  have hbound : (activeEntry L s tm).toNat < s.length ∨ ¬ activeEntry L s tm ≥ 0 := by
    have key : ∀ (es : List Entry) (i : Nat) (f : Found), f.id < i → (search L tm f es i).id < (i + es.length : Nat) := by
      intro es
      induction es with
      | nil => intro i f h; simpa [search] using h
      | cons e es ih =>
        intro i f h
        rw [search, List.length_cons, show i + (es.length + 1) = (i + 1) + es.length by omega]
        apply ih
        simp only [consider]
        split
        · push_cast; omega
        · split
          · split
            · push_cast; omega
            · push_cast; omega
          · push_cast; omega
    have := key s 0 ⟨false, 0, 0, -1⟩ (by simp)
    rw [activeEntry]
    omega
  cases q with
  | number => exact quiet_activeEntry L tm s
  | active =>
    rw [Query.prog, isSchedActiveP, quiet_bind, quiet_activeEntry]
    rfl
  | value =>
    rw [Query.prog, currentValueP, quiet_bind, quiet_activeEntry, Res.ok_bind, quiet_bif, Query.ask, currentValue]
    rcases hbound with h | h
    · rw [quiet_ld (List.getElem?_eq_getElem h)]
      by_cases h0 : activeEntry L s tm ≥ 0
      · simp only [h0, decide_true, cond_true, if_true, rd, List.getElem?_eq_getElem h, Res.ok_bind]; rfl
      · simp only [h0, decide_false, cond_false, if_false]; rfl
    · simp only [h, decide_false, cond_false, if_false]; rfl
  | left =>
    rw [Query.prog, currentRemainingP, quiet_bind, quiet_activeEntry, Res.ok_bind, quiet_bif, Query.ask, currentRemaining]
    rcases hbound with h | h
    · rw [quiet_remaining (List.getElem?_eq_getElem h)]
      by_cases h0 : activeEntry L s tm ≥ 0
      · simp only [h0, decide_true, cond_true, if_true]
      · simp only [h0, decide_false, cond_false, if_false]; rfl
    · simp only [h, decide_false, cond_false, if_false]; rfl
  | overlapping e =>
    rw [Query.prog, quiet_overlapping e s _ _ _ (by omega), Query.ask, Nat.zero_add]
    rfl
  | next start =>
    by_cases h : start ≤ s.length
    · exact quiet_next s _ _ (by omega)
    · rw [Query.prog, Query.ask, nextEnabled, show s.length - start = 0 by omega]
      rfl
  | available => exact quiet_available s _ _ (by omega)

/-! ## A handler that changes one entry -/

/-- What the query has seen of entry `k`: nothing, or whether it is enabled. -/
inductive Seen
  | nothing
  | on
  | off

/-- Every run of the program loads `enabled` of entry `k` at most once, and loads the other members of that entry only after it has
found the entry enabled; `Q` holds of what it has seen and of its result. -/
def Guarded {α : Type} (k : Nat) (Q : Seen → α → Prop) : Seen → Prog α → Prop
  | ph, .ret a => Q ph a
  | .nothing, .ld i .enabled c =>
    if i = k then Guarded k Q .off (c (0 : BitVec 8)) ∧ ∀ v : BitVec 8, v ≠ 0 → Guarded k Q .on (c v)
    else ∀ v, Guarded k Q .nothing (c v)
  | ph, .ld i .enabled c => i ≠ k ∧ ∀ v, Guarded k Q ph (c v)
  | .on, .ld _ _ c => ∀ v, Guarded k Q .on (c v)
  | ph, .ld i _ c => i ≠ k ∧ ∀ v, Guarded k Q ph (c v)

theorem Guarded.mono {α : Type} {k : Nat} {Q R : Seen → α → Prop} (h : ∀ ph a, Q ph a → R ph a) (p : Prog α) :
    ∀ ph, Guarded k Q ph p → Guarded k R ph p := by
  induction p with
  | ret a => intro ph hp; cases ph <;> exact h _ _ hp
  | ld i f c ih =>
    intro ph hp
    cases ph <;> cases f <;> simp only [Guarded] at hp ⊢
    case nothing.enabled =>
      by_cases hi : i = k
      · rw [if_pos hi] at hp ⊢
        exact ⟨ih _ _ hp.1, fun v hv => ih _ _ (hp.2 v hv)⟩
      · rw [if_neg hi] at hp ⊢
        exact fun v => ih _ _ (hp v)
    all_goals first
      | exact ⟨hp.1, fun v => ih _ _ (hp.2 v)⟩
      | exact fun v => ih _ _ (hp v)

theorem Guarded.bind {α β : Type} {k : Nat} {Q : Seen → β → Prop} (p : Prog α) (g : α → Prog β) :
    ∀ ph, Guarded k (fun ph a => Guarded k Q ph (g a)) ph p → Guarded k Q ph (p.bind g) := by
  induction p with
  | ret a => intro ph hp; cases ph <;> exact hp
  | ld i f c ih =>
    intro ph hp
    cases ph <;> cases f <;> simp only [Guarded, Prog.bind] at hp ⊢
    case nothing.enabled =>
      by_cases hi : i = k
      · rw [if_pos hi] at hp ⊢
        exact ⟨ih _ _ hp.1, fun v hv => ih _ _ (hp.2 v hv)⟩
      · rw [if_neg hi] at hp ⊢
        exact fun v => ih _ _ (hp v)
    all_goals first
      | exact ⟨hp.1, fun v => ih _ _ (hp.2 v)⟩
      | exact fun v => ih _ _ (hp v)

theorem rd_set_ne {s : Sched} {i k : Nat} (h : i ≠ k) (e : Entry) : rd (s.set k e) i = rd s i := by
  simp only [rd, List.getElem?_set_ne (Ne.symm h)]

theorem once_cases (t n : Nat) (k : Nat) (e' : Entry) (s : Sched) :
    onceAt t (fun s => s.set k e') n s = s ∨ onceAt t (fun s => s.set k e') n s = s.set k e' := by
  unfold onceAt
  split
  · exact .inr rfl
  · exact .inl rfl

/-- What is never looked at may change. -/
theorem exec_off {α : Type} {k : Nat} {Q : Seen → α → Prop} (e' : Entry) (t : Nat) (p : Prog α) : ∀ n s, Guarded k Q .off p →
    exec (onceAt t fun s => s.set k e') n p s = exec quiet n p s ∧ exec quiet n p (s.set k e') = exec quiet n p s := by
  induction p with
  | ret a => intros; exact ⟨rfl, rfl⟩
  | ld i f c ih =>
    intro n s hp
    have hp : i ≠ k ∧ ∀ v, Guarded k Q .off (c v) := by cases f <;> simpa only [Guarded] using hp
    constructor
    · simp only [exec]
      rcases once_cases t n k e' s with h | h
      · rw [h]
        simp only [quiet]
        cases hr : rd s i with
        | ok e => simp only [Res.ok_bind]; exact (ih _ _ _ (hp.2 _)).1
        | _ => rfl
      · rw [h, rd_set_ne hp.1]
        simp only [quiet]
        cases hr : rd s i with
        | ok e =>
          simp only [Res.ok_bind]
          exact ((ih _ _ _ (hp.2 _)).1).trans (ih _ _ _ (hp.2 _)).2
        | _ => rfl
    · simp only [exec, quiet, rd_set_ne hp.1]
      cases hr : rd s i with
      | ok e => simp only [Res.ok_bind]; exact (ih _ _ _ (hp.2 _)).2
      | _ => rfl

/-- A load that is not one of `enabled` of entry `k`. -/
theorem load_same {β : Type} {s : Sched} {k : Nat} {e : Entry} {x : BitVec 8}
    (hs : s[k]? = some e ∨ s[k]? = some { e with enabled := x }) (i : Nat) (f : Fld) (h : i ≠ k ∨ f ≠ .enabled) (G : f.ty → Res β) :
    (rd (s.set k { e with enabled := x }) i >>= fun a => G (f.get a)) = rd s i >>= fun a => G (f.get a) := by
  by_cases hi : i = k
  · subst hi
    have hlen : i < s.length := by rcases hs with hs | hs <;> exact (List.getElem?_eq_some_iff.1 hs).1
    have hf : f ≠ .enabled := by simpa using h
    rcases hs with hs | hs <;> cases f <;> simp_all [rd, Fld.get]
  · rw [rd_set_ne hi]

/-- `enabled` alone may change when it is not looked at any more. -/
theorem exec_on {α : Type} {k : Nat} {Q : Seen → α → Prop} (x : BitVec 8) (e : Entry) (t : Nat) (p : Prog α) : ∀ n s, s[k]? = some e ∨
    s[k]? = some { e with enabled := x } → Guarded k Q .on p →
    exec (onceAt t fun s => s.set k { e with enabled := x }) n p s = exec quiet n p s ∧
      exec quiet n p (s.set k { e with enabled := x }) = exec quiet n p s := by
  induction p with
  | ret a => intros; exact ⟨rfl, rfl⟩
  | ld i f c ih =>
    intro n s hs hp
    have hlen : k < s.length := by rcases hs with hs | hs <;> exact (List.getElem?_eq_some_iff.1 hs).1
    have hs' : (s.set k { e with enabled := x })[k]? = some { e with enabled := x } := by rw [List.getElem?_set_self hlen]
    have hc : (i ≠ k ∨ f ≠ .enabled) ∧ ∀ v, Guarded k Q .on (c v) := by
      cases f <;> simp only [Guarded] at hp
      case enabled => exact ⟨.inl hp.1, hp.2⟩
      all_goals exact ⟨.inr (fun h => nomatch h), hp⟩
    constructor
    · simp only [exec]
      rcases once_cases t n k { e with enabled := x } s with h | h
      · rw [h]
        simp only [quiet]
        cases hr : rd s i with
        | ok a => simp only [Res.ok_bind]; exact (ih _ _ _ hs (hc.2 _)).1
        | _ => rfl
      · rw [h]
        have : (fun a => exec (onceAt t fun s => s.set k { e with enabled := x }) (n + 1) (c (f.get a)) (s.set k { e with enabled := x })) =
            fun a => (fun v => exec quiet (n + 1) (c v) s) (f.get a) := by
          funext a
          exact ((ih _ _ _ (.inr hs') (hc.2 _)).1).trans (ih _ _ _ hs (hc.2 _)).2
        rw [this]
        exact load_same hs i f hc.1 fun v => exec quiet (n + 1) (c v) s
    · simp only [exec, quiet]
      have : (fun a => exec quiet (n + 1) (c (f.get a)) (s.set k { e with enabled := x })) =
          fun a => (fun v => exec quiet (n + 1) (c v) s) (f.get a) := by
        funext a
        exact (ih _ _ _ hs (hc.2 _)).2
      exact (congrArg (rd (s.set k { e with enabled := x }) i >>= ·) this).trans (load_same hs i f hc.1 fun v => exec quiet (n + 1) (c v) s)

/-- After the handler the program runs as without one. -/
theorem exec_after {α : Type} (t : Nat) (g : Sched → Sched) (p : Prog α) : ∀ n s, t < n → exec (onceAt t g) n p s = exec quiet n p s := by
  induction p with
  | ret a => intros; rfl
  | ld i f c ih =>
    intro n s h
    simp only [exec, quiet, onceAt, if_neg (show ¬ n = t by omega)]
    cases hr : rd s i with
    | ok e => simp only [Res.ok_bind]; exact ih _ _ _ (by omega)
    | _ => rfl

/-- A guarded program that is interrupted once by a change of entry `k`, which is disabled or of which only `enabled` changes, ends as
if it had run before or after the interrupt. -/
theorem exec_atomic {α : Type} {k : Nat} {Q : Seen → α → Prop} {e e' : Entry} (h : e.enabled = 0 ∨ ∃ x, e' = { e with enabled := x })
    (t : Nat) (p : Prog α) : ∀ n s, s[k]? = some e → Guarded k Q .nothing p →
    exec (onceAt t fun s => s.set k e') n p s = exec quiet n p s ∨
      exec (onceAt t fun s => s.set k e') n p s = exec quiet n p (s.set k e') := by
  induction p with
  | ret a => intros; exact .inl rfl
  | ld i f c ih =>
    intro n s hs hp
    by_cases ht : n = t
    · right
      simp only [exec, quiet, onceAt, if_pos ht]
      cases hr : rd (s.set k e') i with
      | ok a => simp only [Res.ok_bind]; exact exec_after _ _ _ _ _ (by omega)
      | _ => rfl
    · simp only [exec, quiet, onceAt, if_neg ht]
      by_cases hi : i = k
      · subst hi
        have hf : f = .enabled := by
          cases f <;> simp [Guarded] at hp ⊢
        subst hf
        simp only [Guarded, if_true] at hp
        left
        simp only [rd, hs, Res.ok_bind, Fld.get]
        by_cases h0 : e.enabled = 0
        · rw [h0]
          exact (exec_off e' t _ _ _ hp.1).1
        · obtain ⟨x, rfl⟩ : ∃ x, e' = { e with enabled := x } := h.resolve_left h0
          exact (exec_on x e t _ _ _ (.inl hs) (hp.2 _ h0)).1
      · have hc : ∀ v, Guarded k Q .nothing (c v) := by
          cases f <;> simp only [Guarded] at hp
          case enabled => rwa [if_neg hi] at hp
          all_goals exact hp.2
        rw [rd_set_ne hi]
        cases hr : rd s i with
        | ok a => simp only [Res.ok_bind]; exact ih _ _ _ hs (hc _)
        | _ => exact .inl rfl

/-! ## The queries are guarded -/

/-- The program loads members of entry `i` other than `enabled`. -/
theorem guarded_ld {α : Type} {k : Nat} {Q : Seen → α → Prop} {ph : Seen} {i : Nat} {f : Fld} {c : f.ty → Prog α} (hf : f ≠ .enabled)
    (hi : i ≠ k ∨ ph = .on) (hc : ∀ v, Guarded k Q ph (c v)) : Guarded k Q ph (.ld i f c) := by
  cases ph <;> cases f <;> simp_all [Guarded]

theorem guarded_bif {α : Type} {k : Nat} {Q : Seen → α → Prop} {ph : Seen} {b : Bool} {p q : Prog α}
    (hp : b = true → Guarded k Q ph p) (hq : b = false → Guarded k Q ph q) : Guarded k Q ph (bif b then p else q) := by
  cases b
  · exact hq rfl
  · exact hp rfl

theorem guarded_ret {α : Type} {k : Nat} {Q : Seen → α → Prop} {ph : Seen} {a : α} (h : Q ph a) : Guarded k Q ph (.ret a) := by
  cases ph <;> exact h

section
variable {k i : Nat} {ph : Seen} (hi : i ≠ k ∨ ph = .on)
include hi

/-- The program only looks at members of entry `i`, and not at `enabled`. -/
theorem guarded_isActive (tm : Tm) : Guarded k (fun p _ => p = ph) ph (isActiveP i tm) :=
  guarded_ld (fun h => nomatch h) hi fun _ => guarded_bif (fun _ => guarded_ret rfl) fun _ =>
    guarded_ld (fun h => nomatch h) hi fun _ => guarded_ld (fun h => nomatch h) hi fun _ => guarded_ret rfl

theorem guarded_numDays : ∀ n d acc, Guarded k (fun p _ => p = ph) ph (numDaysP i n d acc) := by
  intro n
  induction n with
  | zero => intros; exact guarded_ret rfl
  | succ n ih => intros; exact guarded_ld (fun h => nomatch h) hi fun _ => ih _ _

theorem guarded_duration : Guarded k (fun p _ => p = ph) ph (durationP i) :=
  guarded_ld (fun h => nomatch h) hi fun _ => guarded_ld (fun h => nomatch h) hi fun _ => guarded_bif
    (fun _ => guarded_ld (fun h => nomatch h) hi fun _ => guarded_ld (fun h => nomatch h) hi fun _ => guarded_ret rfl)
    (fun _ => guarded_ld (fun h => nomatch h) hi fun _ => guarded_ld (fun h => nomatch h) hi fun _ => guarded_ret rfl)

theorem guarded_weekSpan (L : Nat) : Guarded k (fun p _ => p = ph) ph (weekSpanP L i) := by
  refine Guarded.bind _ _ _ (Guarded.mono ?_ _ _ (guarded_numDays hi 7 0 0))
  rintro p a rfl
  refine Guarded.bind _ _ _ (Guarded.mono ?_ _ _ (guarded_duration hi))
  rintro p a rfl
  exact guarded_ret rfl

theorem guarded_take (L : Nat) : Guarded k (fun p (f : Found) => p = ph ∧ f.id = i) ph (takeP L i) := by
  refine Guarded.bind _ _ _ (Guarded.mono ?_ _ _ (guarded_weekSpan hi L))
  rintro p a rfl
  exact guarded_ld (fun h => nomatch h) hi fun _ => guarded_ret ⟨rfl, rfl⟩

theorem guarded_included (x : BitVec 32) : Guarded k (fun p _ => p = ph) ph (includedP x i) :=
  guarded_ld (fun h => nomatch h) hi fun _ => guarded_bif
    (fun _ => guarded_ld (fun h => nomatch h) hi fun _ => guarded_ret rfl) (fun _ => guarded_ret rfl)

theorem guarded_includes (b : Bool) (o : Entry) : Guarded k (fun p _ => p = ph) ph (includesP i b o) :=
  guarded_bif
    (fun _ => guarded_ld (fun h => nomatch h) hi fun _ => guarded_bif
      (fun _ => guarded_ld (fun h => nomatch h) hi fun _ => guarded_ret rfl) (fun _ => guarded_ret rfl))
    (fun _ => guarded_ld (fun h => nomatch h) hi fun _ => guarded_bif
      (fun _ => guarded_ld (fun h => nomatch h) hi fun _ => guarded_ret rfl) (fun _ => guarded_ret rfl))

theorem guarded_remaining (L n : Nat) (tm : Tm) : Guarded k (fun p _ => p = ph) ph (remainingP L n i tm) := by
  refine guarded_bif (fun _ => guarded_ret rfl) fun _ => Guarded.bind _ _ _ (Guarded.mono ?_ _ _ (guarded_isActive hi tm))
  rintro p a rfl
  exact guarded_bif (fun _ => guarded_ret rfl) fun _ => guarded_ld (fun h => nomatch h) hi fun _ => guarded_ret rfl

/-- scheduler.c:126-136. -/
theorem guarded_rest (L : Nat) (tm : Tm) (f : Found) : Guarded k (fun p (g : Found) => p = ph ∧ (g.id = i ∨ g = f)) ph
    ((isActiveP i tm).bind fun act =>
      bif !act then .ret f
      else bif !f.found then takeP L i
      else (weekSpanP L i).bind fun w =>
        bif decide (w < f.total) then takeP L i
        else (weekSpanP L i).bind fun w =>
          bif decide (w = f.total) then .ld i .value fun v =>
            bif decide ((f.value.toNat : Int) < v.toInt) then takeP L i else .ret f
          else .ret f) := by
  have htake : Guarded k (fun p (g : Found) => p = ph ∧ (g.id = i ∨ g = f)) ph (takeP L i) :=
    Guarded.mono (fun _ _ h => ⟨h.1, .inl h.2⟩) _ _ (guarded_take hi L)
  refine Guarded.bind _ _ _ (Guarded.mono ?_ _ _ (guarded_isActive hi tm))
  rintro p a rfl
  refine guarded_bif (fun _ => guarded_ret ⟨rfl, .inr rfl⟩) fun _ => guarded_bif (fun _ => htake) fun _ => ?_
  refine Guarded.bind _ _ _ (Guarded.mono ?_ _ _ (guarded_weekSpan hi L))
  rintro p a rfl
  refine guarded_bif (fun _ => htake) fun _ => Guarded.bind _ _ _ (Guarded.mono ?_ _ _ (guarded_weekSpan hi L))
  rintro p a rfl
  exact guarded_bif (fun _ => guarded_ld (fun h => nomatch h) hi fun _ =>
    guarded_bif (fun _ => htake) fun _ => guarded_ret ⟨rfl, .inr rfl⟩) fun _ => guarded_ret ⟨rfl, .inr rfl⟩

end

/-- The load of `enabled` of entry `i`, as the first access to the entry: `A` for what follows of another entry and of `k` found
enabled, `c 0` for `k` found disabled. -/
theorem guarded_first {α : Type} {k i : Nat} {Q : Seen → α → Prop} {ph : Seen} {c : BitVec 8 → Prog α} (hi : i = k → ph = .nothing)
    (h0 : i = k → Guarded k Q .off (c 0)) (h1 : ∀ v, v ≠ 0 → i = k → Guarded k Q .on (c v)) (h2 : i ≠ k → ∀ v, Guarded k Q ph (c v)) :
    Guarded k Q ph (.ld i .enabled c) := by
  by_cases h : i = k
  · rw [hi h]
    simp only [Guarded, if_pos h]
    exact ⟨h0 h, fun v hv => h1 v hv h⟩
  · cases ph
    · simp only [Guarded, if_neg h]
      exact h2 h
    · exact ⟨h, h2 h⟩
    · exact ⟨h, h2 h⟩

/-- What the loop has seen of entry `k` before it comes to entry `i`, if it has not found it. -/
def Inv (k i : Nat) (ph : Seen) (f : Found) : Prop := (i ≤ k → ph = .nothing) ∧ (ph = .on ∨ f.id ≠ k)

theorem guarded_consider (L : Nat) (tm : Tm) (k i : Nat) (ph : Seen) (f : Found) (h : Inv k i ph f) :
    Guarded k (fun ph f => Inv k (i + 1) ph f) ph (considerP L tm f i) := by
  refine guarded_first (fun hi => h.1 (by omega)) (fun hi => ?_) (fun v hv hi => ?_) (fun hi v => ?_)
  · refine guarded_ret ⟨fun h => by omega, .inr ?_⟩
    rcases h.2 with h2 | h2
    · rw [h.1 (by omega)] at h2
      exact absurd h2 (fun h => nomatch h)
    · exact h2
  · refine guarded_bif (fun hv' => absurd (of_decide_eq_true hv') hv) fun _ => ?_
    refine Guarded.mono ?_ _ _ (guarded_rest (.inr rfl) L tm f)
    rintro p g ⟨rfl, -⟩
    exact ⟨fun h => by omega, .inl rfl⟩
  · have hnext : Inv k (i + 1) ph f := ⟨fun h' => h.1 (by omega), h.2⟩
    refine guarded_bif (fun _ => guarded_ret hnext) fun _ => Guarded.mono ?_ _ _ (guarded_rest (.inl hi) L tm f)
    rintro p g ⟨rfl, hg⟩
    refine ⟨fun h' => h.1 (by omega), ?_⟩
    rcases hg with hg | rfl
    · exact .inr (by rw [hg]; omega)
    · exact h.2

theorem guarded_search (L : Nat) (tm : Tm) (k : Nat) : ∀ n i ph f, Inv k i ph f →
    Guarded k (fun ph f => Inv k (i + n) ph f) ph (searchP L tm n i f) := by
  intro n
  induction n with
  | zero => intro i ph f h; exact guarded_ret h
  | succ n ih =>
    intro i ph f h
    refine Guarded.bind _ _ _ (Guarded.mono ?_ _ _ (guarded_consider L tm k i ph f h))
    intro p g hg
    refine Guarded.mono ?_ _ _ (ih _ _ _ hg)
    intro p g hg
    rwa [show i + (n + 1) = i + 1 + n by omega]

theorem guarded_activeEntry (L n : Nat) (tm : Tm) (k : Nat) :
    Guarded k (fun ph (id : Int) => ph = .on ∨ id ≠ k) .nothing (activeEntryP L n tm) := by
  refine Guarded.bind _ _ _ (Guarded.mono ?_ _ _ (guarded_search L tm k n 0 .nothing ⟨false, 0, 0, -1⟩ ⟨fun _ => rfl, .inr ?_⟩))
  · intro p f h
    exact guarded_ret h.2
  · show (-1 : Int) ≠ k
    omega

theorem guarded_overlaps (o : Entry) (k i : Nat) (ph : Seen) (h : i ≤ k → ph = .nothing) :
    Guarded k (fun ph _ => i + 1 ≤ k → ph = .nothing) ph (overlapsP i o) := by
  have key : ∀ {ph : Seen}, i ≠ k ∨ ph = .on → Guarded k (fun p _ => p = ph) ph (Prog.ld i .days fun (days : BitVec 8) =>
      bif !decide ((days &&& o.days).toNat > 0) then .ret false
      else (includedP o.start i).bind fun b =>
        bif b then .ret true
        else (includedP o.stop i).bind fun b =>
          bif b then .ret true
          else (includesP i true o).bind fun b =>
            bif b then .ret true else includesP i false o) := by
    intro ph hi
    refine guarded_ld (fun h => nomatch h) hi fun _ => guarded_bif (fun _ => guarded_ret rfl) fun _ => ?_
    refine Guarded.bind _ _ _ (Guarded.mono ?_ _ _ (guarded_included hi _))
    rintro p a rfl
    refine guarded_bif (fun _ => guarded_ret rfl) fun _ => Guarded.bind _ _ _ (Guarded.mono ?_ _ _ (guarded_included hi _))
    rintro p a rfl
    refine guarded_bif (fun _ => guarded_ret rfl) fun _ => Guarded.bind _ _ _ (Guarded.mono ?_ _ _ (guarded_includes hi _ _))
    rintro p a rfl
    exact guarded_bif (fun _ => guarded_ret rfl) fun _ => guarded_includes hi _ _
  refine guarded_first (fun hi => h (by omega)) (fun hi => ?_) (fun v hv hi => ?_) (fun hi v => ?_)
  · exact guarded_ret fun h => by omega
  · refine guarded_bif (fun _ => guarded_ret fun h => by omega) fun _ => Guarded.mono ?_ _ _ (key (.inr rfl))
    intro p a _ h
    omega
  · refine guarded_bif (fun _ => guarded_ret fun h' => h (by omega)) fun _ => Guarded.mono ?_ _ _ (key (.inl hi))
    rintro p a rfl h'
    exact h (by omega)

theorem guarded_overlapping (o : Entry) (k : Nat) : ∀ n i acc ph, (i ≤ k → ph = .nothing) →
    Guarded k (fun _ _ => True) ph (overlappingP o n i acc) := by
  intro n
  induction n with
  | zero => intros; exact guarded_ret trivial
  | succ n ih =>
    intro i acc ph h
    refine Guarded.bind _ _ _ (Guarded.mono ?_ _ _ (guarded_overlaps o k i ph h))
    intro p a hp
    exact ih _ _ _ hp

theorem guarded_find (want : Bool) (k : Nat) : ∀ n i ph, (i ≤ k → ph = .nothing) → Guarded k (fun _ _ => True) ph (findP want n i) := by
  intro n
  induction n with
  | zero => intros; exact guarded_ret trivial
  | succ n ih =>
    intro i ph h
    refine guarded_first (fun hi => h (by omega)) (fun hi => ?_) (fun v hv hi => ?_) (fun hi v => ?_)
    · exact guarded_bif (fun _ => guarded_ret trivial) fun _ => ih _ _ fun h => by omega
    · exact guarded_bif (fun _ => guarded_ret trivial) fun _ => ih _ _ fun h => by omega
    · exact guarded_bif (fun _ => guarded_ret trivial) fun _ => ih _ _ fun h' => h (by omega)

/-- Every query loads `enabled` of an entry once and looks at nothing else of it if it is 0. -/
theorem guarded_query {α : Type} (L n : Nat) (tm : Tm) (k : Nat) (q : Query α) : Guarded k (fun _ _ => True) .nothing (q.prog L n tm) := by
  cases q with
  | number => exact Guarded.mono (fun _ _ _ => trivial) _ _ (guarded_activeEntry L n tm k)
  | active =>
    refine Guarded.bind _ _ _ (Guarded.mono ?_ _ _ (guarded_activeEntry L n tm k))
    intro p id h
    exact guarded_ret trivial
  | value =>
    refine Guarded.bind _ _ _ (Guarded.mono ?_ _ _ (guarded_activeEntry L n tm k))
    intro p id h
    refine guarded_bif (fun h0 => guarded_ld (fun h => nomatch h) ?_ fun _ => guarded_ret trivial) fun _ => guarded_ret trivial
    rcases h with h | h
    · exact .inr h
    · exact .inl (by have := of_decide_eq_true h0; omega)
  | left =>
    refine Guarded.bind _ _ _ (Guarded.mono ?_ _ _ (guarded_activeEntry L n tm k))
    intro p id h
    refine guarded_bif (fun h0 => Guarded.mono (fun _ _ _ => trivial) _ _ (guarded_remaining ?_ L n tm)) fun _ => guarded_ret trivial
    rcases h with h | h
    · exact .inr h
    · exact .inl (by have := of_decide_eq_true h0; omega)
  | overlapping e => exact guarded_overlapping e k n 0 0 .nothing fun _ => rfl
  | next start => exact guarded_find true k _ _ .nothing fun _ => rfl
  | available => exact guarded_find false k _ _ .nothing fun _ => rfl

/-- Only the table the handler leaves matters. -/
theorem exec_congr {α : Type} (t : Nat) (g g' : Sched → Sched) (s : Sched) (h : g s = g' s) (p : Prog α) : ∀ n,
    exec (onceAt t g) n p s = exec (onceAt t g') n p s := by
  induction p with
  | ret a => intros; rfl
  | ld i f c ih =>
    intro n
    by_cases ht : n = t
    · simp only [exec, onceAt, if_pos ht, h]
      cases hr : rd (g' s) i with
      | ok e =>
        simp only [Res.ok_bind]
        rw [exec_after t g _ _ _ (by omega), exec_after t g' _ _ _ (by omega)]
      | _ => rfl
    · simp only [exec, onceAt, if_neg ht]
      cases hr : rd s i with
      | ok e => simp only [Res.ok_bind]; exact ih _ _
      | _ => rfl

/-- The loads of a program that is not interrupted. -/
def loads {α : Type} (s : Sched) : Prog α → Nat
  | .ret _ => 0
  | .ld i f c => match s[i]? with
    | some e => loads s (c (f.get e)) + 1
    | none => 0

/-- The handler comes after the loads of the first part. -/
theorem exec_second {α β : Type} (g : Sched → Sched) (s : Sched) (c : α → Prog β) (p : Prog α) : ∀ n t a, exec quiet 0 p s = .ok a →
    n + loads s p ≤ t → exec (onceAt t g) n (p.bind c) s = exec (onceAt t g) (n + loads s p) (c a) s := by
  induction p with
  | ret b =>
    intro n t a h _
    rw [exec_ret] at h
    cases h
    rfl
  | ld i f k ih =>
    intro n t a h ht
    cases he : s[i]? with
    | none => simp [exec, quiet, rd, he] at h
    | some e =>
      rw [quiet_ld he] at h
      simp only [loads, he] at ht ⊢
      rw [Prog.bind, exec, onceAt, if_neg (by omega)]
      simp only [rd, he, Res.ok_bind]
      rw [ih _ _ _ _ h (by omega), show n + (loads s (k (f.get e)) + 1) = n + 1 + loads s (k (f.get e)) by omega]

end Gel.Scheduler
