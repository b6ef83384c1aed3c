import Verif.EventLog.Props

/-!
# Circular event log: interrupt handlers (C203, C204)

`circular_event_log_new_event` with an interrupt handler before any access to the log. The callback that saves is one step; the
handler runs to its end.
-/
namespace Gel.EventLog

open Spec

/-- Where a handler runs: before the call, after the position was read for `save_new_event` (line 8), after the callback, between the
load and the store of `next_position++` (line 11), before the comparison (line 12), before the store of 0 (line 13), before the store
to `full_circle` (line 14). -/
inductive Pt where
  | begin | call | saved | incr | check | zero | flag
  deriving DecidableEq, Repr

/-- `circular_event_log_new_event`, circular_event_log.c:7-19, with handlers `H`. -/
def newEventI (dev : Dev D) (H : Pt → D × Log → D × Log) (s : D × Log) (event : List Byte) : (D × Log) × Int :=
  let s := H .begin s
  let position := s.2.next
  let s := H .call s
  let (res, d) := dev.save s.1 event position
  if res = 0 then
    let s := H .saved (d, s.2)
    let v := s.2.next
    let s := H .incr s
    let s := H .check (s.1, { s.2 with next := (v + 1) % 2 ^ 64 })
    if s.2.next ≥ s.2.max then
      let s := H .zero s
      let s := H .flag (s.1, { s.2 with next := 0 })
      ((s.1, { s.2 with full := true }), res)
    else (s, res)
  else ((d, s.2), res)

/-- One handler `f`, at `p`. -/
def onceAt (p : Pt) (f : D × Log → D × Log) : Pt → D × Log → D × Log := fun q s => if q = p then f s else s

/-- A handler that logs `e` itself. -/
def logs (dev : Dev D) (e : List Byte) (s : D × Log) : D × Log :=
  let r := newEvent dev s.1 s.2 e
  (r.1, r.2.1)

/-- **C203.** Without a handler it is `newEvent`. -/
theorem C203_quiet (dev : Dev D) (s : D × Log) (e : List Byte) :
    newEventI dev (fun _ s => s) s e = let r := newEvent dev s.1 s.2 e; ((r.1, r.2.1), r.2.2) := by
  simp only [newEventI, newEvent]
  split_ifs <;> rfl

/-- The log after `c` events. -/
def logAfter (max size c : Nat) : Log := ⟨c % max, max, size, decide (max ≤ c)⟩

theorem Inv.log {max size : Nat} {s : List (List Byte) × Log} {h : List (List Byte)} (hi : Inv max size s h) :
    s.2 = logAfter max size h.length := by
  obtain ⟨d, l⟩ := s
  obtain ⟨n, m, z, f⟩ := l
  obtain ⟨-, h1, h2, h3, h4, -⟩ := hi
  simp only at h1 h2 h3 h4
  simp [logAfter, h1, h2, h3, h4]

section

variable {max size : Nat} (h0 : 0 < max) (hm : max < 2 ^ 31)
include h0 hm

omit hm in
theorem after_wrap {c : Nat} (hc : c % max + 1 = max) : logAfter max size (c + 1) = ⟨0, max, size, true⟩ := by
  have h1 : (c + 1) % max = 0 := by rw [← Nat.mod_add_mod, hc, Nat.mod_self]
  have h2 : max ≤ c + 1 := by have := Nat.mod_le c max; omega
  simp [logAfter, h1, h2]

omit hm in
theorem after_step {c : Nat} (hc : c % max + 1 < max) : logAfter max size (c + 1) = ⟨c % max + 1, max, size, decide (max ≤ c)⟩ := by
  have h1 : (c + 1) % max = c % max + 1 := by rw [← Nat.mod_add_mod, Nat.mod_eq_of_lt hc]
  have h2 : (max ≤ c + 1) = (max ≤ c) := by
    by_cases h : c < max
    · rw [Nat.mod_eq_of_lt h] at hc
      simp only [eq_iff_iff]; omega
    · simp only [eq_iff_iff]; omega
  simp [logAfter, h1, h2]

omit hm in
theorem save_store {d : List (List Byte)} (hd : d.length = max) (e : List Byte) (c : Nat) :
    (store fun _ _ => 0).save d e (c % max) = (0, d.set (c % max) e) := by
  simp [store, hd, Nat.mod_lt _ h0]

omit h0 hm in
theorem save_outside {d : List (List Byte)} (hd : d.length = max) (e : List Byte) :
    (store fun _ _ => 0).save d e max = (-1, d) := by
  simp [store, hd]

theorem new_log {d : List (List Byte)} (hd : d.length = max) (e : List Byte) (c : Nat) :
    newEvent (store fun _ _ => 0) d (logAfter max size c) e = (d.set (c % max) e, logAfter max size (c + 1), 0) := by
  have hlt : c % max < max := Nat.mod_lt _ h0
  have hs := save_store h0 hd e c
  have hw : (c % max + 1) % 2 ^ 64 = c % max + 1 := Nat.mod_eq_of_lt (by omega)
  rw [newEvent]
  simp only [logAfter] at hs ⊢
  simp only [hs, if_true, hw]
  by_cases hc : c % max + 1 = max
  · rw [if_pos (by omega)]
    have := after_wrap (size := size) h0 hc
    simp only [logAfter] at this
    rw [this]
  · rw [if_neg (by omega)]
    have := after_step (size := size) h0 (show c % max + 1 < max by omega)
    simp only [logAfter] at this
    rw [this]

/-- The call, for a handler that comes at `p` and leaves a storage of the same size. -/
theorem newEventI_eq {d : List (List Byte)} (hd : d.length = max) (e f : List Byte) (c : Nat) (p : Pt) :
    (newEventI (store fun _ _ => 0) (onceAt p (logs (store fun _ _ => 0) f)) (d, logAfter max size c) e).1 =
      match p with
      | .begin => ((d.set (c % max) f).set ((c + 1) % max) e, logAfter max size (c + 2))
      | .call => ((d.set (c % max) f).set (c % max) e, logAfter max size (c + 2))
      | .saved => ((d.set (c % max) e).set (c % max) f, logAfter max size (c + 2))
      | .incr => ((d.set (c % max) e).set (c % max) f, logAfter max size (c + 1))
      | .check => if c % max + 1 = max then (d.set (c % max) e, logAfter max size (c + 1))
          else ((d.set (c % max) e).set ((c + 1) % max) f, logAfter max size (c + 2))
      | .zero => (d.set (c % max) e, logAfter max size (c + 1))
      | .flag => if c % max + 1 = max then ((d.set (c % max) e).set ((c + 1) % max) f, logAfter max size (c + 2))
          else (d.set (c % max) e, logAfter max size (c + 1)) := by
  have hlt : c % max < max := Nat.mod_lt _ h0
  have hlt1 : (c + 1) % max < max := Nat.mod_lt _ h0
  have w : ∀ v, v < max → (v + 1) % 2 ^ 64 = v + 1 := fun v hv => Nat.mod_eq_of_lt (by omega)
  have L : ∀ (d : List (List Byte)), d.length = max → ∀ e c, logs (store fun _ _ => 0) e (d, logAfter max size c) =
      (d.set (c % max) e, logAfter max size (c + 1)) := fun d hd e c => by rw [logs, new_log h0 hm hd]
  have N : ∀ c, (logAfter max size c).next = c % max := fun _ => rfl
  have M : ∀ c, (logAfter max size c).max = max := fun _ => rfl
  have tail : ∀ (d : List (List Byte)) (c : Nat), (if c % max + 1 ≥ max then
      ((d, { logAfter max size c with next := 0, full := true }) : List (List Byte) × Log)
      else (d, { logAfter max size c with next := c % max + 1 })) = (d, logAfter max size (c + 1)) := by
    intro d c
    have hlt : c % max < max := Nat.mod_lt _ h0
    by_cases hc : c % max + 1 = max
    · rw [if_pos (by omega), after_wrap h0 hc]; rfl
    · rw [if_neg (by omega), after_step h0 (by omega)]; rfl
  have hset : ∀ (e : List Byte) i, (d.set i e).length = max := fun e i => by simpa using hd
  cases p with
  | begin =>
    simp only [newEventI, onceAt, if_true, reduceCtorEq, if_false, L d hd f c, N, M, save_store h0 (hset f _) e (c + 1), w _ hlt1]
    rw [← tail]
    split_ifs <;> rfl
  | call =>
    simp only [newEventI, onceAt, if_true, reduceCtorEq, if_false, L d hd f c, N, M, save_store h0 (hset f _) e c, w _ hlt1]
    rw [← tail]
    split_ifs <;> rfl
  | saved =>
    simp only [newEventI, onceAt, if_true, reduceCtorEq, if_false, save_store h0 hd e c, N, L _ (hset e _) f c, M, w _ hlt1]
    rw [← tail]
    split_ifs <;> rfl
  | incr =>
    simp only [newEventI, onceAt, if_true, reduceCtorEq, if_false, save_store h0 hd e c, N, L _ (hset e _) f c, M, w _ hlt]
    by_cases hc : c % max + 1 = max
    · rw [if_pos (by omega), after_wrap h0 hc]
    · rw [if_neg (by omega), after_step h0 (by omega)]
  | check =>
    simp only [newEventI, onceAt, if_true, reduceCtorEq, if_false, save_store h0 hd e c, N, w _ hlt]
    by_cases hc : c % max + 1 = max
    · rw [if_pos hc]
      have : logs (store fun _ _ => 0) f (d.set (c % max) e, { logAfter max size c with next := c % max + 1 }) =
          (d.set (c % max) e, { logAfter max size c with next := c % max + 1 }) := by
        simp only [logs, newEvent, hc, save_outside (hset e _) f]
        rfl
      rw [this]
      simp only [M]
      rw [if_pos (by omega), after_wrap h0 hc]
      rfl
    · rw [if_neg hc]
      have e1 : ({ logAfter max size c with next := c % max + 1 } : Log) = logAfter max size (c + 1) := by
        rw [after_step h0 (by omega)]; rfl
      rw [e1, L _ (hset e _) f (c + 1)]
      simp only [N, M]
      rw [if_neg (by have := Nat.mod_lt (c + 1 + 1) h0; omega)]
  | zero =>
    simp only [newEventI, onceAt, if_true, reduceCtorEq, if_false, save_store h0 hd e c, N, M, w _ hlt]
    by_cases hc : c % max + 1 = max
    · rw [if_pos (by omega)]
      have : logs (store fun _ _ => 0) f (d.set (c % max) e, (⟨c % max + 1, max, size, decide (max ≤ c)⟩ : Log)) =
          (d.set (c % max) e, ⟨c % max + 1, max, size, decide (max ≤ c)⟩) := by
        simp only [logs, newEvent, hc, save_outside (hset e _) f]
        rfl
      rw [after_wrap h0 hc]
      simp only [logAfter, this]
    · rw [if_neg (by omega), after_step h0 (by omega)]
      rfl
  | flag =>
    simp only [newEventI, onceAt, if_true, reduceCtorEq, if_false, save_store h0 hd e c, N, M, w _ hlt]
    by_cases hc : c % max + 1 = max
    · rw [if_pos (by omega), if_pos hc]
      have hz : (c + 1) % max = 0 := by
        have := after_wrap (size := size) h0 hc
        simpa [logAfter] using congrArg Log.next this
      have hs0 := save_store h0 (hset e (c % max)) f (c + 1)
      rw [hz] at hs0
      have hw0 : (0 + 1) % 2 ^ 64 = 1 := rfl
      simp only [logs, newEvent, hs0, if_true, hw0, M]
      by_cases h1 : max = 1
      · subst h1
        have : logAfter 1 size (c + 2) = ⟨0, 1, size, true⟩ := by simp [logAfter, Nat.mod_one]
        rw [if_pos (by omega), this, hz]
        rfl
      · have h2 : (c + 2) % max = 1 := by
          rw [show c + 2 = c + 1 + 1 from rfl, ← Nat.mod_add_mod, hz, Nat.mod_eq_of_lt (by omega)]
        have h3 : max ≤ c + 2 := by have := Nat.mod_le c max; omega
        rw [if_neg (by omega), hz]
        simp [logAfter, h2, h3]
    · rw [if_neg (by omega), if_neg hc, after_step h0 (by omega)]
      rfl

/-- **C203** (partial). Two events, one logged by a handler: both are in the log, in the order in which they were logged, if the handler
comes before the call, or after it has set the position to 0, or before the comparison if the position is not the end. Missing: the
other points (`C203_lost_wrong`, `C203_outside_wrong`). -/
theorem C203_both_partial {s : List (List Byte) × Log} {h : List (List Byte)} (hi : Inv max size s h) (e f : List Byte) (p : Pt)
    (hp : p = .begin ∨ (p = .check ∧ h.length % max + 1 ≠ max) ∨ (p = .flag ∧ h.length % max + 1 = max)) :
    Inv max size (newEventI (store fun _ _ => 0) (onceAt p (logs (store fun _ _ => 0) f)) s e).1
      (h ++ if p = .begin then [f, e] else [e, f]) := by
  have two : ∀ e f, Inv max size ((s.1.set (h.length % max) e).set ((h.length + 1) % max) f, logAfter max size (h.length + 2))
      (h ++ [e, f]) := by
    intro e f
    obtain ⟨d1, l1, e1, i1⟩ := inv_new h0 hm hi e
    obtain ⟨d2, l2, e2, i2⟩ := inv_new h0 hm i1 f
    rw [hi.log, new_log h0 hm hi.len] at e1
    injection e1 with e1 e1'
    injection e1' with e1' _
    have hl1 : (s.1.set (h.length % max) e).length = max := by simpa using hi.len
    rw [← e1, ← e1', new_log h0 hm hl1] at e2
    injection e2 with e2 e2'
    injection e2' with e2' _
    rw [← e2, ← e2'] at i2
    simpa using i2
  obtain ⟨d, l⟩ := s
  have hl : l = logAfter max size h.length := hi.log
  subst hl
  have hd : d.length = max := hi.len
  rcases hp with rfl | ⟨rfl, hc⟩ | ⟨rfl, hc⟩ <;> rw [newEventI_eq h0 hm hd e f]
  · exact two f e
  · simp only [if_neg hc]; exact two e f
  · simp only [if_pos hc]; exact two e f

/-- **C203**, where it fails: at the other points before the increment is stored one event overwrites the other. If the handler comes
before the increment is loaded the log counts two events nevertheless: what it has for the last one is what was in the slot before. -/
theorem C203_lost_wrong {s : List (List Byte) × Log} {h : List (List Byte)} (hi : Inv max size s h) (e f : List Byte) :
    (newEventI (store fun _ _ => 0) (onceAt .call (logs (store fun _ _ => 0) f)) s e).1 =
      (s.1.set (h.length % max) e, logAfter max size (h.length + 2)) ∧
    (newEventI (store fun _ _ => 0) (onceAt .saved (logs (store fun _ _ => 0) f)) s e).1 =
      (s.1.set (h.length % max) f, logAfter max size (h.length + 2)) ∧
    (newEventI (store fun _ _ => 0) (onceAt .incr (logs (store fun _ _ => 0) f)) s e).1 =
      (s.1.set (h.length % max) f, logAfter max size (h.length + 1)) := by
  obtain ⟨d, l⟩ := s
  have hl : l = logAfter max size h.length := hi.log
  subst hl
  have hd : d.length = max := hi.len
  refine ⟨?_, ?_, ?_⟩ <;> rw [newEventI_eq h0 hm hd e f] <;> simp

end

/-- **C203**, where it fails: while the event for the last position is logged, any handler before the comparison, or before the store of
0, finds the position to be `max`; if it logs an event, the callback has to save that outside of the storage. -/
theorem C203_outside_wrong (dev : Dev D) (d : D) (l : Log) (e : List Byte) (hs : (dev.save d e l.next).1 = 0) (hl : l.next + 1 = l.max)
    (hm : l.max + 1 < 2 ^ 64) (H : D × Log → D × Log) :
    let s := H ((dev.save d e l.next).2, { l with next := l.max })
    (newEventI dev (onceAt .zero H) (d, l) e).1 = (s.1, { s.2 with next := 0, full := true }) ∧
    (newEventI dev (onceAt .check H) (d, l) e).1 = (if s.2.next ≥ s.2.max then (s.1, { s.2 with next := 0, full := true }) else s) ∧
    ∀ f, logs dev f ((dev.save d e l.next).2, { l with next := l.max }) =
      (let r := dev.save (dev.save d e l.next).2 f l.max
       (r.2, if r.1 = 0 then { l with next := 0, full := true } else { l with next := l.max })) := by
  have hw : (l.next + 1) % 2 ^ 64 = l.max := by rw [hl]; exact Nat.mod_eq_of_lt (by omega)
  refine ⟨?_, ?_, fun f => ?_⟩
  · simp only [newEventI, onceAt, if_true, reduceCtorEq, if_false, hs, hw, ge_iff_le, le_refl]
  · simp only [newEventI, onceAt, if_true, reduceCtorEq, if_false, hs, hw]
    split_ifs <;> rfl
  · simp only [logs, newEvent]
    by_cases h2 : (dev.save (dev.save d e l.next).2 f l.max).1 = 0
    · rw [if_pos h2, if_pos h2]
      rw [Nat.mod_eq_of_lt hm, if_pos (by omega)]
    · rw [if_neg h2, if_neg h2]

/-! ## A handler that reads the log (C204) -/

/-- The callbacks, with a place for what a handler has read. -/
def withNote (dev : Dev D) : Dev (D × Option R) where
  save d e p := let r := dev.save d.1 e p; (r.1, (r.2, d.2))
  load d n p := dev.load d.1 n p

/-- A handler that reads. -/
def reads (read : D → Log → R) (s : (D × Option R) × Log) : (D × Option R) × Log := ((s.1.1, some (read s.1.1 s.2)), s.2)

/-- What a handler that comes at `p` reads; `none` if the call does not come to `p`. -/
def seen (dev : Dev D) (read : D → Log → R) (p : Pt) (s : D × Log) (e : List Byte) : Option R :=
  (newEventI (withNote dev) (onceAt p (reads read)) ((s.1, none), s.2) e).1.1.2

section

variable {max size : Nat} (h0 : 0 < max) (hm : max < 2 ^ 31)
include h0 hm

theorem seen_eq {d : List (List Byte)} (hd : d.length = max) (e : List Byte) (c : Nat) (read : List (List Byte) → Log → R) (p : Pt) :
    seen (store fun _ _ => 0) read p (d, logAfter max size c) e =
      match p with
      | .begin | .call => some (read d (logAfter max size c))
      | .saved | .incr => some (read (d.set (c % max) e) (logAfter max size c))
      | .check => some (read (d.set (c % max) e) ⟨c % max + 1, max, size, decide (max ≤ c)⟩)
      | .zero => if c % max + 1 = max then some (read (d.set (c % max) e) ⟨max, max, size, decide (max ≤ c)⟩) else none
      | .flag => if c % max + 1 = max then some (read (d.set (c % max) e) ⟨0, max, size, decide (max ≤ c)⟩) else none := by
  have hlt : c % max < max := Nat.mod_lt _ h0
  have w : (c % max + 1) % 2 ^ 64 = c % max + 1 := Nat.mod_eq_of_lt (by omega)
  have hs := save_store h0 hd e c
  by_cases hc : c % max + 1 = max
  · cases p <;> simp only [seen, newEventI, onceAt, reads, withNote, if_true, reduceCtorEq, if_false, logAfter, hs, w] <;>
      simp [hc]
  · have hc' : ¬ c % max + 1 ≥ max := by omega
    cases p <;> simp only [seen, newEventI, onceAt, reads, withNote, if_true, reduceCtorEq, if_false, logAfter, hs, w, hc', hc]

theorem load_end {d : List (List Byte)} (hd : d.length = max) (b : Bool) (events : List Byte) (number jump : Nat) (hover : jump + number < 2 ^ 64)
    (refuse : Nat → List Byte → Int) :
    loadLast (store refuse) d ⟨max, max, size, b⟩ events number jump = loadLast (store refuse) d ⟨0, max, size, true⟩ events number jump := by
  have t1 : total ⟨max, max, size, b⟩ = max := by simp [total]
  have t2 : total ⟨0, max, size, true⟩ = max := by simp [total]
  rw [loadLast, loadLast, t1, t2]
  split
  · rfl
  · rename_i hj
    have hk : (if (jump + number) % 2 ^ 64 > max then max - jump else number) = min number (max - jump) := by
      rw [Nat.mod_eq_of_lt hover]; split_ifs <;> omega
    simp only [hk]
    generalize hkk : min number (max - jump) = k
    have hle : k + jump ≤ max := by omega
    rw [Nat.mod_eq_of_lt (show k + jump < 2 ^ 64 by omega)]
    by_cases hz : k + jump = 0
    · have hk0 : k = 0 := by omega
      have hj0 : jump = 0 := by omega
      subst hk0 hj0
      have n1 : nthLast ⟨max, max, size, b⟩ 0 = max := by simp [nthLast]
      have n2 : nthLast ⟨0, max, size, true⟩ 0 = 0 := by simp [nthLast]
      rw [n1, n2, if_neg (by simp only [Nat.add_zero]; rw [Nat.mod_eq_of_lt (by omega)]; omega), if_neg (by simp)]
      rw [load_store d 0 max (by omega), load_store d 0 0 (by omega)]
      simp
    · have n1 : nthLast ⟨max, max, size, b⟩ (k + jump) = max - (k + jump) := by
        rw [nthLast]; simp only; rw [if_pos hle]
      have n2 : nthLast ⟨0, max, size, true⟩ (k + jump) = max - (k + jump) := by
        rw [nthLast]; simp only; rw [if_neg (by omega)]
        simp only [if_true, Nat.sub_zero]
        exact subZ_eq hle (by omega)
      rw [n1, n2]

omit h0 hm in
/-- The history as it appears at each point while `e` is logged. -/
def Spec.visible (max : Nat) (h : List (List Byte)) (e : List Byte) : Pt → List (List Byte)
  | .begin | .call => h
  | .saved | .incr => if max ≤ h.length then h.set (h.length - max) e else h
  | .check | .zero => h ++ [e]
  | .flag => if max ≤ h.length then h ++ [e] else []

/-- What is loaded from the log after the history `h`. -/
def Loaded (max size : Nat) (h : List (List Byte)) (number jump : Nat) (events : List Byte) (r : Res (Int × List Byte)) : Prop :=
  r = .ok ((window h max number jump).length, (window h max number jump).flatten ++ events.drop ((window h max number jump).length * size))

omit hm in
theorem inv_saved {s : List (List Byte) × Log} {h : List (List Byte)} (hi : Inv max size s h) (e : List Byte) :
    Inv max size (s.1.set (h.length % max) e, logAfter max size h.length) (if max ≤ h.length then h.set (h.length - max) e else h) := by
  have hlt : h.length % max < max := Nat.mod_lt _ h0
  split
  · rename_i hf
    have hmod : (h.length - max) % max = h.length % max := by
      conv_rhs => rw [show h.length = h.length - max + max by omega, Nat.add_mod_right]
    refine ⟨by simpa using hi.len, rfl, rfl, by simp [logAfter], by simp [logAfter], fun j h1 h2 => ?_⟩
    simp only [List.length_set] at h1 h2
    by_cases hj : j = h.length - max
    · subst hj
      rw [hmod, List.getElem?_set_self (by rw [hi.len]; exact hlt), List.getElem?_set_self (by omega)]
    · rw [List.getElem?_set_ne (Ne.symm hj), List.getElem?_set_ne (fun hh => mod_ne (c := h.length) h1 (by omega) hh.symm)]
      exact hi.slot j h1 h2
  · rename_i hf
    refine ⟨by simpa using hi.len, rfl, rfl, by simp [logAfter], by simp [logAfter], fun j h1 h2 => ?_⟩
    rw [List.getElem?_set_ne (fun hh => mod_ne (c := h.length) h1 (by omega) hh.symm)]
    exact hi.slot j h1 h2

theorem inv_logged {s : List (List Byte) × Log} {h : List (List Byte)} (hi : Inv max size s h) (e : List Byte) :
    Inv max size (s.1.set (h.length % max) e, logAfter max size (h.length + 1)) (h ++ [e]) := by
  obtain ⟨d1, l1, e1, i1⟩ := inv_new h0 hm hi e
  rw [hi.log, new_log h0 hm hi.len] at e1
  injection e1 with e1 e1'
  injection e1' with e1' _
  rwa [← e1, ← e1'] at i1

/-- **C204.** What a handler loads, at every point: exactly the events of the history before or after the call; but, between the saving
and the increment, of the history whose oldest event has already been replaced by the new one if the log is full; and, when the position
has just become 0 for the first time, nothing. -/
theorem C204_exact {s : List (List Byte) × Log} {h : List (List Byte)} (hi : Inv max size s h) (e : List Byte)
    (hsz : ∀ x ∈ h, x.length = size) (hse : e.length = size) (number jump : Nat) (hover : jump + number < 2 ^ 64) (events : List Byte)
    (hev : events.length < 2 ^ 64) (hfit : max * size ≤ events.length) (refuse : Nat → List Byte → Int) (p : Pt)
    {r : Res (Int × List Byte)}
    (hr : seen (store fun _ _ => 0) (fun d l => loadLast (store refuse) d l events number jump) p s e = some r) :
    Loaded max size (Spec.visible max h e p) number jump events r := by
  have hlt : h.length % max < max := Nat.mod_lt _ h0
  obtain ⟨d, l⟩ := s
  have hl : l = logAfter max size h.length := hi.log
  subst hl
  have hd : d.length = max := hi.len
  have ld : ∀ (d' : List (List Byte)) (l' : Log) (h' : List (List Byte)), Inv max size (d', l') h' → (∀ x ∈ h', x.length = size) →
      Loaded max size h' number jump events (loadLast (store refuse) d' l' events number jump) := by
    intro d' l' h' hi' hsz'
    refine load_inv hi' h0 hm hsz' number jump hover events hev ?_ refuse
    refine le_trans (Nat.mul_le_mul_right _ ?_) hfit
    rw [(C50_window h' max number jump).1]
    omega
  have szA : ∀ x ∈ h ++ [e], x.length = size := by
    intro x hx
    rcases List.mem_append.1 hx with hx | hx
    · exact hsz x hx
    · rw [List.mem_singleton.1 hx, hse]
  have szS : ∀ x ∈ (if max ≤ h.length then h.set (h.length - max) e else h), x.length = size := by
    intro x hx
    split at hx
    · rcases List.mem_or_eq_of_mem_set hx with hx | hx
      · exact hsz x hx
      · rw [hx, hse]
    · exact hsz x hx
  rw [seen_eq h0 hm hd] at hr
  have A := inv_logged h0 hm hi e
  cases p with
  | begin => injection hr with hr; rw [← hr]; exact ld _ _ _ hi hsz
  | call => injection hr with hr; rw [← hr]; exact ld _ _ _ hi hsz
  | saved => injection hr with hr; rw [← hr]; exact ld _ _ _ (inv_saved h0 hi e) szS
  | incr => injection hr with hr; rw [← hr]; exact ld _ _ _ (inv_saved h0 hi e) szS
  | check =>
    injection hr with hr
    rw [← hr]
    by_cases hc : h.length % max + 1 = max
    · rw [after_wrap h0 hc] at A
      rw [hc]
      rw [load_end h0 hm (by simpa using hd) _ events number jump hover]
      exact ld _ _ _ A szA
    · rw [after_step h0 (by omega)] at A
      exact ld _ _ _ A szA
  | zero =>
    by_cases hc : h.length % max + 1 = max
    · simp only [if_pos hc] at hr
      injection hr with hr
      rw [← hr]
      rw [after_wrap h0 hc] at A
      rw [load_end h0 hm (by simpa using hd) _ events number jump hover]
      exact ld _ _ _ A szA
    · simp only [if_neg hc] at hr; cases hr
  | flag =>
    by_cases hc : h.length % max + 1 = max
    · simp only [if_pos hc] at hr
      injection hr with hr
      rw [← hr]
      by_cases hf : max ≤ h.length
      · simp only [Spec.visible, if_pos hf, decide_eq_true hf]
        rw [after_wrap h0 hc] at A
        exact ld _ _ _ A szA
      · simp only [Spec.visible, if_neg hf, decide_eq_false hf]
        exact ld _ _ [] ⟨by simpa using hd, rfl, rfl, by simp, by simp; omega, fun j h1 _ => absurd h1 (by simp)⟩ (by simp)
    · simp only [if_neg hc] at hr; cases hr

end

/-- **C204**, where it fails: in a full log the event being logged appears as the oldest one. -/
theorem C204_oldest_wrong {max : Nat} (h0 : 0 < max) {h : List (List Byte)} (hf : max ≤ h.length) (e : List Byte) {p : Pt}
    (hp : p = .saved ∨ p = .incr) : window (Spec.visible max h e p) max max 0 = e :: h.drop (h.length - max + 1) := by
  have hv : Spec.visible max h e p = h.set (h.length - max) e := by rcases hp with rfl | rfl <;> exact if_pos hf
  rw [hv, window_eq _ _ _ _ (by omega)]
  simp only [List.length_set, Nat.sub_zero]
  rw [show min max (min h.length max) = max by omega, List.take_of_length_le (by simp; omega)]
  rw [List.drop_eq_getElem_cons (by simp; omega), List.getElem_set_self]
  congr 1
  rw [List.drop_set_of_lt (by omega)]

/-- **C204**, where it fails: when the last position has been used for the first time, the log is empty for a moment. -/
theorem C204_empty_wrong {max : Nat} {h : List (List Byte)} (hf : h.length + 1 = max) (e : List Byte) : Spec.visible max h e .flag = [] :=
  if_neg (by omega)

/-- **C204** (partial). At every other point the history is the one before or the one after the call. Missing: these two cases. -/
theorem C204_partial {max : Nat} {h : List (List Byte)} (e : List Byte) {p : Pt} (hp : (p = .saved ∨ p = .incr) → h.length < max)
    (hp' : p = .flag → max ≤ h.length) : Spec.visible max h e p = h ∨ Spec.visible max h e p = h ++ [e] := by
  cases p with
  | begin => exact .inl rfl
  | call => exact .inl rfl
  | saved => exact .inl (if_neg (by have := hp (.inl rfl); omega))
  | incr => exact .inl (if_neg (by have := hp (.inr rfl); omega))
  | check => exact .inr rfl
  | zero => exact .inr rfl
  | flag => exact .inr (if_pos (hp' rfl))

/-! ## Examples: three slots, one byte per event -/

def exS (n : Nat) : List (List Byte) × Log := run ([[0], [0], [0]], empty 3 1) ((List.range n).map fun i => ([BitVec.ofNat 8 (i + 1)], 0))

-- one event was logged; the handler's event 8 comes in the midst of logging 9
example : (newEventI (store fun _ _ => 0) (onceAt .saved (logs (store fun _ _ => 0) [8])) (exS 1) [9]).1 =
    ([[1], [8], [0]], ⟨0, 3, 1, true⟩) := by decide
example : (newEventI (store fun _ _ => 0) (onceAt .incr (logs (store fun _ _ => 0) [8])) (exS 1) [9]).1 =
    ([[1], [8], [0]], ⟨2, 3, 1, false⟩) := by decide
example : (newEventI (store fun _ _ => 0) (onceAt .check (logs (store fun _ _ => 0) [8])) (exS 1) [9]).1 =
    ([[1], [9], [8]], ⟨0, 3, 1, true⟩) := by decide
-- two were: the handler's event is refused
example : (newEventI (store fun _ _ => 0) (onceAt .check (logs (store fun _ _ => 0) [8])) (exS 2) [9]).1 =
    ([[1], [2], [9]], ⟨0, 3, 1, true⟩) := by decide
-- a handler that loads the last three events
example : seen (store fun _ _ => 0) (fun d l => loadLast (store fun _ _ => 0) d l [0, 0, 0] 3 0) .saved (exS 4) [9] =
    some (.ok (3, [9, 3, 4])) := by decide
example : seen (store fun _ _ => 0) (fun d l => loadLast (store fun _ _ => 0) d l [0, 0, 0] 3 0) .zero (exS 2) [9] =
    some (.ok (3, [1, 2, 9])) := by decide
example : seen (store fun _ _ => 0) (fun d l => loadLast (store fun _ _ => 0) d l [0, 0, 0] 3 0) .flag (exS 2) [9] =
    some (.ok (0, [0, 0, 0])) := by decide

end Gel.EventLog
