import Verif.Combined.Journal
import Verif.Wear.Restart

/-!
# The event log of C230 in a new memory (C244)

The program of `Combined/Journal.lean`, whose power may now be lost at any time. Its memory is erased at first: the bytes are 0xff.
-/
namespace Gel.Combined.Journal
open EventLog EventLog.Spec
open Wear.Spec (Block flash Fits Lossy Phase)
open Wear (RelL)

section
variable {max esize size n : Nat}

theorem new_result (dev : Dev D) (d : D) (l : Log) (e : List Byte) : (newEvent dev d l e).2.2 = (dev.save d e l.next).1 := by
  simp only [newEvent]
  split_ifs <;> rfl

/-- The structure that erased bytes give. -/
def erased (max esize : Nat) : Log := ⟨2 ^ 32 - 1, max, esize, true⟩

theorem restore_erased : restore max esize (List.replicate 5 0xff) = .ok (erased max esize) := rfl

/-- There is no such position. -/
theorem new_erased (hm : max < 2 ^ 31) {events : List (List Byte)} (he : events.length = max) (err : Int) (e : List Byte) :
    newEvent (store fun _ _ => err) events (erased max esize) e = (events, erased max esize, if err = 0 then -1 else err) := by
  by_cases h : err = 0
  · have hs : (store fun _ _ => err).save events e (erased max esize).next = (-1, events) := by
      simp only [store, erased]
      rw [if_neg (by simpa using h), if_neg (by omega)]
    rw [C51_refused _ _ _ _ (by rw [hs]; simp), hs, if_pos h]
  · rw [refused_store _ _ _ _ h, if_neg h]

/-- **C244** (partial). In every history of C230 the next event is saved to a position that the memory has, so it is accepted unless
the memory refuses it. Missing: power losses while the last of several blocks is in use (`C244_dead_wrong`). -/
theorem C244_partial (h0 : 0 < max) (hm : max < 2 ^ 31) (hn0 : 0 < n) (hn : n < 256) (hl : 5 ≤ size) (events : List (List Byte))
    (he : events.length = max) (d : List Block) (hd : Fits size n d) (mk : BitVec 8) (hmk : ∀ b ∈ d, b.marker = mk) :
    ∃ a c, start max esize size n events d = .ok a ∧ c ≤ 1 ∧ ∀ xs, Spec.Safe max n ⟨[], none, c⟩ xs →
      ∃ b, acts max esize size n a xs = .ok b ∧ b.log.next < max ∧ b.events.length = max ∧
        ∀ e refuse, (newEvent (store refuse) b.events b.log e).2.2 = refuse b.log.next e := by
  obtain ⟨a, c, h1, h2, h3⟩ := start_good h0 hm hn0 hn hl events he d hd mk hmk
  refine ⟨a, c, h1, h2, fun xs hs => ?_⟩
  obtain ⟨b, h4, h5⟩ := good_acts h0 hm hn0 hn hl xs h3 hs
  have hnx : b.log.next < max := by rw [show b.log.next = _ from h5.inv.next]; exact Nat.mod_lt _ h0
  have hlen : b.events.length = max := h5.inv.len
  refine ⟨b, h4, hnx, hlen, fun e refuse => ?_⟩
  rw [new_result]
  simp only [store]
  by_cases hr : refuse b.log.next e = 0
  · rw [if_neg (by simpa using hr), if_pos (by omega), hr]
  · rw [if_pos hr]

theorem acts_append (xs : List Act) : ∀ (a : Prog) (ys : List Act),
    acts max esize size n a (xs ++ ys) = (acts max esize size n a xs).bind fun b => acts max esize size n b ys := by
  induction xs with
  | nil => intro a ys; rfl
  | cons x xs ih =>
    intro a ys
    rw [List.cons_append, acts, acts]
    cases act max esize size n a x <;> first | rfl | exact ih _ _

theorem keep_lossy (hn : n < 256) (hl : 5 ≤ size) {a : Prog} {r : Lossy} (hr : RelL size n 5 a.dev r) :
    ∃ a', keep size a = .ok a' ∧ a'.events = a.events ∧ a'.log = a.log ∧ RelL size n 5 a'.dev (r.step n (.write (bytes a.log))) := by
  obtain ⟨s', h1, h2⟩ := Wear.relL_write hn (by omega) hl hr (bytes a.log) (bytes_length _)
  refine ⟨{ a with dev := s' }, ?_, rfl, rfl, h2⟩
  rw [Wear.step, Res.bind_eq_ok] at h1
  obtain ⟨x, h3, h4⟩ := h1
  rw [keep, record_eq, Res.ok_bind, h3]
  cases h4
  rfl

/-- Events that are accepted, fewer than blocks are left. -/
theorem logs_lossy (h0 : 1 < max) (hm : max < 2 ^ 31) (hn : n < 256) (hl : 5 ≤ size) (first : List Byte) (es : List (List Byte)) :
    ∀ (a : Prog) (h : List (List Byte)) (p : Nat), p + es.length < n → Inv max esize (a.events, a.log) h →
      RelL size n 5 a.dev ⟨bytes (logAfter max esize h.length), first, .healthy p⟩ →
      ∃ b, acts max esize size n a (es.map fun e => .log e 0) = .ok b ∧ Inv max esize (b.events, b.log) (h ++ es) ∧
        RelL size n 5 b.dev ⟨bytes (logAfter max esize (h.length + es.length)), first, .healthy (p + es.length)⟩ := by
  induction es with
  | nil => intro a h p _ hi hr; exact ⟨a, rfl, by rw [List.append_nil]; exact hi, hr⟩
  | cons e es ih =>
    intro a h p hp hi hr
    rw [List.length_cons] at hp
    obtain ⟨d, l, h1, h2⟩ := inv_new (by omega) hm hi e
    obtain ⟨a', g1, g2, g3, g4⟩ := keep_lossy (a := ⟨d, l, a.dev⟩) hn hl hr
    have hl' : l = logAfter max esize (h.length + 1) := by
      have := h2.log
      rw [List.length_append] at this
      exact this
    have hne : bytes l ≠ bytes (logAfter max esize h.length) := by
      rw [hl']
      intro e
      have := (bytes_same (by omega) hm h.length).1 e
      omega
    have hw : Phase.write n (.healthy p) = .healthy (p + 1) := by rw [Phase.write, if_pos (by omega)]
    rw [Lossy.step, if_neg hne] at g4
    simp only [hw] at g4
    rw [if_neg (by rw [Phase.pos]; omega)] at g4
    have hact : act max esize size n a (.log e 0) = .ok a' := by
      simp only [act, h1, if_true]
      exact g1
    obtain ⟨b, b1, b2, b3⟩ := ih a' (h ++ [e]) (p + 1) (by omega) (by rw [g2, g3]; exact h2) (by
      rw [List.length_append, List.length_singleton, ← hl']; exact g4)
    refine ⟨b, ?_, by rw [List.append_assoc] at b2; exact b2, ?_⟩
    · rw [List.map_cons, acts, hact, Res.ok_bind]; exact b1
    · rw [List.length_append, List.length_singleton] at b3
      rw [List.length_cons, show h.length + (es.length + 1) = h.length + 1 + es.length by omega,
        show p + (es.length + 1) = p + 1 + es.length by omega]
      exact b3

/-- Nothing changes any more. -/
theorem dead (hm : max < 2 ^ 31) (hn : n < 256) (hl : 5 ≤ size) (xs : List Act) :
    ∀ a : Prog, a.events.length = max → a.log = erased max esize →
      RelL size n 5 a.dev ⟨List.replicate 5 0xff, List.replicate 5 0xff, .shifted 0⟩ →
      ∃ b, acts max esize size n a xs = .ok b ∧ b.events = a.events ∧ b.log = erased max esize := by
  induction xs with
  | nil => intro a _ h _; exact ⟨a, rfl, rfl, h⟩
  | cons x xs ih =>
    intro a h1 h2 h3
    have hnew : ∀ err e, newEvent (store fun _ _ => err) a.events a.log e = (a.events, a.log, if err = 0 then -1 else err) := by
      intro err e
      rw [h2]
      exact new_erased hm h1 err e
    have hpow : ∃ dev, powerUp max esize size n a.events a.dev.1 = .ok ⟨a.events, erased max esize, dev⟩ ∧
        RelL size n 5 dev ⟨List.replicate 5 0xff, List.replicate 5 0xff, .shifted 0⟩ := by
      obtain ⟨s', e1, e2⟩ := Wear.relL_restart hn h3
      rw [Wear.step, h3.1.2.1, Res.bind_eq_ok] at e1
      obtain ⟨w, i1, i2⟩ := e1
      injection i2 with i2
      subst i2
      have e3 : RelL size n 5 (a.dev.1, w) ⟨List.replicate 5 0xff, List.replicate 5 0xff, .shifted 0⟩ := by
        simpa [Lossy.step, Phase.restart] using e2
      refine ⟨(a.dev.1, w), ?_, e3⟩
      have hread := Wear.holds_read hl e3.1
      simp only at hread
      rw [powerUp, i1, Res.ok_bind, hread]
      simp only [restore_erased, Res.ok_bind, Res.pure_eq]
    cases x with
    | log e err =>
      obtain ⟨b, b1, b2⟩ := ih a h1 h2 h3
      refine ⟨b, ?_, b2⟩
      rw [acts, act]
      simp only [hnew]
      rw [if_neg (by split <;> omega), Res.ok_bind]
      exact b1
    | cut e =>
      obtain ⟨dev, p1, p2⟩ := hpow
      obtain ⟨b, b1, b2⟩ := ih ⟨a.events, erased max esize, dev⟩ h1 rfl p2
      refine ⟨b, ?_, b2⟩
      rw [acts, act]
      simp only [hnew]
      rw [p1, Res.ok_bind]
      exact b1
    | restart =>
      obtain ⟨dev, p1, p2⟩ := hpow
      obtain ⟨b, b1, b2⟩ := ih ⟨a.events, erased max esize, dev⟩ h1 rfl p2
      exact ⟨b, by rw [acts, act, p1, Res.ok_bind]; exact b1, b2⟩

/-- **C244**, where it fails: an erased memory with several blocks; the first run logs as many events as there are blocks but two, and
power is lost. Then the log has the position 2^32 - 1, where the memory of the events ends long before: whatever happens after that,
further power losses included, no event is saved any more. -/
theorem C244_dead_wrong (h0 : 1 < max) (hm : max < 2 ^ 31) (hn1 : 1 < n) (hn : n < 256) (hl : 5 ≤ size) (events : List (List Byte))
    (he : events.length = max) (mk : BitVec 8) :
    ∃ a, start max esize size n events (List.replicate n ⟨mk, List.replicate size 0xff⟩) = .ok a ∧
      ∀ es : List (List Byte), es.length + 2 = n →
        ∃ b, acts max esize size n a (es.map fun e => .log e 0) = .ok b ∧ total b.log = min es.length max ∧
          ∀ xs, ∃ c, acts max esize size n b (.restart :: xs) = .ok c ∧ c.events = b.events ∧ c.log = erased max esize ∧
            ∀ e, newEvent (store fun _ _ => 0) c.events c.log e = (c.events, c.log, -1) := by
  have hd : Fits size n (List.replicate n (⟨mk, List.replicate size 0xff⟩ : Block)) :=
    ⟨List.length_replicate, fun b hb => by rw [List.eq_of_mem_replicate hb]; exact List.length_replicate⟩
  obtain ⟨w, e, h, hh, hc, b, hm1, hm2⟩ := Wear.rel_start 5 hd (by omega) hn mk
    (fun b hb => by rw [List.eq_of_mem_replicate hb])
  have hlast : w.last = 0 := by rw [hc]; simp
  simp only [hlast] at hm1 hm2
  have hdata : (List.replicate n (⟨mk, List.replicate size 0xff⟩ : Block))[0].data.take 5 = List.replicate 5 0xff := by
    rw [List.getElem_replicate]
    simp only [List.take_replicate]
    rw [Nat.min_eq_left hl]
  rw [hdata] at hh
  have hr : RelL size n 5 (List.replicate n (⟨mk, List.replicate size 0xff⟩ : Block), w)
      ⟨List.replicate 5 0xff, List.replicate 5 0xff, .healthy 0⟩ := ⟨hh, ⟨h, hdata⟩, hlast, b, by omega, hm1, hm2⟩
  obtain ⟨a, a1, a2, a3, a4⟩ := keep_lossy (a := ⟨events, empty max esize, (List.replicate n ⟨mk, List.replicate size 0xff⟩, w)⟩) hn hl hr
  have hb : bytes (empty max esize) = List.replicate 5 0 := by
    show Serial.Spec.image .u32le (BitVec.ofNat 32 0) ++ [0] = _
    decide
  have hw : Phase.write n (.healthy 0) = .healthy 1 := by rw [Phase.write, if_pos (by omega)]
  simp only [hb] at a4
  rw [Lossy.step, if_neg (by decide)] at a4
  simp only [hw] at a4
  rw [if_neg (by rw [Phase.pos]; omega)] at a4
  refine ⟨a, by rw [start, e, Res.ok_bind]; exact a1, fun es hes => ?_⟩
  obtain ⟨c, c1, c2, c3⟩ := logs_lossy (esize := esize) h0 hm hn hl (List.replicate 5 0xff) es a [] 1 (by omega) (by
    rw [a2, a3]; exact inv_empty esize (by omega) events he) (by
    have : bytes (logAfter max esize ([] : List (List Byte)).length) = List.replicate 5 0 := by
      rw [← hb, List.length_nil]
      exact congrArg bytes (inv_empty esize (by omega) events he).log.symm
    rw [this]; exact a4)
  refine ⟨c, c1, ?_, fun xs => ?_⟩
  · have := total_eq c2
    rw [List.nil_append] at this
    exact this
  · obtain ⟨s', e1, e2⟩ := Wear.relL_restart hn c3
    rw [Wear.step, c3.1.2.1, Res.bind_eq_ok] at e1
    obtain ⟨w', i1, i2⟩ := e1
    injection i2 with i2
    subst i2
    have e3 : RelL size n 5 (c.dev.1, w') ⟨List.replicate 5 0xff, List.replicate 5 0xff, .shifted 0⟩ := by
      have h3 : ¬ 1 + es.length + 1 < n := by omega
      have h4 : ¬ 0 = 1 + es.length := by omega
      simpa [Lossy.step, Phase.restart, Phase.pos, h3, h4] using e2
    have hread := Wear.holds_read hl e3.1
    simp only at hread
    have hpow : powerUp max esize size n c.events c.dev.1 = .ok ⟨c.events, erased max esize, (c.dev.1, w')⟩ := by
      rw [powerUp, i1, Res.ok_bind, hread]
      simp only [restore_erased, Res.ok_bind, Res.pure_eq]
    obtain ⟨f, f1, f2, f3⟩ := dead hm hn hl xs ⟨c.events, erased max esize, (c.dev.1, w')⟩ c2.len rfl e3
    refine ⟨f, by rw [acts, act, hpow, Res.ok_bind]; exact f1, f2, f3, fun e => ?_⟩
    have hlen : f.events.length = max := by rw [f2]; exact c2.len
    rw [f3]
    exact new_erased hm hlen 0 e

/-! ## The first power loss, exactly -/

namespace Spec

/-- What block 0 holds when `c` events have been logged without a power loss: the record that was written last to it, if any. -/
def block0 (max esize n c : Nat) : List Byte :=
  if c + 1 < n then List.replicate 5 0xff else bytes (logAfter max esize ((c + 1) / n * n - 1))

/-- The log after the first power loss. -/
def afterLoss (max esize n c : Nat) : Log :=
  if (c + 2) % n ≠ 0 then logAfter max esize c
  else if c + 1 < n then erased max esize else logAfter max esize ((c + 1) / n * n - 1)

end Spec

theorem block0_next (hn1 : 1 < n) (c : Nat) :
    Spec.block0 max esize n (c + 1) = if (c + 2) % n = 0 then bytes (logAfter max esize (c + 1)) else Spec.block0 max esize n c := by
  have hd : (c + 1 + 1) / n = (c + 1) / n + if n ∣ c + 1 + 1 then 1 else 0 := Nat.succ_div
  simp only [Spec.block0]
  by_cases h : (c + 2) % n = 0
  · have hdv : n ∣ c + 2 := Nat.dvd_of_mod_eq_zero h
    have hle := Nat.le_of_dvd (by omega) hdv
    rw [if_pos h, if_neg (by omega), show (c + 1 + 1) / n * n = c + 2 from Nat.div_mul_cancel hdv]
    rfl
  · have hdv : ¬ n ∣ c + 2 := fun hh => h (Nat.mod_eq_zero_of_dvd hh)
    have hne : c + 2 ≠ n := fun hh => hdv (by rw [hh])
    rw [if_neg h, hd, if_neg hdv]
    simp only [Nat.add_zero]
    by_cases h1 : c + 1 < n
    · rw [if_pos h1, if_pos (by omega)]
    · rw [if_neg h1, if_neg (by omega)]

theorem mod_succ_write (hn1 : 1 < n) (c : Nat) : Phase.write n (.healthy ((c + 1) % n)) = .healthy ((c + 2) % n) := by
  have hlt := Nat.mod_lt (c + 1) (show 0 < n by omega)
  rw [Phase.write]
  have h := Nat.mod_add_mod (c + 1) n 1
  by_cases hc : (c + 1) % n + 1 < n
  · rw [if_pos hc, ← show ((c + 1) % n + 1) % n = (c + 2) % n from h, Nat.mod_eq_of_lt hc]
  · rw [if_neg hc, ← show ((c + 1) % n + 1) % n = (c + 2) % n from h, show (c + 1) % n + 1 = n by omega, Nat.mod_self]

theorem logs_exact (h0 : 1 < max) (hm : max < 2 ^ 31) (hn1 : 1 < n) (hn : n < 256) (hl : 5 ≤ size) (es : List (List Byte)) :
    ∀ (a : Prog) (h : List (List Byte)), Inv max esize (a.events, a.log) h →
      RelL size n 5 a.dev ⟨bytes (logAfter max esize h.length), Spec.block0 max esize n h.length, .healthy ((h.length + 1) % n)⟩ →
      ∃ b, acts max esize size n a (es.map fun e => .log e 0) = .ok b ∧ Inv max esize (b.events, b.log) (h ++ es) ∧
        RelL size n 5 b.dev ⟨bytes (logAfter max esize (h ++ es).length), Spec.block0 max esize n (h ++ es).length,
          .healthy (((h ++ es).length + 1) % n)⟩ := by
  induction es with
  | nil => intro a h hi hr; exact ⟨a, rfl, by rw [List.append_nil]; exact hi, by rw [List.append_nil]; exact hr⟩
  | cons e es ih =>
    intro a h hi hr
    obtain ⟨d, l, h1, h2⟩ := inv_new (by omega) hm hi e
    obtain ⟨a', g1, g2, g3, g4⟩ := keep_lossy (a := ⟨d, l, a.dev⟩) hn hl hr
    have hl' : l = logAfter max esize (h.length + 1) := by
      have := h2.log
      rw [List.length_append] at this
      exact this
    have hne : bytes l ≠ bytes (logAfter max esize h.length) := by
      rw [hl']
      intro e
      have := (bytes_same (by omega) hm h.length).1 e
      omega
    rw [Lossy.step, if_neg hne] at g4
    simp only [mod_succ_write hn1] at g4
    have hact : act max esize size n a (.log e 0) = .ok a' := by
      simp only [act, h1, if_true]
      exact g1
    obtain ⟨b, b1, b2, b3⟩ := ih a' (h ++ [e]) (by rw [g2, g3]; exact h2) (by
      rw [List.length_append, List.length_singleton, block0_next hn1, ← hl']; exact g4)
    rw [List.append_assoc] at b2 b3
    exact ⟨b, by rw [List.map_cons, acts, hact, Res.ok_bind]; exact b1, b2, b3⟩

theorem restart_data (hn1 : 1 < n) (d f : List Byte) (p : Nat) :
    (Lossy.step n ⟨d, f, .healthy p⟩ .restart).data = if p + 1 < n then d else f := by
  by_cases h : p + 1 < n
  · simp [Lossy.step, Phase.restart, h]
  · have : ¬ 0 = p := by omega
    simp [Lossy.step, Phase.restart, Phase.pos, h, this]

theorem start_exact (h0 : 1 < max) (hn1 : 1 < n) (hn : n < 256) (hl : 5 ≤ size) (events : List (List Byte))
    (he : events.length = max) (mk : BitVec 8) :
    ∃ a, start max esize size n events (List.replicate n ⟨mk, List.replicate size 0xff⟩) = .ok a ∧
      Inv max esize (a.events, a.log) [] ∧ RelL size n 5 a.dev ⟨bytes (logAfter max esize 0), List.replicate 5 0xff, .healthy 1⟩ := by
  have hd : Fits size n (List.replicate n (⟨mk, List.replicate size 0xff⟩ : Block)) :=
    ⟨List.length_replicate, fun b hb => by rw [List.eq_of_mem_replicate hb]; exact List.length_replicate⟩
  obtain ⟨w, e, h, hh, hc, b, hm1, hm2⟩ := Wear.rel_start 5 hd (by omega) hn mk
    (fun b hb => by rw [List.eq_of_mem_replicate hb])
  have hlast : w.last = 0 := by rw [hc]; simp
  simp only [hlast] at hm1 hm2
  have hdata : (List.replicate n (⟨mk, List.replicate size 0xff⟩ : Block))[0].data.take 5 = List.replicate 5 0xff := by
    rw [List.getElem_replicate]
    simp only [List.take_replicate]
    rw [Nat.min_eq_left hl]
  rw [hdata] at hh
  have hr : RelL size n 5 (List.replicate n (⟨mk, List.replicate size 0xff⟩ : Block), w)
      ⟨List.replicate 5 0xff, List.replicate 5 0xff, .healthy 0⟩ := ⟨hh, ⟨h, hdata⟩, hlast, b, by omega, hm1, hm2⟩
  obtain ⟨a, a1, a2, a3, a4⟩ := keep_lossy (a := ⟨events, empty max esize, (List.replicate n ⟨mk, List.replicate size 0xff⟩, w)⟩) hn hl hr
  have hb : bytes (empty max esize) = List.replicate 5 0 := by
    show Serial.Spec.image .u32le (BitVec.ofNat 32 0) ++ [0] = _
    decide
  have hw : Phase.write n (.healthy 0) = .healthy 1 := by rw [Phase.write, if_pos (by omega)]
  simp only [hb] at a4
  rw [Lossy.step, if_neg (by decide)] at a4
  simp only [hw] at a4
  rw [if_neg (by rw [Phase.pos]; omega)] at a4
  refine ⟨a, by rw [start, e, Res.ok_bind]; exact a1, by rw [a2, a3]; exact inv_empty esize (by omega) events he, ?_⟩
  have : bytes (logAfter max esize 0) = List.replicate 5 0 := by
    rw [← hb]
    exact congrArg bytes (inv_empty esize (by omega) events he).log.symm
  rw [this]; exact a4

/-- **C244**, exactly: the log after the first power loss, for every number of events logged before. It is lost if and only if the last
block was in use; then the record is that of block 0, the erased bytes or an earlier record. -/
theorem C244_exact (h0 : 1 < max) (hm : max < 2 ^ 31) (hn1 : 1 < n) (hn : n < 256) (hl : 5 ≤ size) (events : List (List Byte))
    (he : events.length = max) (mk : BitVec 8) :
    ∃ a, start max esize size n events (List.replicate n ⟨mk, List.replicate size 0xff⟩) = .ok a ∧
      ∀ es : List (List Byte), ∃ b, acts max esize size n a (es.map fun e => .log e 0) = .ok b ∧
        Inv max esize (b.events, b.log) es ∧
        ∃ c, acts max esize size n b [.restart] = .ok c ∧ c.events = b.events ∧ c.log = Spec.afterLoss max esize n es.length := by
  obtain ⟨a, a1, a2, a3⟩ := start_exact (esize := esize) h0 hn1 hn hl events he mk
  refine ⟨a, a1, fun es => ?_⟩
  obtain ⟨b, b1, b2, b3⟩ := logs_exact h0 hm hn1 hn hl es a [] a2 (by
    simp only [List.length_nil, Spec.block0, Nat.zero_add]
    rw [if_pos hn1, Nat.mod_eq_of_lt hn1]
    exact a3)
  rw [List.nil_append] at b2 b3
  refine ⟨b, b1, b2, ?_⟩
  obtain ⟨s', e1, e2⟩ := Wear.relL_restart hn b3
  rw [Wear.step, b3.1.2.1, Res.bind_eq_ok] at e1
  obtain ⟨w', i1, i2⟩ := e1
  injection i2 with i2
  subst i2
  have hread := Wear.holds_read hl e2.1
  simp only at hread
  have hlt := Nat.mod_lt (es.length + 1) (show 0 < n by omega)
  have hmod := Nat.mod_add_mod (es.length + 1) n 1
  have hres : restore max esize ((Lossy.step n ⟨bytes (logAfter max esize es.length), Spec.block0 max esize n es.length,
      .healthy ((es.length + 1) % n)⟩ .restart).data) = .ok (Spec.afterLoss max esize n es.length) := by
    rw [restart_data hn1, Spec.afterLoss]
    by_cases hc : (es.length + 1) % n + 1 < n
    · have h2 : (es.length + 2) % n ≠ 0 := by
        rw [← show ((es.length + 1) % n + 1) % n = (es.length + 2) % n from hmod, Nat.mod_eq_of_lt hc]; omega
      rw [if_pos hc, if_pos h2]
      exact restore_eq _ (after_lt (by omega) hm _)
    · have h2 : (es.length + 2) % n = 0 := by
        rw [← show ((es.length + 1) % n + 1) % n = (es.length + 2) % n from hmod, show (es.length + 1) % n + 1 = n by omega, Nat.mod_self]
      rw [if_neg hc, if_neg (by simpa using h2), Spec.block0]
      by_cases h3 : es.length + 1 < n
      · rw [if_pos h3, if_pos h3]; exact restore_erased
      · rw [if_neg h3, if_neg h3]
        exact restore_eq _ (after_lt (by omega) hm _)
  refine ⟨⟨b.events, Spec.afterLoss max esize n es.length, (b.dev.1, w')⟩, ?_, rfl, rfl⟩
  rw [acts, act, powerUp, i1, Res.ok_bind, hread]
  simp only [hres, Res.ok_bind, Res.pure_eq]
  rfl

/-- **C244**, where it fails later: power is lost while the last block is in use, `g = n - 1` events after block 0 was written; the log
was full at that time already, and has room for as many. Then a load of all events shows the newest `g` as the oldest ones, before
the others. -/
theorem C244_back_wrong (h0 : 1 < max) (hm : max < 2 ^ 31) (hn1 : 1 < n) (hn : n < 256) (hl : 5 ≤ size) (events : List (List Byte))
    (he : events.length = max) (mk : BitVec 8) :
    ∃ a, start max esize size n events (List.replicate n ⟨mk, List.replicate size 0xff⟩) = .ok a ∧
      ∀ hs gs : List (List Byte), gs.length + 1 = n → n ∣ hs.length + 1 → max ≤ hs.length → gs.length ≤ max →
        (∀ e ∈ hs ++ gs, e.length = esize) →
        ∃ c, acts max esize size n a ((hs ++ gs).map (fun e => .log e 0) ++ [.restart]) = .ok c ∧
          ∀ (buf : List Byte) (refuse : Nat → List Byte → Int), buf.length = max * esize → buf.length < 2 ^ 64 →
            loadLast (store refuse) c.events c.log buf max 0 = .ok (max, (gs ++ hs.drop (hs.length - max + gs.length)).flatten) := by
  obtain ⟨a, a1, a2⟩ := C244_exact (esize := esize) h0 hm hn1 hn hl events he mk
  refine ⟨a, a1, fun hs gs hg hd hf hgm hsz => ?_⟩
  obtain ⟨b, b1, b2, c, c1, c2, c3⟩ := a2 (hs ++ gs)
  refine ⟨c, by rw [acts_append, b1]; exact c1, fun buf refuse hb hb2 => ?_⟩
  have hlen : (hs ++ gs).length = hs.length + gs.length := List.length_append
  have hlog : c.log = logAfter max esize hs.length := by
    obtain ⟨k, hk⟩ := hd
    have e1 : (hs ++ gs).length + 1 = n * k + gs.length := by omega
    have e2 : (hs ++ gs).length + 2 = n * (k + 1) := by rw [Nat.mul_add]; omega
    have hk0 : k ≠ 0 := by rintro rfl; omega
    have hkn : n ≤ n * k := Nat.le_mul_of_pos_right n (by omega)
    rw [c3, Spec.afterLoss, e2, if_neg (by simp), if_neg (by omega), e1, Nat.mul_add_div (by omega), Nat.div_eq_of_lt (by omega),
      Nat.add_zero, Nat.mul_comm k n, ← hk]
    rfl
  -- the events as they stand in the memory, with the count of block 0
  have hinv : Inv max esize (c.events, c.log) (hs.take (hs.length - max) ++ (gs ++ hs.drop (hs.length - max + gs.length))) := by
    have hl2 : (hs.take (hs.length - max) ++ (gs ++ hs.drop (hs.length - max + gs.length))).length = hs.length := by
      simp only [List.length_append, List.length_take, List.length_drop]; omega
    refine ⟨by rw [c2]; exact b2.len, by rw [hlog]; rfl, by rw [hlog]; rfl, by rw [hl2, hlog]; rfl, by rw [hl2, hlog]; rfl, ?_⟩
    intro j hj1 hj2
    rw [hl2] at hj1 hj2
    have ht : (hs.take (hs.length - max)).length = hs.length - max := by rw [List.length_take]; omega
    rw [List.getElem?_append_right (by rw [ht]; omega), ht]
    simp only [c2]
    by_cases hc : j - (hs.length - max) < gs.length
    · rw [List.getElem?_append_left hc]
      have := b2.slot (j + max) (by omega) (by omega)
      rw [Nat.add_mod_right] at this
      rw [this, List.getElem?_append_right (by omega)]
      congr 1; omega
    · rw [List.getElem?_append_right (by omega), List.getElem?_drop]
      have := b2.slot j (by omega) (by omega)
      rw [this, List.getElem?_append_left hj1]
      congr 1; omega
  have hl2 : (hs.take (hs.length - max) ++ (gs ++ hs.drop (hs.length - max + gs.length))).length = hs.length := by
    simp only [List.length_append, List.length_take, List.length_drop]; omega
  have hwin : window (hs.take (hs.length - max) ++ (gs ++ hs.drop (hs.length - max + gs.length))) max max 0 =
      gs ++ hs.drop (hs.length - max + gs.length) := by
    have ht : (hs.take (hs.length - max)).length = hs.length - max := by rw [List.length_take]; omega
    have hg2 : (gs ++ hs.drop (hs.length - max + gs.length)).length = max := by
      simp only [List.length_append, List.length_drop]; omega
    rw [window, hl2, List.drop_left' ht, Nat.sub_zero, List.take_length, hg2, Nat.sub_self, List.drop_zero]
  have hg2 : (gs ++ hs.drop (hs.length - max + gs.length)).length = max := by
    simp only [List.length_append, List.length_drop]; omega
  have := load_inv hinv (by omega) hm (by
    intro e he
    refine hsz e ?_
    rw [List.mem_append, List.mem_append] at he
    rw [List.mem_append]
    rcases he with he | he | he
    · exact .inl (List.mem_of_mem_take he)
    · exact .inr he
    · exact .inl (List.mem_of_mem_drop he)) max 0 (by omega) buf hb2 (by rw [hwin, hg2, hb]) refuse
  rw [this, hwin, hg2, List.drop_of_length_le (le_of_eq hb), List.append_nil]

end

/-! ## Example: three blocks, a log of two events; one event and a power loss, and nothing is saved any more -/

example : (do
    let a ← start 2 1 5 3 [[9], [9]] (List.replicate 3 ⟨0xff, List.replicate 5 0xff⟩)
    let b ← acts 2 1 5 3 a [.log [1] 0, .restart, .log [2] 0, .restart, .log [3] 0]
    pure (b.events, b.log.next)) = .ok ([[1], [9]], 4294967295) := by decide +kernel

-- two blocks, a log of two events: the fourth event is shown before the third
example : (do
    let a ← start 2 1 5 2 [[9], [9]] (List.replicate 2 ⟨0xff, List.replicate 5 0xff⟩)
    let b ← acts 2 1 5 2 a [.log [1] 0, .log [2] 0, .log [3] 0, .log [4] 0, .restart]
    loadLast (store fun _ _ => 0) b.events b.log [0, 0] 2 0) = .ok (2, [4, 3]) := by decide +kernel

end Gel.Combined.Journal
