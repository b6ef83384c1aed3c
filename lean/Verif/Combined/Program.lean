import Verif.Scheduler.Exact
import Verif.Wear.Props

/-!
# A schedule kept in a wear leveled memory: property C192

The application saves the entries of a scheduler one behind the other in a record of 11 bytes each, writes the record with
`wearleveling_write`, and after power-up reads it and sets the entries.
-/
namespace Gel.Combined
open Scheduler

/-- The loop that serializes the entries, `p += scheduler_entry_serialize(p, e)` (scheduler.c:247-257). -/
def save : Serial.Mem → List Entry → Res Serial.Mem
  | buf, [] => .ok buf
  | buf, e :: es => do
    let r ← serialize buf e
    let rest ← save (r.1.drop r.2) es
    pure (r.1.take r.2 ++ rest)

/-- The loop that deserializes `k` entries from the `i`-th on and sets them (scheduler.c:260-272, 60-67). -/
def load (buf : Serial.Mem) : Sched → Nat → Nat → Res Sched
  | s, 0, _ => .ok s
  | s, k + 1, i => do
    let r ← deserialize (buf.drop (11 * i))
    let t ← setEntry s i r.1
    load buf t.1 k (i + 1)

/-- What the application does: it saves a table of entries, or loses power. -/
inductive Step where
  | save (es : List Entry)
  | restart

namespace Spec

/-- An entry after it was serialized: the value has 8 bits. -/
def cut (e : Entry) : Entry := { e with value := (e.value.setWidth 8).setWidth 32 }

/-- The table saved last and how often it changed. -/
def last : List Step → List Entry → Nat → List Entry × Nat
  | [], es, k => (es, k)
  | .restart :: l, es, k => last l es k
  | .save fs :: l, es, k => if fs.map cut = es.map cut then last l es k else last l fs (k + 1)

/-- Power is not lost while the last of several blocks is in use (C44). -/
def Safe (n : Nat) : List Step → List Entry → Nat → Prop
  | [], _, _ => True
  | .restart :: l, es, k => (n = 1 ∨ (k + 1) % n ≠ 0) ∧ Safe n l es k
  | .save fs :: l, es, k => if fs.map cut = es.map cut then Safe n l es k else Safe n l fs (k + 1)

end Spec

/-- The 11 bytes of an entry (C139). -/
def bytes (e : Entry) : List (BitVec 8) :=
  [e.enabled, e.days,
    BitVec.ofNat 8 e.start.toNat, BitVec.ofNat 8 (e.start.toNat / 256), BitVec.ofNat 8 (e.start.toNat / 65536),
    BitVec.ofNat 8 (e.start.toNat / 16777216),
    BitVec.ofNat 8 e.stop.toNat, BitVec.ofNat 8 (e.stop.toNat / 256), BitVec.ofNat 8 (e.stop.toNat / 65536),
    BitVec.ofNat 8 (e.stop.toNat / 16777216), BitVec.ofInt 8 e.value.toInt]

theorem bytes_length (e : Entry) : (bytes e).length = 11 := rfl

theorem flat_length (es : List Entry) : (es.flatMap bytes).length = 11 * es.length := by
  induction es with
  | nil => rfl
  | cons e es ih => rw [List.flatMap_cons, List.length_append, ih, bytes_length, List.length_cons]; omega

theorem save_eq (es : List Entry) : ∀ buf : Serial.Mem, buf.length = 11 * es.length → save buf es = .ok (es.flatMap bytes) := by
  induction es with
  | nil => intro buf h; rw [save, show buf = [] from List.eq_nil_of_length_eq_zero h]; rfl
  | cons e es ih =>
    intro buf h
    rw [List.length_cons] at h
    have hs : serialize buf e = .ok (bytes e ++ buf.drop 11, 11) := C139_layout buf e (by omega)
    rw [save, hs, Res.ok_bind]
    simp only
    rw [show (bytes e ++ buf.drop 11).drop 11 = buf.drop 11 from rfl, ih _ (by rw [List.length_drop]; omega), Res.ok_bind]
    rfl

theorem deserialize_bytes (e : Entry) (r : List (BitVec 8)) : deserialize (bytes e ++ r) = .ok (Spec.cut e, 11) := by
  have hl : 11 ≤ (bytes e ++ r).length := by rw [List.length_append, bytes_length]; omega
  obtain ⟨b, h1, -, x, h2, h3, -⟩ := C83_exact (bytes e ++ r) e hl
  have hs : serialize (bytes e ++ r) e = .ok (bytes e ++ r, 11) := C139_layout _ e hl
  rw [hs] at h1
  injection h1 with h1
  injection h1 with h1
  rw [h1, h2, h3]; rfl

theorem flat_drop (es : List Entry) : ∀ i, (es.flatMap bytes).drop (11 * i) = (es.drop i).flatMap bytes := by
  induction es with
  | nil => intro i; simp
  | cons e es ih =>
    intro i
    cases i with
    | zero => rfl
    | succ i =>
      rw [List.drop_succ_cons, ← ih i, List.flatMap_cons, show 11 * (i + 1) = (bytes e).length + 11 * i by rw [bytes_length]; omega,
        List.drop_length_add_append]

theorem load_eq (es : List Entry) : ∀ (k i : Nat) (s : Sched), i + k = es.length → s.length = es.length →
    s.take i = (es.map Spec.cut).take i → load (es.flatMap bytes) s k i = .ok (es.map Spec.cut) := by
  intro k
  induction k with
  | zero =>
    intro i s hi hs ht
    rw [load]
    rw [List.take_of_length_le (by omega), List.take_of_length_le (by rw [List.length_map]; omega)] at ht
    rw [ht]
  | succ k ih =>
    intro i s hi hs ht
    have hlt : i < es.length := by omega
    rw [load, flat_drop, List.drop_eq_getElem_cons hlt, List.flatMap_cons, deserialize_bytes, Res.ok_bind]
    simp only
    rw [setEntry, if_neg (by omega), wr, if_pos (by omega), Res.ok_bind]
    simp only [Res.pure_eq, Res.ok_bind]
    refine ih (i + 1) _ (by omega) (by rw [List.length_set]; exact hs) ?_
    rw [List.take_succ_eq_append_getElem (by rw [List.length_set]; omega), List.take_succ_eq_append_getElem (by rw [List.length_map]; omega)]
    rw [List.take_set_of_le (le_refl i), ht]
    simp

/-- **C192.** The record of a table: it is written whatever the buffer held, and an entry read back has the value reduced to 8 bits; the
table read back is the one that was saved just when all values are from 0 to 255. -/
theorem C192_record (buf : Serial.Mem) (es : List Entry) (s : Sched) (hb : buf.length = 11 * es.length) (hs : s.length = es.length) :
    ∃ r, save buf es = .ok r ∧ r.length = 11 * es.length ∧ load r s es.length 0 = .ok (es.map Spec.cut) ∧
      (es.map Spec.cut = es ↔ ∀ e ∈ es, 0 ≤ e.value.toInt ∧ e.value.toInt < 256) := by
  refine ⟨_, save_eq es buf hb, flat_length es, load_eq es _ 0 s (by omega) hs (by simp), ?_⟩
  have key : ∀ e : Entry, Spec.cut e = e ↔ 0 ≤ e.value.toInt ∧ e.value.toInt < 256 := by
    intro e
    obtain ⟨b, -, -, x, -, h3, h4⟩ := C83_exact (List.replicate 11 0) e (by simp)
    rw [← h4, h3]; rfl
  constructor
  · intro h e he
    rw [← key]
    have := List.map_inj_left.1 (h.trans (List.map_id es).symm) e he
    exact this
  · intro h
    rw [List.map_congr_left (g := id) (fun e he => (key e).2 (h e he)), List.map_id]

/-! ## Histories -/

/-- One step: the table is serialized into the buffer `buf` and written; or power is lost and `wearleveling_init` run again. -/
def stepT (size n : Nat) (buf : Serial.Mem) (s : List Wear.Spec.Block × Wear.Wlm) : Step → Res (List Wear.Spec.Block × Wear.Wlm)
  | .save es => do
    let r ← save buf es
    let x ← Wear.write (Wear.Spec.flash size) s.1 s.2 r
    pure (x.1, x.2.1)
  | .restart => do
    let w ← Wear.init (Wear.Spec.flash size) s.1 n
    pure (s.1, w)

def runT (size n : Nat) (buf : Serial.Mem) : List Wear.Spec.Block × Wear.Wlm → List Step → Res (List Wear.Spec.Block × Wear.Wlm)
  | s, [] => .ok s
  | s, o :: os => do
    let s ← stepT size n buf s o
    runT size n buf s os

/-- What the application shows: the table loaded from the record. -/
def shown (size : Nat) (s : List Wear.Spec.Block × Wear.Wlm) (t : Sched) : Res Sched :=
  load (Wear.read (Wear.Spec.flash size) s.1 s.2 (11 * t.length)).2 t t.length 0

theorem bytes_cut (e : Entry) : bytes (Spec.cut e) = bytes e := by
  obtain ⟨x, h1, -, -, h2⟩ := C139_canonical (bytes e) (by rw [bytes_length])
  have h3 := deserialize_bytes e []
  rw [List.append_nil, h1] at h3
  injection h3 with h3
  injection h3 with h3
  have hs : serialize (bytes e) x = .ok (bytes x ++ (bytes e).drop 11, 11) := C139_layout _ x (by rw [bytes_length])
  rw [h2] at hs
  injection hs with hs
  injection hs with hs
  rw [← h3]
  exact hs.symm

theorem flat_inj (es fs : List Entry) (h : fs.length = es.length) :
    fs.flatMap bytes = es.flatMap bytes ↔ fs.map Spec.cut = es.map Spec.cut := by
  constructor
  · intro he
    have h1 := load_eq es es.length 0 es (by omega) rfl (by simp)
    have h2 := load_eq fs es.length 0 es (by omega) h.symm (by simp)
    rw [he, h1] at h2
    exact (Res.ok.inj h2).symm
  · intro he
    have h1 : ∀ l : List Entry, l.flatMap bytes = (l.map Spec.cut).flatMap bytes := by
      intro l
      rw [List.flatMap_map]
      exact congrArg (fun f => l.flatMap f) (funext fun e => (bytes_cut e).symm)
    rw [h1 fs, h1 es, he]

theorem run_rel {size n N : Nat} (hn0 : 0 < n) (hn : n < 256) (hN : 0 < N) (hl : 11 * N ≤ size) (buf : Serial.Mem)
    (hb : buf.length = 11 * N) (l : List Step) :
    ∀ (s : List Wear.Spec.Block × Wear.Wlm) (es : List Entry) (k : Nat), es.length = N → (∀ fs, Step.save fs ∈ l → fs.length = N) →
      Wear.Rel size n (11 * N) s ⟨es.flatMap bytes, k⟩ → Spec.Safe n l es k →
      ∃ s', runT size n buf s l = .ok s' ∧ (Spec.last l es k).1.length = N ∧
        Wear.Rel size n (11 * N) s' ⟨(Spec.last l es k).1.flatMap bytes, (Spec.last l es k).2⟩ := by
  induction l with
  | nil => intro s es k he _ hr _; exact ⟨s, rfl, he, hr⟩
  | cons o l ih =>
    intro s es k he hfs hr hs
    cases o with
    | restart =>
      have h1 := Wear.rel_restart hn0 hn hr hs.1
      have h2 : stepT size n buf s .restart = .ok s := by
        rw [← h1, Wear.step, hr.1.2.1]; rfl
      rw [runT, h2, Res.ok_bind]
      exact ih s es k he (fun fs hf => hfs fs (List.mem_cons_of_mem _ hf)) hr hs.2
    | save fs =>
      have hlf := hfs fs List.mem_cons_self
      obtain ⟨d, w, h1, h2⟩ := Wear.rel_write hn0 hn (by omega) hl hr (fs.flatMap bytes) (by rw [flat_length, hlf])
      have h3 : stepT size n buf s (.save fs) = .ok (d, w) := by
        rw [stepT, save_eq fs buf (by rw [hb, hlf]), Res.ok_bind, h1]; rfl
      rw [runT, h3, Res.ok_bind]
      rw [Wear.Spec.Ideal.write] at h2
      rw [Spec.Safe] at hs
      rw [Spec.last]
      by_cases hc : fs.map Spec.cut = es.map Spec.cut
      · rw [if_pos ((flat_inj es fs (by omega)).2 hc)] at h2
        rw [if_pos hc] at hs ⊢
        exact ih _ es k he (fun fs hf => hfs fs (List.mem_cons_of_mem _ hf)) h2 hs
      · rw [if_neg (fun h => hc ((flat_inj es fs (by omega)).1 h))] at h2
        rw [if_neg hc] at hs ⊢
        exact ih _ fs (k + 1) hlf (fun fs hf => hfs fs (List.mem_cons_of_mem _ hf)) h2 hs

/-- **C192.** A history of saves and power losses from a fresh memory, beginning with a save: as long as power is not lost while the last of
several blocks is in use, the application shows the table saved last. `k` is 0 or 1: whether the first save changed the memory. -/
theorem C192_history (size n N : Nat) (d : List Wear.Spec.Block) (hd : Wear.Spec.Fits size n d) (hn0 : 0 < n) (hn : n < 256) (hN : 0 < N)
    (hl : 11 * N ≤ size) (mk : BitVec 8) (hm : ∀ b ∈ d, b.marker = mk) (buf : Serial.Mem) (hb : buf.length = 11 * N) (es : List Entry)
    (he : es.length = N) (l : List Step) (hfs : ∀ fs, Step.save fs ∈ l → fs.length = N) (t : Sched) (ht : t.length = N) :
    ∃ w k, Wear.init (Wear.Spec.flash size) d n = .ok w ∧ k ≤ 1 ∧ (Spec.Safe n l es k →
      ∃ s, runT size n buf (d, w) (.save es :: l) = .ok s ∧ shown size s t = .ok ((Spec.last l es k).1.map Spec.cut)) := by
  obtain ⟨w, e, h, hr⟩ := Wear.rel_start (11 * N) hd hn0 hn mk hm
  obtain ⟨d', w', h1, h2⟩ := Wear.rel_write hn0 hn (by omega) hl hr (es.flatMap bytes) (by rw [flat_length, he])
  have h3 : stepT size n buf (d, w) (.save es) = .ok (d', w') := by
    rw [stepT, save_eq es buf (by rw [hb, he]), Res.ok_bind, h1]; rfl
  have key : ∃ k, k ≤ 1 ∧ Wear.Rel size n (11 * N) (d', w') ⟨es.flatMap bytes, k⟩ := by
    rw [Wear.Spec.Ideal.write] at h2
    split at h2
    · rename_i heq
      exact ⟨0, by omega, by rw [heq]; exact h2⟩
    · exact ⟨1, le_refl _, h2⟩
  obtain ⟨k, hk, hrel⟩ := key
  refine ⟨w, k, e, hk, ?_⟩
  intro hs
  obtain ⟨s, h4, h5, h6⟩ := run_rel hn0 hn hN hl buf hb l (d', w') es k he hfs hrel hs
  refine ⟨s, by rw [runT, h3, Res.ok_bind]; exact h4, ?_⟩
  rw [shown, ht, Wear.holds_read hl h6.1]
  simp only
  have := load_eq (Spec.last l es k).1 N 0 t (by omega) (by omega) (by simp)
  exact this

/-- **C192.** What a table shows does not depend on the values that were cut: whether the scheduler is active, which entries are, and how many
overlap a given one. -/
theorem C192_activity (L : Nat) (es : List Entry) (tm : Tm) (e : Entry) :
    isSchedActive L (es.map Spec.cut) tm = isSchedActive L es tm ∧
    (es.map Spec.cut).map (fun x => isActive x tm) = es.map (fun x => isActive x tm) ∧
    overlapping (es.map Spec.cut) e = overlapping es e := by
  refine ⟨?_, ?_, ?_⟩
  · have hc : ∀ x, Cand tm (Spec.cut x) ↔ Cand tm x := fun x => Iff.rfl
    rw [isSchedActive, isSchedActive, decide_eq_decide]
    rcases active_cases L es tm with ⟨h1, h2⟩ | ⟨j, a, h1, h2, h3⟩ <;>
      rcases active_cases L (es.map Spec.cut) tm with ⟨g1, g2⟩ | ⟨i, b, g1, g2, g3⟩
    · rw [h1, g1]
    · exfalso
      obtain ⟨x, hx, rfl⟩ := List.mem_map.1 (List.mem_of_getElem? g2)
      exact h2 x hx ((hc x).1 g3)
    · exact absurd ((hc a).2 h3) (g2 _ (List.mem_map_of_mem (List.mem_of_getElem? h2)))
    · rw [h1, g1]; simp
  · rw [List.map_map]; rfl
  · rw [overlapping, overlapping, List.map_map]; rfl

/-- Two programs, the second with the value 300, saved in three blocks, power lost: 300 became 44. -/
example : (do
    let w ← Wear.init (Wear.Spec.flash 22) (List.replicate 3 ⟨0xff, List.replicate 22 0xff⟩) 3
    let s ← runT 22 3 (List.replicate 22 0) (List.replicate 3 ⟨0xff, List.replicate 22 0xff⟩, w)
      [.save [⟨1, 127, 3600, 7200, 20⟩, ⟨1, 3, 0, 60, 300⟩], .restart]
    shown 22 s (Scheduler.init 2)) = .ok [⟨1, 127, 3600, 7200, 20⟩, ⟨1, 3, 0, 60, 44⟩] := by
  decide +kernel

end Gel.Combined
