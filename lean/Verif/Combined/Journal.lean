import Verif.EventLog.Isr
import Verif.Wear.Props
import Verif.Serial.Props

/-!
# An event log that survives power losses (C230)

A program whose events are saved by `save_new_event` to a memory that keeps them without power. `next_position` and `full_circle` are in
RAM; the program writes them, serialized, with `wearleveling_write` after every event that was accepted, and sets them from what
`wearleveling_read` gives at power-up. Power may be lost between the two.
-/
namespace Gel.Combined.Journal
open EventLog EventLog.Spec

/-- The record: `serialize_uint32_le` and `serialize_uint8` (serializer.h:70-76, 57-60) of position and flag. -/
def record (l : Log) : Res Serial.Mem := do
  let r ← Serial.serializeU32Le (List.replicate 5 0) 0 (BitVec.ofNat 32 l.next)
  let s ← Serial.serializeU8 r.1 (0 + r.2) (if l.full then 1 else 0)
  pure s.1

/-- The structure made from the record. -/
def restore (max esize : Nat) (buf : Serial.Mem) : Res Log := do
  let r ← Serial.deserializeU32Le buf 0
  let s ← Serial.deserializeU8 buf (0 + r.2)
  pure ⟨r.1.toNat, max, esize, s.1 ≠ 0⟩

/-- The program: the memory of the events, the structure, and the memory of the record. -/
structure Prog where
  events : List (List Byte)
  log : Log
  dev : List Wear.Spec.Block × Wear.Wlm

/-- What happens: an event is logged (the memory refuses it with `err` unless that is 0) and the record written; power is lost after the
event was saved and before the record is written; power is lost between events. -/
inductive Act where
  | log (e : List Byte) (err : Int)
  | cut (e : List Byte)
  | restart

/-- Power-up. -/
def powerUp (max esize size n : Nat) (events : List (List Byte)) (d : List Wear.Spec.Block) : Res Prog := do
  let w ← Wear.init (Wear.Spec.flash size) d n
  let l ← restore max esize (Wear.read (Wear.Spec.flash size) d w 5).2
  pure ⟨events, l, (d, w)⟩

/-- The record is written. -/
def keep (size : Nat) (a : Prog) : Res Prog := do
  let r ← record a.log
  let x ← Wear.write (Wear.Spec.flash size) a.dev.1 a.dev.2 r
  pure { a with dev := (x.1, x.2.1) }

/-- The first start: an empty log. -/
def start (max esize size n : Nat) (events : List (List Byte)) (d : List Wear.Spec.Block) : Res Prog := do
  let w ← Wear.init (Wear.Spec.flash size) d n
  keep size ⟨events, empty max esize, (d, w)⟩

def act (max esize size n : Nat) (a : Prog) : Act → Res Prog
  | .log e err =>
    let r := newEvent (store fun _ _ => err) a.events a.log e
    if r.2.2 = 0 then keep size ⟨r.1, r.2.1, a.dev⟩ else .ok ⟨r.1, r.2.1, a.dev⟩
  | .cut e => powerUp max esize size n (newEvent (store fun _ _ => 0) a.events a.log e).1 a.dev.1
  | .restart => powerUp max esize size n a.events a.dev.1

def acts (max esize size n : Nat) : Prog → List Act → Res Prog
  | a, [] => .ok a
  | a, x :: xs => do
    let a ← act max esize size n a x
    acts max esize size n a xs

namespace Spec

/-- What the log should hold: the events accepted, the one that was saved without its record being written since the last of them, and how
often the record changed. -/
structure Kept where
  history : List (List Byte)
  stray : Option (List Byte)
  changes : Nat

def step (max : Nat) (k : Kept) : Act → Kept
  | .log e err => if err = 0 then ⟨k.history ++ [e], none, if max = 1 ∧ k.history ≠ [] then k.changes else k.changes + 1⟩ else k
  | .cut e => { k with stray := some e }
  | .restart => k

/-- Power is not lost while the last of several blocks is in use (C44). -/
def Safe (max n : Nat) : Kept → List Act → Prop
  | _, [] => True
  | k, x :: xs => ((∀ e err, x ≠ .log e err) → n = 1 ∨ (k.changes + 1) % n ≠ 0) ∧ Safe max n (step max k x) xs

/-- The events as they are shown: if the log is full, an event saved without its record is in the place of the oldest one. -/
def shown (max : Nat) (k : Kept) : List (List Byte) :=
  match k.stray with
  | some e => if max ≤ k.history.length then k.history.set (k.history.length - max) e else k.history
  | none => k.history

end Spec

/-! ## The record -/

def bytes (l : Log) : Serial.Mem := Serial.Spec.image .u32le (BitVec.ofNat 32 l.next) ++ [if l.full then 1 else 0]

theorem bytes_length (l : Log) : (bytes l).length = 5 := by
  rw [bytes, List.length_append]
  exact congrArg (· + 1) (Serial.length_image .u32le (BitVec.ofNat 32 l.next))

theorem record_eq (l : Log) : record l = .ok (bytes l) := by
  have h1 := (Serial.C22_unsigned .u32le (List.replicate 5 0) 0 (by decide)).1 (BitVec.ofNat 32 l.next)
  have h2 : Serial.serializeU32Le (List.replicate 5 0) 0 (BitVec.ofNat 32 l.next) = _ := h1
  have hl := Serial.length_image .u32le (BitVec.ofNat 32 l.next)
  have hl' : (Serial.Spec.image .u32le (BitVec.ofNat 32 l.next)).length = 4 := hl
  rw [record, h2, Res.ok_bind]
  simp only [Serial.Spec.overwrite, List.take_zero, List.nil_append, hl', Nat.zero_add, Serial.Spec.Format.size]
  rw [Serial.serializeU8, wr, if_pos (by simp [hl'])]
  simp only [Res.ok_bind, Res.pure_eq]
  rw [List.set_append_right _ _ (by omega), hl']
  rfl

theorem restore_eq (l : Log) (h : l.next < 2 ^ 32) : restore l.max l.size (bytes l) = .ok l := by
  have hl : (Serial.Spec.image .u32le (BitVec.ofNat 32 l.next)).length = 4 := Serial.length_image .u32le (BitVec.ofNat 32 l.next)
  have h1 : Serial.deserializeU32Le (bytes l) 0 = .ok (BitVec.ofNat 32 l.next, 4) :=
    (Serial.C22_unsigned .u32le (bytes l) 0 (by rw [bytes_length]; decide)).2.1 _ (by
      rw [List.drop_zero, bytes]; exact List.take_left' hl)
  rw [restore, h1, Res.ok_bind, Serial.deserializeU8, rd]
  have h2 : (bytes l)[0 + 4 + 0]? = some (if l.full then 1 else 0) := by
    rw [bytes, List.getElem?_append_right (by omega), hl]; rfl
  simp only [h2, Res.ok_bind, Res.pure_eq, BitVec.toNat_ofNat, Nat.mod_eq_of_lt h]
  obtain ⟨a, b, c, f⟩ := l
  cases f <;> rfl

/-! ## The program -/

section
variable {max esize size n : Nat}

theorem after_lt (h0 : 0 < max) (hm : max < 2 ^ 31) (c : Nat) : (logAfter max esize c).next < 2 ^ 32 := by
  have := Nat.mod_lt c h0
  simp only [logAfter]; omega

theorem bytes_same (h0 : 0 < max) (hm : max < 2 ^ 31) (c : Nat) :
    bytes (logAfter max esize (c + 1)) = bytes (logAfter max esize c) ↔ max = 1 ∧ c ≠ 0 := by
  constructor
  · intro h
    have h1 := restore_eq _ (after_lt (esize := esize) h0 hm c)
    have h2 := restore_eq _ (after_lt (esize := esize) h0 hm (c + 1))
    rw [h] at h2
    have h3 : logAfter max esize c = logAfter max esize (c + 1) := Res.ok.inj (h1.symm.trans h2)
    have h4 : c % max = (c + 1) % max := congrArg Log.next h3
    have h5 : decide (max ≤ c) = decide (max ≤ c + 1) := congrArg Log.full h3
    rw [← Nat.mod_add_mod] at h4
    have hlt := Nat.mod_lt c h0
    have hmax : max = 1 := by
      by_cases hc : c % max + 1 < max
      · rw [Nat.mod_eq_of_lt hc] at h4; omega
      · rw [show c % max + 1 = max by omega, Nat.mod_self] at h4; omega
    refine ⟨hmax, fun hc => ?_⟩
    rw [decide_eq_decide] at h5
    omega
  · rintro ⟨rfl, hc⟩
    simp only [logAfter, Nat.mod_one]
    rw [decide_eq_true (by omega), decide_eq_true (by omega)]

/-- The program is where the history says. -/
structure Good (max esize size n : Nat) (a : Prog) (k : Spec.Kept) : Prop where
  inv : Inv max esize (a.events, a.log) (Spec.shown max k)
  rel : Wear.Rel size n 5 a.dev ⟨bytes (logAfter max esize k.history.length), k.changes⟩

theorem shown_length (k : Spec.Kept) : (Spec.shown max k).length = k.history.length := by
  rw [Spec.shown]
  split
  · split
    · rw [List.length_set]
    · rfl
  · rfl

theorem Inv.other {s : List (List Byte) × Log} {h h' : List (List Byte)} (hi : Inv max esize s h) (hl : h'.length = h.length)
    (he : ∀ j, h.length ≤ j + max → h'[j]? = h[j]?) : Inv max esize s h' :=
  ⟨hi.len, hi.max_eq, hi.size_eq, by rw [hl]; exact hi.next, by rw [hl]; exact hi.full, fun j h1 h2 => by
    rw [he j (by omega)]; exact hi.slot j (by omega) (by omega)⟩

theorem shown_next (k : Spec.Kept) (e : List Byte) (j : Nat) (hj : k.history.length + 1 ≤ j + max) :
    (k.history ++ [e])[j]? = (Spec.shown max k ++ [e])[j]? := by
  have hl := shown_length (max := max) k
  by_cases hc : j < k.history.length
  · rw [List.getElem?_append_left hc, List.getElem?_append_left (by omega), Spec.shown]
    split
    · split
      · rw [List.getElem?_set_ne (by omega)]
      · rfl
    · rfl
  · rw [List.getElem?_append_right (by omega), List.getElem?_append_right (by omega), hl]

theorem keep_good (h0 : 0 < max) (hm : max < 2 ^ 31) (hn0 : 0 < n) (hn : n < 256) (hl : 5 ≤ size) {a : Prog} {k : Spec.Kept} {c : Nat}
    (hi : Inv max esize (a.events, a.log) (Spec.shown max k)) {old : Serial.Mem} (hr : Wear.Rel size n 5 a.dev ⟨old, c⟩)
    (hc : k.changes = if bytes (logAfter max esize k.history.length) = old then c else c + 1) :
    ∃ a', keep size a = .ok a' ∧ a'.events = a.events ∧ a'.log = a.log ∧ Good max esize size n a' k := by
  have hlog : a.log = logAfter max esize k.history.length := by rw [← shown_length k]; exact hi.log
  obtain ⟨d, w, h1, h2⟩ := Wear.rel_write hn0 hn (by omega) hl hr (bytes (logAfter max esize k.history.length)) (bytes_length _)
  refine ⟨{ a with dev := (d, w) }, ?_, rfl, rfl, hi, ?_⟩
  · rw [keep, hlog, record_eq, Res.ok_bind, h1]; rfl
  · rw [hc]
    rw [Wear.Spec.Ideal.write] at h2
    split at h2
    · rename_i he
      rw [if_pos he]
      rw [show bytes _ = old from he]; exact h2
    · rename_i he
      rw [if_neg he]; exact h2

theorem power_good (h0 : 0 < max) (hm : max < 2 ^ 31) (hn0 : 0 < n) (hn : n < 256) (hl : 5 ≤ size) {events : List (List Byte)}
    {dev : List Wear.Spec.Block × Wear.Wlm} {k : Spec.Kept} (hi : Inv max esize (events, logAfter max esize k.history.length) (Spec.shown max k))
    (hr : Wear.Rel size n 5 dev ⟨bytes (logAfter max esize k.history.length), k.changes⟩) (hs : n = 1 ∨ (k.changes + 1) % n ≠ 0) :
    powerUp max esize size n events dev.1 = .ok ⟨events, logAfter max esize k.history.length, dev⟩ ∧
      Good max esize size n ⟨events, logAfter max esize k.history.length, dev⟩ k := by
  have h1 := Wear.rel_restart hn0 hn hr hs
  rw [Wear.step, hr.1.2.1] at h1
  have h2 : Wear.init (Wear.Spec.flash size) dev.1 n = .ok dev.2 := by
    cases hx : Wear.init (Wear.Spec.flash size) dev.1 n with
    | ok w =>
      rw [hx, Res.ok_bind] at h1
      exact congrArg Res.ok (congrArg Prod.snd (Res.ok.inj h1))
    | ub => rw [hx] at h1; simp at h1
    | abort => rw [hx] at h1; simp at h1
    | diverge => rw [hx] at h1; simp at h1
  refine ⟨?_, hi, hr⟩
  rw [powerUp, h2, Res.ok_bind, Wear.holds_read hl hr.1]
  have h3 := restore_eq _ (after_lt (esize := esize) h0 hm k.history.length)
  have h4 : restore max esize (bytes (logAfter max esize k.history.length)) = .ok (logAfter max esize k.history.length) := h3
  simp only [h4, Res.ok_bind, Res.pure_eq]

theorem good_step (h0 : 0 < max) (hm : max < 2 ^ 31) (hn0 : 0 < n) (hn : n < 256) (hl : 5 ≤ size) {a : Prog} {k : Spec.Kept}
    (hg : Good max esize size n a k) (x : Act) (hs : (∀ e err, x ≠ .log e err) → n = 1 ∨ (k.changes + 1) % n ≠ 0) :
    ∃ a', act max esize size n a x = .ok a' ∧ Good max esize size n a' (Spec.step max k x) := by
  have hlog : a.log = logAfter max esize k.history.length := by rw [← shown_length k]; exact hg.inv.log
  cases x with
  | log e err =>
    by_cases he : err = 0
    · subst he
      obtain ⟨d, l, h1, h2⟩ := inv_new h0 hm hg.inv e
      have h3 : Inv max esize (d, l) (k.history ++ [e]) := by
        refine Inv.other h2 (by simp [shown_length]) fun j hj => shown_next k e j ?_
        simpa [shown_length] using hj
      obtain ⟨a', h4, -, -, h5⟩ := keep_good (a := ⟨d, l, a.dev⟩)
        (k := ⟨k.history ++ [e], none, if max = 1 ∧ k.history ≠ [] then k.changes else k.changes + 1⟩) h0 hm hn0 hn hl h3 hg.rel (by
          have := bytes_same (esize := esize) h0 hm k.history.length
          simp only [List.length_append, List.length_singleton, this]
          have e1 : k.history.length ≠ 0 ↔ k.history ≠ [] := by rw [ne_eq, List.length_eq_zero_iff]
          simp only [e1])
      refine ⟨a', ?_, ?_⟩
      · simp only [act, h1, if_true]; exact h4
      · rw [Spec.step, if_pos rfl]; exact h5
    · refine ⟨a, ?_, ?_⟩
      · simp only [act, refused_store _ _ _ _ he]
        rw [if_neg he]
      · rw [Spec.step, if_neg he]; exact hg
  | cut e =>
    have h1 := inv_saved h0 hg.inv e
    have h2 : (newEvent (store fun _ _ => 0) a.events a.log e).1 = a.events.set (k.history.length % max) e := by
      rw [hlog, new_log h0 hm hg.inv.len]
    rw [shown_length] at h1
    have h3 : (if max ≤ k.history.length then (Spec.shown max k).set (k.history.length - max) e else Spec.shown max k) =
        Spec.shown max { k with stray := some e } := by
      simp only [Spec.shown]
      split
      · cases k.stray with
        | none => rfl
        | some f => exact List.set_set ..
      · cases k.stray with
        | none => rfl
        | some f => rfl
    rw [h3] at h1
    have h4 := power_good (k := { k with stray := some e }) h0 hm hn0 hn hl h1 hg.rel (hs (by simp))
    refine ⟨_, ?_, h4.2⟩
    rw [act, h2]; exact h4.1
  | restart =>
    have := power_good h0 hm hn0 hn hl (by rw [← hlog]; exact hg.inv) hg.rel (hs (by simp))
    exact ⟨_, this.1, this.2⟩

theorem good_acts (h0 : 0 < max) (hm : max < 2 ^ 31) (hn0 : 0 < n) (hn : n < 256) (hl : 5 ≤ size) (xs : List Act) :
    ∀ {a : Prog} {k : Spec.Kept}, Good max esize size n a k → Spec.Safe max n k xs →
      ∃ a', acts max esize size n a xs = .ok a' ∧ Good max esize size n a' (xs.foldl (Spec.step max) k) := by
  induction xs with
  | nil => intro a k hg _; exact ⟨a, rfl, hg⟩
  | cons x xs ih =>
    intro a k hg hs
    obtain ⟨b, h1, h2⟩ := good_step h0 hm hn0 hn hl hg x hs.1
    obtain ⟨c, h3, h4⟩ := ih h2 hs.2
    exact ⟨c, by rw [acts, h1]; exact h3, h4⟩

theorem start_good (h0 : 0 < max) (hm : max < 2 ^ 31) (hn0 : 0 < n) (hn : n < 256) (hl : 5 ≤ size) (events : List (List Byte))
    (he : events.length = max) (d : List Wear.Spec.Block) (hd : Wear.Spec.Fits size n d) (mk : BitVec 8) (hmk : ∀ b ∈ d, b.marker = mk) :
    ∃ a c, start max esize size n events d = .ok a ∧ c ≤ 1 ∧ Good max esize size n a ⟨[], none, c⟩ := by
  obtain ⟨w, e, h, hr⟩ := Wear.rel_start 5 hd hn0 hn mk hmk
  obtain ⟨a, h1, -, -, h2⟩ := keep_good (a := ⟨events, empty max esize, (d, w)⟩)
    (k := ⟨[], none, if bytes (logAfter max esize 0) = d[0].data.take 5 then 0 else 0 + 1⟩) h0 hm hn0 hn hl (inv_empty esize h0 events he) hr rfl
  refine ⟨a, _, ?_, ?_, h2⟩
  · rw [start, e, Res.ok_bind]; exact h1
  · split <;> omega

/-- The events have the size of the log. -/
def Sized (esize : Nat) (xs : List Act) : Prop := ∀ e, (.cut e ∈ xs ∨ ∃ err, .log e err ∈ xs) → e.length = esize

theorem sized_fold (xs : List Act) : ∀ k : Spec.Kept, Sized esize xs → (∀ e ∈ k.history, e.length = esize) →
    (∀ e, k.stray = some e → e.length = esize) →
    (∀ e ∈ (xs.foldl (Spec.step max) k).history, e.length = esize) ∧ ∀ e, (xs.foldl (Spec.step max) k).stray = some e → e.length = esize := by
  induction xs with
  | nil => intro k _ h1 h2; exact ⟨h1, h2⟩
  | cons x xs ih =>
    intro k hz h1 h2
    have hz' : Sized esize xs := fun e he => hz e (he.imp (List.mem_cons_of_mem _) fun ⟨err, h⟩ => ⟨err, List.mem_cons_of_mem _ h⟩)
    rw [List.foldl_cons]
    cases x with
    | log e err =>
      rw [Spec.step]
      split
      · refine ih _ hz' (fun f hf => ?_) (fun f hf => by simp at hf)
        rw [List.mem_append, List.mem_singleton] at hf
        rcases hf with hf | rfl
        · exact h1 f hf
        · exact hz f (.inr ⟨err, by simp⟩)
      · exact ih _ hz' h1 h2
    | cut e =>
      refine ih _ hz' h1 (fun f hf => ?_)
      rw [Spec.step] at hf
      simp only [Option.some.injEq] at hf
      subst hf
      exact hz e (.inl (by simp))
    | restart => exact ih _ hz' h1 h2

theorem shown_sized (k : Spec.Kept) (h1 : ∀ e ∈ k.history, e.length = esize) (h2 : ∀ e, k.stray = some e → e.length = esize) :
    ∀ e ∈ Spec.shown max k, e.length = esize := by
  intro e he
  rw [Spec.shown] at he
  split at he
  · rename_i f hf
    split at he
    · rcases List.mem_or_eq_of_mem_set he with h | rfl
      · exact h1 e h
      · exact h2 e hf
    · exact h1 e he
  · exact h1 e he

/-- **C230.** From a memory with equal markers and any contents, after every history of events, refusals and power losses, also between the
saving of an event and that of the record: the program goes on, and every load gives the window of the events accepted, except that, if the
log is full and power was lost after the saving of an event and none was accepted since, this one is in the place of the oldest. The same
holds after one more power loss. Power is not lost while the last of several blocks is in use (C44). -/
theorem C230_exact (h0 : 0 < max) (hm : max < 2 ^ 31) (hn0 : 0 < n) (hn : n < 256) (hl : 5 ≤ size) (events : List (List Byte))
    (he : events.length = max) (d : List Wear.Spec.Block) (hd : Wear.Spec.Fits size n d) (mk : BitVec 8) (hmk : ∀ b ∈ d, b.marker = mk) :
    ∃ a c, start max esize size n events d = .ok a ∧ c ≤ 1 ∧ ∀ xs, Spec.Safe max n ⟨[], none, c⟩ xs → Sized esize xs →
      ∃ b, acts max esize size n a xs = .ok b ∧
        let k := xs.foldl (Spec.step max) ⟨[], none, c⟩
        total b.log = min k.history.length max ∧
        ∀ (number jump : Nat) (buf : List Byte) (refuse : Nat → List Byte → Int), jump + number < 2 ^ 64 → buf.length < 2 ^ 64 →
          max * esize ≤ buf.length →
          loadLast (store refuse) b.events b.log buf number jump =
            .ok ((window (Spec.shown max k) max number jump).length, (window (Spec.shown max k) max number jump).flatten ++
              buf.drop ((window (Spec.shown max k) max number jump).length * esize)) := by
  obtain ⟨a, c, h1, h2, h3⟩ := start_good h0 hm hn0 hn hl events he d hd mk hmk
  refine ⟨a, c, h1, h2, fun xs hs hz => ?_⟩
  obtain ⟨b, h4, h5⟩ := good_acts h0 hm hn0 hn hl xs h3 hs
  refine ⟨b, h4, ?_, fun number jump buf refuse g1 g2 g3 => ?_⟩
  · rw [← shown_length]; exact total_eq h5.inv
  · have hsz := sized_fold (max := max) xs ⟨[], none, c⟩ hz (by simp) (by simp)
    refine load_inv h5.inv h0 hm (shown_sized _ hsz.1 hsz.2) number jump g1 buf g2 ?_ refuse
    have := (C50_window (Spec.shown max (xs.foldl (Spec.step max) ⟨[], none, c⟩)) max number jump).1
    refine Nat.le_trans (Nat.mul_le_mul_right _ ?_) g3
    omega

/-- **C230.** What was accepted: in every history the events logged without being refused, in their order. -/
theorem C230_history (xs : List Act) (k : Spec.Kept) :
    (xs.foldl (Spec.step max) k).history = k.history ++ xs.filterMap fun | .log e err => if err = 0 then some e else none | _ => none := by
  induction xs generalizing k with
  | nil => simp
  | cons x xs ih =>
    rw [List.foldl_cons, ih]
    cases x with
    | log e err =>
      by_cases h : err = 0
      · simp [Spec.step, h]
      · simp [Spec.step, h]
    | cut e => simp [Spec.step]
    | restart => simp [Spec.step]

/-- **C230** (partial). All but the oldest event are shown as they should be; and all, if the log is not full or no event was saved without
its record since the last one. Missing: the oldest event otherwise (`C230_wrong`). -/
theorem C230_partial (k : Spec.Kept) (number jump : Nat) (h : k.stray = none ∨ k.history.length < max ∨ number + jump < max) :
    window (Spec.shown max k) max number jump = window k.history max number jump := by
  rw [Spec.shown]
  split
  · rename_i e he
    split
    · rename_i hf
      rcases h with h | h | h
      · rw [he] at h; cases h
      · omega
      · rw [window_eq _ _ _ _ (by rw [List.length_set]; omega), window_eq _ _ _ _ (by omega), List.length_set]
        rw [List.drop_set_of_lt]
        omega
    · rfl
  · rfl

/-- **C230**, where it fails: the log is full and power is lost between the saving of `e` and that of the record. Then `e` is shown as the
oldest event, in the place of the one that is, and not as the newest, until another event is logged. -/
theorem C230_wrong (h0 : 0 < max) (k : Spec.Kept) (hf : max ≤ k.history.length) (e : List Byte) :
    window (Spec.shown max (Spec.step max k (.cut e))) max max 0 = e :: (window k.history max max 0).tail ∧
    ∀ f, window (Spec.shown max (Spec.step max (Spec.step max k (.cut e)) (.log f 0))) max max 0 = window (k.history ++ [f]) max max 0 := by
  constructor
  · rw [Spec.step, Spec.shown]
    simp only
    rw [if_pos hf, window_eq _ _ _ _ (by omega), window_eq _ _ _ _ (by omega), List.length_set]
    simp only [Nat.sub_zero]
    rw [Nat.min_eq_right hf, Nat.min_self, List.drop_eq_getElem_cons (by rw [List.length_set]; omega),
      List.drop_eq_getElem_cons (l := k.history) (by omega), List.getElem_set_self, List.drop_set_of_lt (by omega)]
    obtain ⟨m, rfl⟩ : ∃ m, max = m + 1 := ⟨max - 1, by omega⟩
    rw [List.take_succ_cons, List.take_succ_cons, List.tail_cons]
  · intro f
    rw [Spec.step, if_pos rfl, Spec.shown]
    rfl

end

/-! ## Example: a log of two events of one byte, three blocks -/

def exRun (xs : List Act) : Res (Int × List Byte) := do
  let a ← start 2 1 5 3 [[9], [9]] (List.replicate 3 ⟨0xff, [1, 2, 3, 4, 5]⟩)
  let b ← acts 2 1 5 3 a xs
  loadLast (store fun _ _ => 0) b.events b.log [0, 0] 2 0

example : exRun [.log [1] 0, .log [2] 0, .log [3] 0, .restart] = .ok (2, [2, 3]) := by decide +kernel
-- power is lost between the saving of 4 and that of the record: 4 stands for 2
example : exRun [.log [1] 0, .log [2] 0, .log [3] 0, .cut [4]] = .ok (2, [4, 3]) := by decide +kernel
example : exRun [.log [1] 0, .log [2] 0, .log [3] 0, .cut [4], .log [5] 0] = .ok (2, [3, 5]) := by decide +kernel

end Gel.Combined.Journal
