import Verif.Cbuf.ConcProps

/-!
# Circular buffer: queries while the threads run (C229)

`is_circular_buf_empty`, `is_circular_buf_full` and `circular_buf_size`, marked "ALWAYS THREAD SAFE" in circular_buffer.c:88-90, load
`head` and `tail` one after the other; between the loads the producer and the consumer of `ConcModel` may take steps.
-/
namespace Gel.Cbuf.Conc

variable {α : Type u} {n : Nat}

/-- `is_circular_buf_empty`, circular_buffer.c:92-97: `head` is loaded in state `h`, `tail` in state `t`. -/
def emptyQ (h t : St α) : Bool := decide (h.head = t.tail)

/-- `is_circular_buf_full`, circular_buffer.c:99-104. -/
def fullQ (n : Nat) (h t : St α) : Bool := decide ((h.head + 1) % n = t.tail)

/-- `circular_buf_size`, circular_buffer.c:106-124: `tail` is loaded in state `a`, `head` in state `b`, and `is_circular_buf_full` loads
`head` in `c` and `tail` in `d`. -/
def sizeQ (n : Nat) (a b c d : St α) : Nat := sizeOf n b.head a.tail (fullQ n c d)

/-- The number of elements stored. -/
def stored (n : Nat) (s : St α) : Nat := (s.head + n - s.tail) % n

/-- The states of the executions in which the threads are polite (C87). -/
def Reached (n : Nat) (buffer : List α) (s : St α) : Prop := ∃ tr, Exec n buffer tr s ∧ ∀ l ∈ tr, Polite n l

/-- Steps of the threads, all states of which satisfy `P`. -/
inductive Way (n : Nat) (P : St α → Prop) : St α → St α → Prop
  | nil (s) : P s → Way n P s s
  | cons {s l s' s''} : P s → Step n s l s' → Polite n l → Way n P s' s'' → Way n P s s''

/-- **C229.** `stored` is the length of the queue of the elements accepted and not yet got. -/
theorem C229_stored {buffer : List α} (hb : buffer.length = n) (hn : 0 < n) {tr : List (Lbl α)} {s : St α} (h : Exec n buffer tr s)
    (hp : ∀ l ∈ tr, Polite n l) : ∃ q, Inv n tr s q ∧ stored n s = q.length ∧ s.head < n ∧ s.tail < n := by
  obtain ⟨q, hq⟩ := Inv.exec hb hn h hp
  have h1 : s.head = if s.tail + q.length < n then s.tail + q.length else s.tail + q.length - n := hq.rep.head_eq
  have h2 : s.tail < n := hq.rep.tail_lt
  have h3 : q.length < n := hq.rep.q_lt
  refine ⟨q, hq, ?_, by split_ifs at h1 <;> omega, h2⟩
  rw [stored]
  split_ifs at h1 with c
  · rw [h1, show s.tail + q.length + n - s.tail = q.length + n by omega, Nat.add_mod_right, Nat.mod_eq_of_lt h3]
  · rw [show s.head + n - s.tail = q.length by omega, Nat.mod_eq_of_lt h3]

theorem Reached.lt {buffer : List α} (hb : buffer.length = n) (hn : 0 < n) {s : St α} (h : Reached n buffer s) : s.head < n ∧ s.tail < n := by
  obtain ⟨tr, h1, h2⟩ := h
  obtain ⟨-, -, -, h3⟩ := C229_stored hb hn h1 h2
  exact h3

theorem stored_empty {s : St α} (h1 : s.head < n) (h2 : s.tail < n) : s.head = s.tail ↔ stored n s = 0 := by
  rw [stored]
  by_cases c : s.head < s.tail
  · rw [Nat.mod_eq_of_lt (by omega)]; omega
  · rw [show s.head + n - s.tail = (s.head - s.tail) + n by omega, Nat.add_mod_right, Nat.mod_eq_of_lt (by omega)]; omega

theorem stored_full {s : St α} (h1 : s.head < n) (h2 : s.tail < n) : (s.head + 1) % n = s.tail ↔ stored n s = n - 1 := by
  have e : (s.head + 1) % n = if s.head + 1 < n then s.head + 1 else 0 := by
    split_ifs with c
    · exact Nat.mod_eq_of_lt c
    · rw [show s.head + 1 = n by omega, Nat.mod_self]
  rw [stored, e]
  by_cases c : s.head < s.tail
  · rw [Nat.mod_eq_of_lt (by omega)]; split_ifs <;> omega
  · rw [show s.head + n - s.tail = (s.head - s.tail) + n by omega, Nat.add_mod_right, Nat.mod_eq_of_lt (by omega)]; split_ifs <;> omega

theorem sizeOf_stored {s : St α} (h1 : s.head < n) (h2 : s.tail < n) (f : Bool) : sizeOf n s.head s.tail f = if f then n else stored n s := by
  cases f
  · simp only [sizeOf, Bool.not_false, if_true, Bool.false_eq_true, if_false, stored]
    split_ifs with c
    · rw [show s.head + n - s.tail = (s.head - s.tail) + n by omega, Nat.add_mod_right, Nat.mod_eq_of_lt (by omega)]
    · rw [Nat.mod_eq_of_lt (by omega)]; omega
  · rfl

/-- **C229** (partial). In the consumer's thread, that is if no element is taken during the call: `is_circular_buf_empty` and
`is_circular_buf_full` are right for the moment at which `head` is loaded, and so is `circular_buf_size`, except that it is the buffer size
if the buffer is full when it looks (C04). -/
theorem C229_consumer_partial {buffer : List α} (hb : buffer.length = n) (hn : 0 < n) {a b c d : St α} (rb : Reached n buffer b)
    (rc : Reached n buffer c) (h1 : a.tail = b.tail) (h2 : c.tail = b.tail) (h3 : d.tail = b.tail) :
    (emptyQ b a = true ↔ stored n b = 0) ∧ (fullQ n b a = true ↔ stored n b = n - 1) ∧
    sizeQ n a b c d = if stored n c = n - 1 then n else stored n b := by
  obtain ⟨b1, b2⟩ := rb.lt hb hn
  obtain ⟨c1, c2⟩ := rc.lt hb hn
  refine ⟨?_, ?_, ?_⟩
  · rw [emptyQ, decide_eq_true_iff, h1]; exact stored_empty b1 b2
  · rw [fullQ, decide_eq_true_iff, h1]; exact stored_full b1 b2
  · rw [sizeQ, h1, sizeOf_stored b1 b2]
    have : fullQ n c d = true ↔ stored n c = n - 1 := by
      rw [fullQ, decide_eq_true_iff, h3, ← h2]; exact stored_full c1 c2
    by_cases e : stored n c = n - 1
    · rw [this.2 e, if_pos e, if_pos rfl]
    · rw [if_neg e, if_neg (fun f => e (this.1 f))]

/-- **C229** (partial). In the producer's thread, that is if no element is added during the call, the same with the moments at which `tail`
is loaded. Missing: other threads, for which it is false (`C229_empty_wrong`, `C229_full_wrong`, `C229_size_wrong`). -/
theorem C229_producer_partial {buffer : List α} (hb : buffer.length = n) (hn : 0 < n) {a b c d : St α} (ra : Reached n buffer a)
    (rd : Reached n buffer d) (h1 : b.head = a.head) (h2 : c.head = a.head) (h3 : d.head = a.head) :
    (emptyQ b a = true ↔ stored n a = 0) ∧ (fullQ n b a = true ↔ stored n a = n - 1) ∧
    sizeQ n a b c d = if stored n d = n - 1 then n else stored n a := by
  obtain ⟨a1, a2⟩ := ra.lt hb hn
  obtain ⟨d1, d2⟩ := rd.lt hb hn
  refine ⟨?_, ?_, ?_⟩
  · rw [emptyQ, decide_eq_true_iff, h1]; exact stored_empty a1 a2
  · rw [fullQ, decide_eq_true_iff, h1]; exact stored_full a1 a2
  · rw [sizeQ, h1, sizeOf_stored a1 a2]
    have : fullQ n c d = true ↔ stored n d = n - 1 := by
      rw [fullQ, decide_eq_true_iff, h2, ← h3]; exact stored_full d1 d2
    by_cases e : stored n d = n - 1
    · rw [this.2 e, if_pos e, if_pos rfl]
    · rw [if_neg e, if_neg (fun f => e (this.1 f))]

/-! ## Other threads -/

theorem Way.trans {P : St α → Prop} {a b c : St α} (h : Way n P a b) (h' : Way n P b c) : Way n P a c := by
  induction h with
  | nil => exact h'
  | cons h1 h2 h3 _ ih => exact .cons h1 h2 h3 (ih h')

theorem Way.reached {P : St α → Prop} {buffer : List α} {a b : St α} (h : Way n P a b) (ha : Reached n buffer a) : Reached n buffer b := by
  induction h with
  | nil => exact ha
  | cons _ h3 h2 _ ih =>
    obtain ⟨tr, e1, e2⟩ := ha
    refine ih ⟨_, e1.step h3, fun l hl => ?_⟩
    rw [List.mem_append, List.mem_singleton] at hl
    rcases hl with hl | rfl
    · exact e2 l hl
    · exact h2

/-- Between `lo` and `lo + 1` elements are stored. -/
def About (n lo : Nat) (s : St α) : Prop := lo ≤ stored n s ∧ stored n s ≤ lo + 1

/-- The state between calls. -/
def rest (sl : List α) (h t : Nat) : St α := ⟨sl, h, t, .idle, .idle⟩

theorem stored_next {h t : Nat} {sl sl' : List α} (hh : h < n) (ht : t < n) (hf : stored n (rest sl h t) < n - 1) :
    stored n (rest sl' ((h + 1) % n) t) = stored n (rest sl h t) + 1 := by
  simp only [stored, rest] at hf ⊢
  have e : (h + 1) % n = if h + 1 < n then h + 1 else 0 := by
    split_ifs with c
    · exact Nat.mod_eq_of_lt c
    · rw [show h + 1 = n by omega, Nat.mod_self]
  rw [e]
  by_cases c : h < t
  · rw [Nat.mod_eq_of_lt (a := h + n - t) (by omega)] at hf ⊢
    rw [if_pos (by omega), Nat.mod_eq_of_lt (by omega)]; omega
  · rw [show h + n - t = (h - t) + n by omega, Nat.add_mod_right, Nat.mod_eq_of_lt (a := h - t) (by omega)] at hf ⊢
    by_cases c' : h + 1 < n
    · rw [if_pos c', show h + 1 + n - t = (h + 1 - t) + n by omega, Nat.add_mod_right, Nat.mod_eq_of_lt (by omega)]; omega
    · rw [if_neg c', Nat.mod_eq_of_lt (by omega)]; omega

/-- One element is put and one taken. -/
theorem pass {lo : Nat} {sl : List α} {h t : Nat} (hl : sl.length = n) (hh : h < n) (ht : t < n) (hs : stored n (rest sl h t) = lo)
    (hlo : lo < n - 1) (x : α) : ∃ sl', sl'.length = n ∧ Way n (About n lo) (rest sl h t) (rest sl' ((h + 1) % n) ((t + 1) % n)) ∧
      stored n (rest sl' ((h + 1) % n) ((t + 1) % n)) = lo := by
  have hn : 0 < n := by omega
  have h1 : (h + 1) % n < n := Nat.mod_lt _ hn
  have t1 : (t + 1) % n < n := Nat.mod_lt _ hn
  have s1 := stored_next (sl' := sl.set h x) hh ht (by rw [hs]; exact hlo)
  rw [hs] at s1
  have nf : ¬ (h + 1) % n = t := fun c => by
    have := (stored_full (s := rest sl h t) hh ht).1 c
    omega
  have ne : (h + 1) % n ≠ t := nf
  have s2 : stored n (rest (sl.set h x) ((h + 1) % n) ((t + 1) % n)) = lo := by
    have := stored_next (sl := sl) (sl' := sl) hh ht (by rw [hs]; exact hlo)
    rw [hs] at this
    simp only [stored, rest] at hs ⊢
    have et : (t + 1) % n = if t + 1 < n then t + 1 else 0 := by
      split_ifs with c
      · exact Nat.mod_eq_of_lt c
      · rw [show t + 1 = n by omega, Nat.mod_self]
    have eh : (h + 1) % n = if h + 1 < n then h + 1 else 0 := by
      split_ifs with c
      · exact Nat.mod_eq_of_lt c
      · rw [show h + 1 = n by omega, Nat.mod_self]
    rw [et, eh]
    have key : ∀ z, z < 2 * n → z % n = if z < n then z else z - n := fun z hz => by
      split_ifs with c
      · exact Nat.mod_eq_of_lt c
      · rw [Nat.mod_eq_sub_mod (by omega), Nat.mod_eq_of_lt (by omega)]
    rw [key _ (by omega)] at hs
    rw [key _ (by split_ifs <;> omega)]
    split_ifs at hs ⊢ <;> omega
  have lt : t < (sl.set h x).length := by rw [List.length_set, hl]; exact ht
  have P0 : ∀ (sl : List α) p c, About n lo ⟨sl, h, t, p, c⟩ := fun _ _ _ => ⟨Nat.le_of_eq hs.symm, Nat.le_succ_of_le (Nat.le_of_eq hs)⟩
  have P1 : ∀ (sl : List α) p c, About n lo ⟨sl, (h + 1) % n, t, p, c⟩ := fun _ _ _ =>
    ⟨Nat.le_of_succ_le (Nat.le_of_eq s1.symm), Nat.le_of_eq s1⟩
  refine ⟨sl.set h x, by rw [List.length_set, hl], ?_, s2⟩
  refine .cons (P0 _ _ _) (.callPutc _ x rfl) trivial (.cons (P0 _ _ _) (.checkOk _ x rfl nf) trivial (.cons (P0 _ _ _) (.write _ x rfl) trivial
    (.cons (P0 _ _ _) (.advOk _ x rfl nf) trivial (.cons (P0 _ _ _) (.setHead _ x rfl) trivial ?_))))
  refine .cons (P1 _ _ _) (.callGetc _ rfl) trivial (.cons (P1 _ _ _) (.echeckOk _ rfl ne) trivial
    (.cons (P1 _ _ _) (.rdslot _ ((sl.set h x)[t]) rfl (List.getElem?_eq_getElem lt)) trivial
    (.cons (P1 _ _ _) (.setTail _ _ rfl) trivial (.nil _ ?_))))
  exact ⟨Nat.le_of_eq s2.symm, Nat.le_succ_of_le (Nat.le_of_eq s2)⟩

/-- `k` elements pass. -/
theorem passes {lo : Nat} (hlo : lo < n - 1) (x : α) : ∀ (k : Nat) {sl : List α} {h t : Nat}, sl.length = n → h < n → t < n →
    stored n (rest sl h t) = lo → ∃ sl', Way n (About n lo) (rest sl h t) (rest sl' ((h + k) % n) ((t + k) % n))
  | 0, sl, h, t, hl, hh, ht, hs => by
    refine ⟨sl, ?_⟩
    rw [Nat.add_zero, Nat.add_zero, Nat.mod_eq_of_lt hh, Nat.mod_eq_of_lt ht]
    exact .nil _ ⟨Nat.le_of_eq hs.symm, by omega⟩
  | k + 1, sl, h, t, hl, hh, ht, hs => by
    obtain ⟨sl', l', w, s'⟩ := pass hl hh ht hs hlo x
    obtain ⟨sl'', w'⟩ := passes hlo x k l' (Nat.mod_lt _ (by omega)) (Nat.mod_lt _ (by omega)) s'
    refine ⟨sl'', w.trans ?_⟩
    rw [Nat.mod_add_mod, Nat.mod_add_mod] at w'
    rwa [show h + (k + 1) = h + 1 + k by omega, show t + (k + 1) = t + 1 + k by omega]

theorem start_reached (buffer : List α) : Reached n buffer (rest buffer 0 0) := ⟨[], .init, by simp⟩

theorem one_reached {buffer : List α} (hb : buffer.length = n) (hn : 3 ≤ n) (x : α) : ∃ sl, sl.length = n ∧ Reached n buffer (rest sl 1 0) ∧
    stored n (rest sl 1 0) = 1 := by
  obtain ⟨tr, sl, h1, h2, h3⟩ := fill_steps buffer hb (by omega) x 1 (by omega)
  refine ⟨sl, h2, ⟨_, Exec.steps .init h3, by simpa using h1⟩, ?_⟩
  simp only [stored, rest]
  rw [show 1 + n - 0 = 1 + n by omega, Nat.add_mod_right, Nat.mod_eq_of_lt (by omega)]

/-- **C229**, where it fails: a third thread is told that the buffer is empty although it never is during the call, whichever of `head` and
`tail` is loaded first. -/
theorem C229_empty_wrong {buffer : List α} (hb : buffer.length = n) (hn : 3 ≤ n) (x : α) :
    (∃ a b, Reached n buffer a ∧ Way n (About n 1) a b ∧ emptyQ a b = true) ∧
    ∃ a b, Reached n buffer a ∧ Way n (About n 1) a b ∧ emptyQ b a = true := by
  obtain ⟨sl, hl, hr, hs⟩ := one_reached hb hn x
  constructor
  · obtain ⟨sl', w⟩ := passes (lo := 1) (by omega) x 1 hl (show 1 < n by omega) (show 0 < n by omega) hs
    refine ⟨_, _, hr, w, ?_⟩
    rw [emptyQ, decide_eq_true_iff]
    simp only [rest]
    rw [Nat.mod_eq_of_lt (by omega)]
  · obtain ⟨sl', w⟩ := passes (lo := 1) (by omega) x (n - 1) hl (show 1 < n by omega) (show 0 < n by omega) hs
    refine ⟨_, _, hr, w, ?_⟩
    rw [emptyQ, decide_eq_true_iff]
    simp only [rest]
    rw [show 1 + (n - 1) = n by omega, Nat.mod_self]

/-- **C229**, where it fails: a third thread is told that the buffer is full although it never holds more than one element during the call,
whichever of `head` and `tail` is loaded first. -/
theorem C229_full_wrong {buffer : List α} (hb : buffer.length = n) (hn : 3 ≤ n) (x : α) :
    (∃ a b, Reached n buffer a ∧ Way n (About n 0) a b ∧ fullQ n a b = true) ∧
    ∃ a b, Reached n buffer a ∧ Way n (About n 0) a b ∧ fullQ n b a = true := by
  have hs : stored n (rest buffer 0 0) = 0 := by simp [stored, rest]
  constructor
  · obtain ⟨sl', w⟩ := passes (lo := 0) (by omega) x 1 hb (show 0 < n by omega) (show 0 < n by omega) hs
    refine ⟨_, _, start_reached buffer, w, ?_⟩
    rw [fullQ, decide_eq_true_iff]
    simp only [rest]
  · obtain ⟨sl', w⟩ := passes (lo := 0) (by omega) x (n - 1) hb (show 0 < n by omega) (show 0 < n by omega) hs
    refine ⟨_, _, start_reached buffer, w, ?_⟩
    rw [fullQ, decide_eq_true_iff]
    simp only [rest]
    rw [Nat.mod_add_mod, show 0 + (n - 1) + 1 = n by omega, Nat.mod_self]

/-- **C229**, where it fails: `circular_buf_size` tells a third thread that as many elements are stored as the capacity allows although there
is never more than one during the call, and that there is one less than the least number there is. -/
theorem C229_size_wrong {buffer : List α} (hb : buffer.length = n) (hn : 3 ≤ n) (x : α) :
    (∃ a b, Reached n buffer a ∧ Way n (About n 0) a b ∧ sizeQ n a b b b = n - 1) ∧
    ∃ a b, Reached n buffer a ∧ Way n (About n 1) a b ∧ sizeQ n a b b b = 0 := by
  constructor
  · have hs : stored n (rest buffer 0 0) = 0 := by simp [stored, rest]
    obtain ⟨sl', w⟩ := passes (lo := 0) (by omega) x (n - 1) hb (show 0 < n by omega) (show 0 < n by omega) hs
    refine ⟨_, _, start_reached buffer, w, ?_⟩
    simp only [sizeQ, fullQ, rest, sizeOf]
    simp only [Nat.mod_eq_of_lt (show 0 + (n - 1) < n by omega), show 0 + (n - 1) + 1 = n by omega, Nat.mod_self,
      show decide (0 = 0 + (n - 1)) = false by rw [decide_eq_false_iff_not]; omega]
    simp
  · obtain ⟨sl, hl, hr, hs⟩ := one_reached hb hn x
    obtain ⟨sl', w⟩ := passes (lo := 1) (by omega) x (n - 1) hl (show 1 < n by omega) (show 0 < n by omega) hs
    refine ⟨_, _, hr, w, ?_⟩
    simp only [sizeQ, fullQ, rest, sizeOf]
    rw [show 1 + (n - 1) = n by omega]
    simp only [Nat.mod_self, Nat.mod_eq_of_lt (show 0 + (n - 1) < n by omega), Nat.mod_eq_of_lt (show 0 + 1 < n by omega),
      show decide (0 + 1 = 0 + (n - 1)) = false by rw [decide_eq_false_iff_not]; omega]
    simp

/-! ## Examples: a buffer of four -/

-- the consumer's thread: one element when `head` is loaded, two when it looks whether the buffer is full
example : sizeQ 4 (rest [1, 2, 3, 4] 1 0) (rest [1, 2, 3, 4] 1 0) (rest [1, 2, 3, 4] 2 0) (rest [1, 2, 3, 4] 2 0) = 1 := by decide
example : stored 4 (rest [1, 2, 3, 4] 1 3) = 2 := by decide
-- three elements have passed between the load of `tail` and that of `head`
example : sizeQ 4 (rest [1, 2, 3, 4] 0 0) (rest [1, 2, 3, 4] 3 3) (rest [1, 2, 3, 4] 3 3) (rest [1, 2, 3, 4] 3 3) = 3 := by decide

end Gel.Cbuf.Conc
