import Verif.Cbuf.WidthProps
import Mathlib.Data.List.Rotate

/-!
# Circular buffer: what every history of calls does, without exceptions

C01-C04 say where the buffer is a bounded FIFO and where not. Here a specification that covers the wrong cases too: the state is
the list of all cells, beginning with the one the next read takes, and the number of stored elements.
-/
namespace Gel.Cbuf

namespace Exact
variable {α : Type}

/-- All cells, beginning with the next to be read; how many of them are stored elements; the number of the first of them in the
array the caller gave to init. -/
structure St (α : Type) where
  cells : List α
  cnt : Nat
  pos : Nat
  deriving DecidableEq, Repr

/-- A bulk put offers exactly one element more than fits, the buffer is not full, and the stored elements either reach the end of
the array or begin at its third cell or later. -/
def overrun (s : St α) (len : Nat) : Prop :=
  len = s.cells.length - s.cnt ∧ s.cnt + 1 < s.cells.length ∧ (s.cells.length ≤ s.pos + s.cnt ∨ 2 ≤ s.pos)

instance (s : St α) (len : Nat) : Decidable (overrun s len) := by unfold overrun; infer_instance

/-- How many elements a bulk put takes. -/
def putCount (s : St α) (len : Nat) : Nat :=
  if overrun s len then s.cells.length - s.cnt else min len (s.cells.length - 1 - s.cnt)

/-- The number of elements `circular_buf_size` reports. -/
def reported (s : St α) : Nat := if s.cnt = s.cells.length - 1 then s.cells.length else s.cnt

/-- How many elements a bulk read takes; a negative length means all. -/
def getCount (s : St α) (len : Int) : Nat := if len < 0 then reported s else min len.toNat (reported s)

/-- Store elements behind those that are there. When all cells are filled, none counts as stored. -/
def push (s : St α) (xs : List α) : St α :=
  ⟨s.cells.take s.cnt ++ xs ++ s.cells.drop (s.cnt + xs.length), (s.cnt + xs.length) % s.cells.length, s.pos⟩

/-- Advance over `r` cells. When all are passed the same are stored as before. -/
def pop (s : St α) (r : Nat) : St α :=
  ⟨s.cells.rotate r, if r ≤ s.cnt then s.cnt - r else s.cnt, (s.pos + r) % s.cells.length⟩

/-- Each call. -/
def step (s : St α) : Call α → St α × Obs α
  | .putc x => if s.cnt + 1 < s.cells.length then (push s [x], ⟨0, none⟩) else (s, ⟨-1, none⟩)
  | .getc => if s.cnt = 0 then (s, ⟨-1, none⟩) else (pop s 1, ⟨0, some (s.cells.take 1)⟩)
  | .getcNull => if s.cnt = 0 then (s, ⟨-1, none⟩) else (pop s 1, ⟨0, none⟩)
  | .puts data len => (push s (data.take (putCount s len)), ⟨putCount s len, none⟩)
  | .gets out len => (pop s (getCount s len), ⟨getCount s len, out.map (Spec.stored · (s.cells.take (getCount s len)))⟩)
  | .peek out len => (s, ⟨getCount s len, out.map (Spec.stored · (s.cells.take (getCount s len)))⟩)
  | .drop len => (pop s (getCount s len), ⟨getCount s len, none⟩)
  | .reset => (⟨s.cells.rotate (s.cells.length - s.pos), 0, 0⟩, ⟨0, none⟩)
  | .isEmpty => (s, ⟨b2i (s.cnt == 0), none⟩)
  | .isFull => (s, ⟨b2i (s.cnt == s.cells.length - 1), none⟩)
  | .size => (s, ⟨reported s, none⟩)
  | .capacity => (s, ⟨(s.cells.length - 1 : Nat), none⟩)

/-- A history. -/
def run (s : St α) : List (Call α) → St α × List (Obs α)
  | [] => (s, [])
  | c :: cs =>
    let (s', o) := step s c
    let (s'', os) := run s' cs
    (s'', o :: os)

end Exact

variable {α : Type}

/-- The buffer is in the state `s` of the specification. -/
structure Is (cb : Cbuf α) (s : Exact.St α) : Prop where
  len : cb.buffer.length = cb.bufsize
  tail_lt : cb.tail < cb.bufsize
  pos : s.pos = cb.tail
  cells : s.cells = cb.buffer.rotate cb.tail
  cnt : s.cnt < cb.bufsize
  head : cb.head = (cb.tail + s.cnt) % cb.bufsize

theorem Is.length {cb : Cbuf α} {s} (h : Is cb s) : s.cells.length = cb.bufsize := by
  rw [h.cells, List.length_rotate, h.len]

theorem Is.get {cb : Cbuf α} {s} (h : Is cb s) {i : Nat} (hi : i < cb.bufsize) :
    s.cells[i]? = cb.buffer[(cb.tail + i) % cb.bufsize]? := by
  rw [h.cells, List.getElem?_rotate (by rw [h.len]; exact hi), h.len, Nat.add_comm]

theorem Is.seg {cb : Cbuf α} {s} (h : Is cb s) {k : Nat} (hk : k ≤ cb.bufsize) :
    Seg cb.buffer cb.bufsize cb.tail (s.cells.take k) := by
  intro i hi
  simp only [List.length_take] at hi
  rw [List.getElem?_take, if_pos (by omega), h.get (by omega)]

theorem Is.rep {cb : Cbuf α} {s} (h : Is cb s) : Rep cb (s.cells.take s.cnt) := by
  have hl := h.length
  have hc := h.cnt
  have e : (s.cells.take s.cnt).length = s.cnt := by rw [List.length_take]; omega
  exact ⟨⟨h.len, h.tail_lt, by omega, by rw [e]; exact h.head, h.seg (by omega)⟩, by omega⟩

theorem Is.take_length {cb : Cbuf α} {s} (h : Is cb s) {k : Nat} (hk : k ≤ cb.bufsize) : (s.cells.take k).length = k := by
  have hl := h.length
  rw [List.length_take]; omega

theorem Is.size {cb : Cbuf α} {s} (h : Is cb s) : size cb = Exact.reported s := by
  have hr := h.rep
  have hc := h.cnt
  have e := h.take_length (k := s.cnt) (by omega)
  rw [Exact.reported, h.length]
  split_ifs with hf
  · exact hr.size_full (by rw [e]; exact hf)
  · rw [hr.size (by rw [e]; exact hf), e]

/-- A list is determined by its entries modulo the length. -/
theorem cells_ext {cb : Cbuf α} {xs : List α} (hb : cb.buffer.length = cb.bufsize) (hx : xs.length = cb.bufsize)
    (h : ∀ i, i < cb.bufsize → xs[i]? = cb.buffer[(cb.tail + i) % cb.bufsize]?) : xs = cb.buffer.rotate cb.tail := by
  apply List.ext_getElem?
  intro i
  rcases Nat.lt_or_ge i cb.bufsize with hi | hi
  · rw [h i hi, List.getElem?_rotate (by omega), hb, Nat.add_comm]
  · rw [List.getElem?_eq_none (by omega), List.getElem?_eq_none (by simp; omega)]

theorem reported_le {cb : Cbuf α} {s} (h : Is cb s) : Exact.reported s ≤ cb.bufsize := by
  have := h.cnt
  have := h.length
  rw [Exact.reported]; split_ifs <;> omega

theorem Is.pop {cb : Cbuf α} {s} (h : Is cb s) {r : Nat} (hr : r ≤ Exact.reported s) : Is (retreat cb r) (Exact.pop s r) := by
  have hl := h.length
  have hc := h.cnt
  have ht := h.tail_lt
  have hrl := reported_le h
  have hp : 0 < cb.bufsize := by omega
  refine ⟨h.len, Nat.mod_lt _ hp, ?_, ?_, ?_, ?_⟩
  · simp only [Exact.pop, retreat, h.pos, hl]
  · simp only [Exact.pop, retreat, h.cells, List.rotate_rotate]
    rw [← h.len, List.rotate_mod]
  · simp only [Exact.pop, retreat]; split_ifs <;> omega
  · simp only [Exact.pop, retreat]
    rw [h.head]
    split_ifs with h1
    · rw [Nat.mod_add_mod]; congr 1; omega
    · rw [Exact.reported] at hr
      split_ifs at hr with h2
      · have : r = cb.bufsize := by omega
        rw [this, Nat.add_mod_right, Nat.mod_add_mod]
      · omega

/-- Bulk puts change the cells from the head on, as many as they report, and nothing else. -/
theorem putsLoop_frame (data : List α) (tail : Nat) : ∀ (fuel : Nat) (cb : Cbuf α) (off len w : Nat) (cb' : Cbuf α) (k : Nat),
    cb.head < cb.bufsize → cb.buffer.length = cb.bufsize → putsLoop data tail fuel cb cb.head off len w = .ok (cb', k) →
      w ≤ k ∧ cb'.tail = cb.tail ∧ cb'.bufsize = cb.bufsize ∧
        ∀ p, (∀ j, j < k - w → p ≠ (cb.head + j) % cb.bufsize) → cb'.buffer[p]? = cb.buffer[p]?
  | 0, cb, off, len, w, cb', k, hh, hlen, h => by simp [putsLoop] at h
  | fuel + 1, cb, off, len, w, cb', k, hh, hlen, h => by
    rw [putsLoop] at h
    split_ifs at h with hc
    · generalize putChunk cb.bufsize cb.head tail len = c at h
      rcases Res.bind_eq_ok.1 h with ⟨b, h1, h2⟩
      have hnf : isFull cb = false := by
        simp only [Bool.and_eq_true, Bool.not_eq_true'] at hc; exact hc.1
      have hmem : cb.head + c ≤ cb.buffer.length ∧ off + c ≤ data.length ∧
          b = cb.buffer.take cb.head ++ (data.drop off).take c ++ cb.buffer.drop (cb.head + c) := by
        simp only [memcpy] at h1
        split_ifs at h1 with hm
        simp only [Res.ok.injEq] at h1
        exact ⟨hm.1, hm.2, h1.symm⟩
      have hxl : ((data.drop off).take c).length = c := by
        have := hmem.2.1; simp; omega
      have hb : ∀ p, (p < cb.head ∨ cb.head + c ≤ p) → b[p]? = cb.buffer[p]? := by
        intro p hp
        rw [hmem.2.2]
        have := getElem?_splice (dst := cb.buffer) (xs := (data.drop off).take c) (doff := cb.head) (by rw [hxl]; exact hmem.1) p
        rw [hxl] at this
        rw [this, if_neg (by omega)]
      have hadv : advance { cb with buffer := b } c = { cb with buffer := b, head := (cb.head + c) % cb.bufsize } := by
        have hnf' : isFull { cb with buffer := b } = false := hnf
        rw [advance, hnf']
        by_cases h0 : c = 0
        · subst h0; simp [Nat.mod_eq_of_lt hh]
        · simp [h0]
      simp only [hadv] at h2
      obtain ⟨e1, e2, e3, e4⟩ := putsLoop_frame data tail fuel { cb with buffer := b, head := (cb.head + c) % cb.bufsize }
        (off + c) (len - c) (w + c) cb' k (Nat.mod_lt _ (by show 0 < cb.bufsize; omega))
        (by rw [hmem.2.2]; have := hmem.1; simp; omega) h2
      refine ⟨by omega, e2, e3, ?_⟩
      intro p hp
      rw [e4 p]
      · apply hb
        by_contra hcon
        push Not at hcon
        rcases Nat.lt_or_ge p cb.bufsize with hlt | hge
        · apply hp (p - cb.head) (by omega)
          rw [show cb.head + (p - cb.head) = p by omega, Nat.mod_eq_of_lt hlt]
        · have := hmem.1
          omega
      · intro j hj
        have := hp (c + j) (by omega)
        simp only [Nat.mod_add_mod]
        rwa [← Nat.add_assoc] at this
    · simp only [Res.ok.injEq, Prod.mk.injEq] at h
      obtain ⟨rfl, rfl⟩ := h
      exact ⟨by omega, rfl, rfl, fun p _ => rfl⟩

theorem putCorner_iff {cb : Cbuf α} {s} (h : Is cb s) (len : Nat) :
    PutCorner cb (s.cells.take s.cnt) len ↔ Exact.overrun s len := by
  have hc := h.cnt
  have ht := h.tail_lt
  have hhe := h.rep.head_eq
  rw [PutCorner, Exact.overrun, h.length, h.pos]
  rw [h.take_length (by omega)] at hhe ⊢
  constructor
  · rintro ⟨h1, h2⟩
    split_ifs at hhe <;> omega
  · rintro ⟨h1, h2, h3⟩
    split_ifs at hhe <;> omega

theorem Is.puts {cb : Cbuf α} {s} (h : Is cb s) (data : List α) (len : Nat) (hd : len ≤ data.length) :
    ∃ cb', puts cb data len = .ok (cb', Exact.putCount s len) ∧ Is cb' (Exact.push s (data.take (Exact.putCount s len))) ∧
      cb'.bufsize = cb.bufsize := by
  have hc := h.cnt
  have hl := h.length
  have ht := h.tail_lt
  have e := h.take_length (k := s.cnt) (by omega)
  obtain ⟨cb', k, h1, h2, h3, h4, h5, h6⟩ := puts_raw h.rep data len hd
  have hk : k = Exact.putCount s len := by
    rw [Exact.putCount, hl]
    rw [e] at h5 h6
    split_ifs with ho
    · exact h5 ((putCorner_iff h len).2 ho)
    · exact h6 (fun hx => ho ((putCorner_iff h len).1 hx))
  have hkl : (data.take k).length = k := by simp; omega
  obtain ⟨-, f1, -, f2⟩ := putsLoop_frame data cb.tail (len + 1) cb 0 len 0 cb' k h.rep.head_lt h.len h1
  have hle := h2.q_le
  rw [List.length_append, e, hkl] at hle
  refine ⟨cb', hk ▸ h1, ?_, h3⟩
  rw [← hk]
  have hlen : (Exact.push s (data.take k)).cells.length = cb.bufsize := by
    simp only [Exact.push, List.length_append, List.length_drop, e, hkl, hl]; omega
  refine ⟨h2.len, h2.tail_lt, by rw [f1]; exact h.pos, ?_, ?_, ?_⟩
  · apply cells_ext h2.len (by rw [hlen, h3])
    intro i hi
    rw [h3] at hi ⊢
    rcases Nat.lt_or_ge i (s.cnt + k) with hik | hik
    · have hseg := h2.seg i (by rw [List.length_append, e, hkl]; exact hik)
      rw [h3] at hseg
      rw [hseg]
      simp only [Exact.push]
      rw [List.getElem?_append_left (by rw [List.length_append, e, hkl]; exact hik)]
    · simp only [Exact.push]
      rw [List.getElem?_append_right (by rw [List.length_append, e, hkl]; exact hik), List.length_append, e, hkl,
        List.getElem?_drop, show s.cnt + k + (i - (s.cnt + k)) = i by omega, h.get hi, f1, f2]
      intro j hj heq
      rw [h.head, Nat.mod_add_mod, mod_two (by omega), mod_two (by omega)] at heq
      split_ifs at heq <;> omega
  · simp only [Exact.push, hl, hkl, h3]; exact Nat.mod_lt _ (by omega)
  · have := h2.head
    rw [List.length_append, e, hkl, h3] at this
    simp only [Exact.push, hl, hkl, h3]
    rw [this, Nat.add_mod_mod]

theorem Is.get_eq {cb : Cbuf α} {s} (h : Is cb s) (out : Option (List α)) (len : Int) (consume : Bool)
    (h1 : -2 ^ 31 ≤ len) (h2 : len < 2 ^ 31)
    (ho : ∀ o, out = some o → (0 ≤ len ∧ len.toNat ≤ o.length) ∨ cb.bufsize ≤ o.length) (hm : cb.bufsize < 2 ^ 31) :
    Gel.Cbuf.get cb out (asSize len) consume = .ok (if consume then retreat cb (Exact.getCount s len) else cb,
      out.map (Spec.stored · (s.cells.take (Exact.getCount s len))), Exact.getCount s len) := by
  have hrl := reported_le h
  have hn : Exact.getCount s len = min (asSize len) (Gel.Cbuf.size cb) := by
    rw [h.size, Exact.getCount, asSize]
    split_ifs with hlt
    · omega
    · omega
  have hle : Exact.getCount s len ≤ cb.bufsize := by rw [hn, h.size]; omega
  have hlen := h.take_length hle
  have hg := Gel.Cbuf.get_eq h.rep out (asSize len) consume (s.cells.take (Exact.getCount s len)) (by rw [hlen, hn]) (h.seg hle) (by
    intro o ho'
    rw [hlen]
    rcases ho o ho' with h | h
    · rw [Exact.getCount, if_neg (by omega)]; omega
    · omega)
  rw [hlen] at hg
  exact hg

theorem getCount_le {s : Exact.St α} {len : Int} : Exact.getCount s len ≤ Exact.reported s := by
  rw [Exact.getCount]; split_ifs <;> omega

theorem Is.putc {cb : Cbuf α} {s} (h : Is cb s) (x : α) (hf : s.cnt + 1 < cb.bufsize) :
    ∃ cb', putc cb x = .ok (cb', 0) ∧ Is cb' (Exact.push s [x]) ∧ cb'.bufsize = cb.bufsize := by
  have hl := h.length
  have ht := h.tail_lt
  have hh := h.rep.head_lt
  have hlen := h.len
  have e := h.take_length (k := s.cnt) (by omega)
  have hnf : isFull cb = false := isFull_false h.rep (by rw [e]; omega)
  have hraw := h.rep.toRaw.push (xs := [x]) (by simp; omega) (by rw [e]; simp; omega) (by rw [e]; omega)
  have hnf' : isFull { cb with buffer := cb.buffer.take cb.head ++ [x] ++ cb.buffer.drop (cb.head + 1) } = false := hnf
  simp only [List.length_singleton] at hraw
  refine ⟨{ cb with buffer := cb.buffer.take cb.head ++ [x] ++ cb.buffer.drop (cb.head + 1), head := (cb.head + 1) % cb.bufsize },
    ?_, ?_, rfl⟩
  · rw [Gel.Cbuf.putc, hnf, wr_eq_splice (by omega)]
    simp only [Bool.not_false, if_true, Res.ok_bind, advance, hnf']
    simp
  · have hpl : (Exact.push s [x]).cells.length = cb.bufsize := by
      simp only [Exact.push, List.length_append, List.length_drop, e, List.length_singleton, hl]; omega
    refine ⟨hraw.len, ht, h.pos, ?_, ?_, ?_⟩
    · apply cells_ext hraw.len hpl
      intro i hi
      simp only at hi
      rcases Nat.lt_or_ge i (s.cnt + 1) with hik | hik
      · have hseg := hraw.seg i (by rw [List.length_append, e]; exact hik)
        rw [hseg]
        simp only [Exact.push]
        rw [List.getElem?_append_left (by rw [List.length_append, e]; exact hik)]
      · simp only [Exact.push]
        rw [List.getElem?_append_right (by rw [List.length_append, e]; exact hik), List.length_append, e,
          List.length_singleton, List.getElem?_drop, show s.cnt + 1 + (i - (s.cnt + 1)) = i by omega, h.get hi]
        have := getElem?_splice (dst := cb.buffer) (xs := [x]) (doff := cb.head) (by simp; omega) ((cb.tail + i) % cb.bufsize)
        simp only [List.length_singleton] at this
        rw [this, if_neg]
        have h1 := h.head
        rw [mod_two (by omega)] at h1
        rw [mod_two (by omega)]
        split_ifs at h1 ⊢ <;> omega
    · simp only [Exact.push, hl, List.length_singleton]; exact Nat.mod_lt _ (by omega)
    · simp only [Exact.push, hl, List.length_singleton, Nat.add_mod_mod]
      rw [h.head, Nat.mod_add_mod, Nat.add_assoc]

theorem step_exact {cb : Cbuf α} {s} (h : Is cb s) (hm : cb.bufsize < 2 ^ 31) (c : Call α) (hc : Spec.Fits cb.bufsize c)
    (ht : Spec.Typed 32 64 c) :
    ∃ cb', step cb c = .ok (cb', (Exact.step s c).2) ∧ Is cb' (Exact.step s c).1 ∧ cb'.bufsize = cb.bufsize := by
  have hcnt := h.cnt
  have hl := h.length
  have e := h.take_length (k := s.cnt) (by omega)
  have hem : isEmpty cb = (s.cnt == 0) := by
    rw [Bool.eq_iff_iff, h.rep.isEmpty, ← List.length_eq_zero_iff, e]; simp
  have hfu : isFull cb = (s.cnt == cb.bufsize - 1) := by
    rw [Bool.eq_iff_iff, h.rep.isFull, e]; simp
  cases c with
  | putc x =>
    simp only [Exact.step, hl]
    split_ifs with hf
    · obtain ⟨cb', h1, h2, h3⟩ := h.putc x hf
      exact ⟨cb', by simp [step, h1], h2, h3⟩
    · refine ⟨cb, ?_, h, rfl⟩
      have : isFull cb = true := by rw [hfu]; simp; omega
      simp [step, Gel.Cbuf.putc, this]
  | getc =>
    simp only [Exact.step]
    split_ifs with hf
    · exact ⟨cb, by simp [step, getc, hem, hf], h, rfl⟩
    · refine ⟨retreat cb 1, ?_, h.pop (by rw [Exact.reported]; split_ifs <;> omega), rfl⟩
      have hg := h.get (i := 0) (by omega)
      rw [Nat.add_zero, Nat.mod_eq_of_lt h.tail_lt] at hg
      obtain ⟨y, ys, hy⟩ : ∃ y ys, s.cells = y :: ys := by
        cases hs : s.cells with
        | nil => rw [hs] at hl; simp at hl; omega
        | cons y ys => exact ⟨y, ys, rfl⟩
      rw [hy] at hg
      simp only [step, getc, hem, hf, hy]
      rw [rd_ok hg.symm]
      simp [hf]
  | getcNull =>
    simp only [Exact.step]
    split_ifs with hf
    · exact ⟨cb, by simp [step, getcNull, hem, hf], h, rfl⟩
    · exact ⟨retreat cb 1, by simp [step, getcNull, hem, hf], h.pop (by rw [Exact.reported]; split_ifs <;> omega), rfl⟩
  | puts data len =>
    obtain ⟨cb', h1, h2, h3⟩ := h.puts data len hc
    exact ⟨cb', by simp [step, h1, Exact.step], h2, h3⟩
  | gets out len =>
    refine ⟨retreat cb (Exact.getCount s len), ?_, h.pop getCount_le, rfl⟩
    have := h.get_eq out len true ht.1 ht.2 (by rintro o rfl; exact hc) hm
    simp [step, gets, this, Exact.step]
  | peek out len =>
    refine ⟨cb, ?_, h, rfl⟩
    have := h.get_eq out len false ht.1 ht.2 (by rintro o rfl; exact hc) hm
    simp [step, peek, this, Exact.step]
  | drop len =>
    refine ⟨retreat cb (Exact.getCount s len), ?_, h.pop getCount_le, rfl⟩
    have := h.get_eq none len true ht.1 ht.2 (by simp) hm
    simp [step, drop, this, Exact.step]
  | reset =>
    refine ⟨reset cb, rfl, ?_, rfl⟩
    have := h.tail_lt
    refine ⟨h.len, by show 0 < cb.bufsize; omega, rfl, ?_, by show 0 < cb.bufsize; omega, by simp [reset, Exact.step]⟩
    simp only [Exact.step, reset, List.rotate_zero, h.pos]
    rw [hl, h.cells, List.rotate_rotate, show cb.tail + (cb.bufsize - cb.tail) = cb.bufsize by omega, ← h.len, List.rotate_length]
  | isEmpty => exact ⟨cb, by simp [step, Exact.step, hem], h, rfl⟩
  | isFull => exact ⟨cb, by simp [step, Exact.step, hfu, hl], h, rfl⟩
  | size => exact ⟨cb, by simp [step, Exact.step, h.size], h, rfl⟩
  | capacity => exact ⟨cb, by simp [step, Exact.step, capacity, hl], h, rfl⟩

/-- **C135.** Every history of calls whose arguments are large enough gives exactly the results of `Exact.run`, in the regions
where the buffer is no FIFO too, and leaves the array as it says. -/
theorem C135_exact (buffer : List α) (n : Nat) (hn : 0 < n) (hm : n < 2 ^ 31) (hb : buffer.length = n) (cs : List (Call α))
    (hf : ∀ c ∈ cs, Spec.Fits n c) (ht : ∀ c ∈ cs, Spec.Typed 32 64 c) :
    ∃ cb cb', init (some buffer) n = some cb ∧ run cb cs = .ok (cb', (Exact.run ⟨buffer, 0, 0⟩ cs).2) ∧
      cb'.buffer.rotate cb'.tail = (Exact.run ⟨buffer, 0, 0⟩ cs).1.cells ∧ cb'.tail = (Exact.run ⟨buffer, 0, 0⟩ cs).1.pos := by
  have key : ∀ (cs : List (Call α)) (cb : Cbuf α) (s : Exact.St α), Is cb s → cb.bufsize = n → (∀ c ∈ cs, Spec.Fits n c) →
      (∀ c ∈ cs, Spec.Typed 32 64 c) → ∃ cb', run cb cs = .ok (cb', (Exact.run s cs).2) ∧ Is cb' (Exact.run s cs).1 := by
    intro cs
    induction cs with
    | nil => intro cb s h _ _ _; exact ⟨cb, rfl, h⟩
    | cons c cs ih =>
      intro cb s h hs hf ht
      obtain ⟨cb1, h1, h2, h3⟩ := step_exact h (by omega) c (by rw [hs]; exact hf c List.mem_cons_self) (ht c List.mem_cons_self)
      obtain ⟨cb2, h4, h5⟩ := ih cb1 _ h2 (by omega) (fun c hc => hf c (List.mem_cons_of_mem _ hc))
        (fun c hc => ht c (List.mem_cons_of_mem _ hc))
      exact ⟨cb2, by simp only [run, h1, Res.ok_bind, h4]; rfl, h5⟩
  obtain ⟨cb, h1, h2, h3⟩ := init_rep hn hb
  have hcb : cb = ⟨buffer, n, 0, 0⟩ := by
    simp only [init, show n ≠ 0 by omega, if_false, Option.some.injEq] at h1
    rw [← h1]; rfl
  subst hcb
  obtain ⟨cb', h4, h5⟩ := key cs ⟨buffer, n, 0, 0⟩ ⟨buffer, 0, 0⟩ ⟨hb, hn, rfl, by simp, hn, by simp⟩ rfl hf ht
  exact ⟨_, cb', h1, h4, h5.cells.symm, h5.pos.symm⟩

/-- Both wrong regions in one history: the third call puts three elements where two fit and leaves none, the last read takes
a cell that was never put. -/
example : (Exact.run (⟨[0, 0, 0], 0, 0⟩ : Exact.St Nat) [.puts [1, 2] 2, .drop 2, .puts [5, 6, 7] 3, .isEmpty, .putc 8, .putc 9,
    .size, .gets (some [0, 0, 0]) 3, .size]).2 =
    [⟨2, none⟩, ⟨2, none⟩, ⟨3, none⟩, ⟨1, none⟩, ⟨0, none⟩, ⟨0, none⟩, ⟨3, none⟩, ⟨3, some [8, 9, 7]⟩, ⟨3, none⟩] := by decide

end Gel.Cbuf
