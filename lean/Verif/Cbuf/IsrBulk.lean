import Verif.Cbuf.Isr

/-!
# Circular buffer: a bulk put interrupted by a put of an interrupt handler (C247)

`circular_buf_puts` as a sequence of accesses to the buffer, as `circular_buf_putc` in `Cbuf/Isr.lean`: the handler does `H t` at the
`t`-th point and runs to its end; `memcpy` is one step.
-/
namespace Gel.Cbuf

variable {α : Type u}

/-- `advance_pointer`, circular_buffer.c:13-23, from the point `t` on: the value returned and the buffer. -/
def advanceI (first : Bool) (H : Nat → Cbuf α → Cbuf α) (t : Nat) (cb : Cbuf α) (step : Nat) : Nat × Cbuf α :=
  let (head, tail, cb) := loadBoth first H t cb
  if (head + 1) % cb.bufsize = tail ∨ step = 0 then
    let cb := H (t + 2) cb
    (cb.head, cb)
  else
    let cb := H (t + 2) cb
    let h := cb.head
    let cb := H (t + 3) cb
    let cb := H (t + 4) { cb with head := (h + step) % cb.bufsize }
    (cb.head, cb)

/-- The loop of `circular_buf_puts`, circular_buffer.c:161-177, from the point `t` on; one iteration has eight points. `head` and `tail` are
the local variables, `fuel` as in `putsLoop`. -/
def putsLoopI (first : Bool) (H : Nat → Cbuf α → Cbuf α) (data : List α) (tail : Nat) :
    (fuel t : Nat) → Cbuf α → (head off len written : Nat) → Res (Cbuf α × Nat)
  | 0, _, _, _, _, _, _ => .diverge
  | fuel + 1, t, cb, head, off, len, written =>
    let (h, l, cb) := loadBoth first H t cb
    if (h + 1) % cb.bufsize ≠ l ∧ len > 0 then do
      let chunk := putChunk cb.bufsize head tail len
      let cb := H (t + 2) cb
      let b ← memcpy cb.buffer head data off chunk
      let (head, cb) := advanceI first H (t + 3) { cb with buffer := b } chunk
      putsLoopI first H data tail fuel (t + 8) cb head (off + chunk) (len - chunk) (written + chunk)
    else .ok (cb, written)

/-- `circular_buf_puts`, circular_buffer.c:153-180. -/
def putsI (first : Bool) (H : Nat → Cbuf α → Cbuf α) (cb : Cbuf α) (data : List α) (len : Nat) : Res (Cbuf α × Nat) :=
  let cb := H 0 cb
  let head := cb.head
  let cb := H 1 cb
  let tail := cb.tail
  putsLoopI first H data tail (len + 1) 2 cb head 0 len 0

/-! ## Without handlers, and with the handler first -/

theorem advanceI_quiet (first : Bool) (H : Nat → Cbuf α → Cbuf α) (t : Nat) (hH : ∀ k ≥ t, ∀ c, H k c = c) (cb : Cbuf α) (step : Nat) :
    advanceI first H t cb step = ((advance cb step).head, advance cb step) := by
  have h0 := hH t (by omega)
  have h1 := hH (t + 1) (by omega)
  have h2 := hH (t + 2) (by omega)
  have h3 := hH (t + 3) (by omega)
  have h4 := hH (t + 4) (by omega)
  simp only [advanceI, loadBoth, h0, h1, h2, h3, h4, advance, isFull, Bool.or_eq_true, beq_iff_eq, ite_self]
  split_ifs <;> rfl

theorem putsLoopI_quiet (first : Bool) (H : Nat → Cbuf α → Cbuf α) (data : List α) (tail : Nat) : ∀ (fuel t : Nat),
    (∀ k ≥ t, ∀ c, H k c = c) → ∀ (cb : Cbuf α) (head off len written : Nat),
      putsLoopI first H data tail fuel t cb head off len written = putsLoop data tail fuel cb head off len written
  | 0, _, _, _, _, _, _, _ => rfl
  | fuel + 1, t, hH, cb, head, off, len, written => by
    have h0 := hH t (by omega)
    have h1 := hH (t + 1) (by omega)
    have h2 := hH (t + 2) (by omega)
    have hl : loadBoth first H t cb = (cb.head, cb.tail, cb) := by
      simp only [loadBoth, h0, h1, ite_self]
    rw [putsLoopI, putsLoop, hl]
    simp only [h2, advanceI_quiet first H (t + 3) (fun k hk => hH k (by omega))]
    simp only [isFull, Bool.and_eq_true, Bool.not_eq_true', beq_eq_false_iff_ne, decide_eq_true_eq]
    by_cases hc : (cb.head + 1) % cb.bufsize ≠ cb.tail ∧ len > 0
    · rw [if_pos hc, if_pos hc]
      congr 1
      funext b
      exact putsLoopI_quiet first H data tail fuel (t + 8) (fun k hk => hH k (by omega)) _ _ _ _ _
    · rw [if_neg hc, if_neg hc]

/-- **C247.** Without handlers this is the call of the first model. -/
theorem C247_quiet (first : Bool) (cb : Cbuf α) (data : List α) (len : Nat) :
    putsI first (fun _ c => c) cb data len = puts cb data len :=
  putsLoopI_quiet first _ data cb.tail (len + 1) 2 (fun _ _ _ => rfl) cb cb.head 0 len 0

/-- **C247.** With the handler before the first access the calls are one after the other. -/
theorem C247_before (first : Bool) (f : Cbuf α → Cbuf α) (cb : Cbuf α) (data : List α) (len : Nat) :
    putsI first (onceAt 0 f) cb data len = puts (f cb) data len :=
  putsLoopI_quiet first _ data (f cb).tail (len + 1) 2 (fun k hk c => by rw [onceAt, if_neg (by omega)]) (f cb) (f cb).head 0 len 0

/-! ## The handler at any point -/

/-- The contents after a bulk put of `xs` interrupted at point `t` by a put of `y`: `g` is what was in the slot behind those written. -/
def bulkBoth (q xs : List α) (y g : α) (t : Nat) : List α :=
  if t = 0 then q ++ y :: xs
  else if t ≤ 4 then q ++ xs ++ [g]
  else if t ≤ 7 then q ++ y :: xs.tail ++ [g]
  else if t = 8 then q ++ y :: xs.tail
  else q ++ xs ++ [y]

/-- One piece is copied if the free slots up to the end of the array are enough. -/
theorem chunk_all {cb : Cbuf α} {q : List α} (h : Rep cb q) {n : Nat} (hr : q.length + n < cb.bufsize) (he : cb.head + n ≤ cb.bufsize) :
    putChunk cb.bufsize cb.head cb.tail n = n := by
  have h1 := h.head_eq
  have h2 := h.tail_lt
  have h3 := h.q_lt
  simp only [putChunk, beq_iff_eq]
  split_ifs at h1 ⊢ <;> omega

/-- Elements written behind the head do not change the contents. -/
theorem Rep.write_free {cb : Cbuf α} {q xs : List α} (h : Rep cb q) (he : cb.head + xs.length ≤ cb.bufsize)
    (hr : q.length + xs.length < cb.bufsize) :
    Rep { cb with buffer := cb.buffer.take cb.head ++ xs ++ cb.buffer.drop (cb.head + xs.length) } q where
  len := (h.toRaw.push he (by omega) h.q_lt).len
  tail_lt := h.tail_lt
  q_le := h.q_le
  head := h.head
  q_lt := h.q_lt
  seg := by
    intro i hi
    have := (h.toRaw.push he (by omega) h.q_lt).seg i (by simp; omega)
    rw [List.getElem?_append_left hi] at this
    exact this

theorem memcpy_over {a xs : List α} {i : Nat} (y : α) (h0 : 0 < xs.length) (h : i + xs.length ≤ a.length) :
    memcpy (a.set i y) i xs 0 xs.length = .ok (a.take i ++ xs ++ a.drop (i + xs.length)) := by
  rw [memcpy, if_pos ⟨by simpa using h, by omega⟩]
  simp only [List.drop_zero, List.take_length]
  rw [List.take_set_of_le (Nat.le_refl i), List.drop_set_of_lt (by omega)]

theorem memcpy_plain {a xs : List α} {i : Nat} (h : i + xs.length ≤ a.length) :
    memcpy a i xs 0 xs.length = .ok (a.take i ++ xs ++ a.drop (i + xs.length)) := by
  rw [memcpy, if_pos ⟨h, by omega⟩]
  simp only [List.drop_zero, List.take_length]

theorem over_set {a xs : List α} {i : Nat} (y : α) (h0 : 0 < xs.length) (h : i + xs.length ≤ a.length) :
    (a.take i ++ xs ++ a.drop (i + xs.length)).set i y = a.take i ++ (y :: xs.tail) ++ a.drop (i + (y :: xs.tail).length) := by
  cases xs with
  | nil => simp at h0
  | cons x xs =>
    have hl : (a.take i).length = i := by simp at h ⊢; omega
    rw [List.append_assoc, List.set_append_right i y (by omega), hl, Nat.sub_self]
    simp

theorem slot_after {a xs : List α} {i n : Nat} (ha : a.length = n) (h0 : 0 < xs.length) (h : i + xs.length ≤ n) (hs : xs.length < n) :
    (a.take i ++ xs ++ a.drop (i + xs.length))[(i + xs.length) % n]? = a[(i + xs.length) % n]? := by
  have hl : (a.take i).length = i := by simp; omega
  rcases Nat.lt_or_ge (i + xs.length) n with hlt | hge
  · rw [Nat.mod_eq_of_lt hlt, List.getElem?_append_right (by simp; omega)]
    simp [hl]
  · have : i + xs.length = n := by omega
    rw [this, Nat.mod_self, List.append_assoc, List.getElem?_append_left (by omega), List.getElem?_take]
    rw [if_pos (by omega)]

/-- The buffer with `xs` copied to `head`, and with `h` as `head`. -/
def placed (cb : Cbuf α) (xs : List α) (h : Nat) : Cbuf α :=
  { cb with buffer := cb.buffer.take cb.head ++ xs ++ cb.buffer.drop (cb.head + xs.length), head := h }

/-- The end of the loop after one piece. -/
theorem puts_end (first : Bool) (H : Nat → Cbuf α → Cbuf α) (data : List α) (tail : Nat) {n : Nat} (h0 : 0 < n) (t : Nat) (c : Cbuf α)
    (h' : Nat) :
    putsLoopI first H data tail n t c h' n 0 n = .ok ((loadBoth first H t c).2.2, n) := by
  have : ∀ f, 0 < f → putsLoopI first H data tail f t c h' n 0 n = .ok ((loadBoth first H t c).2.2, n) := by
    intro f hf
    cases f with
    | zero => omega
    | succ f => rw [putsLoopI]; simp
  exact this n h0

/-- The handler between the load of `head` and the last store, with room for the elements of the call. -/
theorem bulk_go {cb : Cbuf α} {q : List α} (h : Rep cb q) (xs : List α) (y : α) (first : Bool) (t : Nat) (ht : 1 ≤ t) (ht' : t ≤ 8)
    (h0 : 0 < xs.length) (hr : q.length + xs.length < cb.bufsize) (h2 : q.length + 2 < cb.bufsize) (he : cb.head + xs.length ≤ cb.bufsize) :
    putsI first (onceAt t (putter y)) cb xs xs.length = .ok (
      (if t ≤ 4 then placed cb xs (((cb.head + xs.length) % cb.bufsize + 1) % cb.bufsize)
      else if t ≤ 7 then placed cb (y :: xs.tail) (((cb.head + xs.length) % cb.bufsize + 1) % cb.bufsize)
      else placed cb (y :: xs.tail) ((cb.head + xs.length) % cb.bufsize)), xs.length) := by
  have hlen := h.len
  have hhl := h.head_lt
  have hY := withY_rep h y (by omega)
  have hn0 : ¬ (cb.head + 1) % cb.bufsize = cb.tail := by rw [not_full h]; omega
  have hn1 : ¬ ((cb.head + 1) % cb.bufsize + 1) % cb.bufsize = cb.tail := by
    have := not_full hY
    simp only [withY, List.length_append, List.length_singleton] at this
    rw [this]; omega
  have hck := chunk_all h (n := xs.length) (by omega) he
  have hm := memcpy_plain (a := cb.buffer) (xs := xs) (i := cb.head) (by omega)
  have hmy := memcpy_over (a := cb.buffer) (xs := xs) (i := cb.head) y h0 (by omega)
  have hW := h.write_free (xs := xs) he (by omega)
  have hpy := putter_room h y (by omega)
  have hpw := putter_room hW y (by simp; omega)
  have hmod : ((cb.head + 1) % cb.bufsize + xs.length) % cb.bufsize = ((cb.head + xs.length) % cb.bufsize + 1) % cb.bufsize := by
    rw [Nat.mod_add_mod, Nat.mod_add_mod]; congr 1; omega
  have hne : ¬ xs.length = 0 := by omega
  have fin := fun c h' => puts_end first (onceAt t (putter y)) xs cb.tail h0 10 c h'
  have hos := over_set (a := cb.buffer) (i := cb.head) y h0 (by omega)
  rw [putsI, putsLoopI]
  rcases (by omega : t = 1 ∨ t = 2 ∨ t = 3 ∨ t = 4 ∨ t = 5 ∨ t = 6 ∨ t = 7 ∨ t = 8) with
    rfl | rfl | rfl | rfl | rfl | rfl | rfl | rfl <;> cases first <;>
    simp (config := {decide := true}) only [onceAt, loadBoth, if_true, if_false, hpy, withY, hn0, hn1, not_false_eq_true, ne_eq, true_and,
      h0, gt_iff_lt, hck, hm, hmy, Res.ok_bind, advanceI, hne, or_self, hpw, hmod, hos, placed, Nat.zero_add, Nat.sub_self, fin]

/-- **C247.** A bulk put of elements that fit before the end of the array, interrupted once at any point by a put of the handler, with
room for all: the call reports all of them written, and the contents are those of `bulkBoth`. -/
theorem C247_exact {cb : Cbuf α} {q : List α} (h : Rep cb q) (xs : List α) (y g : α) (first : Bool) (t : Nat) (ht : t < 12)
    (h0 : 0 < xs.length) (hr : q.length + xs.length + 1 < cb.bufsize) (he : cb.head + xs.length ≤ cb.bufsize)
    (hg : cb.buffer[(cb.head + xs.length) % cb.bufsize]? = some g) :
    ∃ cb', putsI first (onceAt t (putter y)) cb xs xs.length = .ok (cb', xs.length) ∧ cb'.bufsize = cb.bufsize ∧
      Rep cb' (bulkBoth q xs y g t) := by
  have hlen := h.len
  have hhl := h.head_lt
  have hpos := h.pos
  have hY := withY_rep h y (by omega)
  by_cases ht0 : t = 0
  · subst ht0
    rw [C247_before, putter_room h y (by omega)]
    obtain ⟨cb', k, h1, h2, h3, h4, h5⟩ := puts_raw hY xs xs.length (Nat.le_refl _)
    have hb : (withY cb y).bufsize = cb.bufsize := rfl
    have hk : k = xs.length := by
      rw [h5.2 (by rintro ⟨hc, -⟩; rw [hb, List.length_append, List.length_singleton] at hc; omega), hb, List.length_append,
        List.length_singleton]
      omega
    subst hk
    refine ⟨cb', h1, h3, ?_⟩
    rw [List.take_length] at h2
    have : bulkBoth q xs y g 0 = q ++ [y] ++ xs := by simp [bulkBoth]
    rw [this]
    exact ⟨h2, by rw [h3]; simp; omega⟩
  have hn0 : ¬ (cb.head + 1) % cb.bufsize = cb.tail := by rw [not_full h]; omega
  have hn1 : ¬ ((cb.head + 1) % cb.bufsize + 1) % cb.bufsize = cb.tail := by
    have := not_full hY
    simp only [withY, List.length_append, List.length_singleton] at this
    rw [this]; omega
  have hck := chunk_all h (n := xs.length) (by omega) he
  have hm := memcpy_plain (a := cb.buffer) (xs := xs) (i := cb.head) (by omega)
  have hmy := memcpy_over (a := cb.buffer) (xs := xs) (i := cb.head) y h0 (by omega)
  have hP : Rep _ (q ++ xs) := ⟨h.toRaw.push (xs := xs) he (by omega) h.q_lt, by simp; omega⟩
  have hW := h.write_free (xs := xs) he (by omega)
  have hyl : (y :: xs.tail).length = xs.length := by simp; omega
  have hQ : Rep _ (q ++ y :: xs.tail) :=
    ⟨h.toRaw.push (xs := y :: xs.tail) (by omega) (by omega) h.q_lt, by rw [List.length_append, hyl]; simp; omega⟩
  have hpy := putter_room h y (by omega)
  have hpw := putter_room hW y (by simp; omega)
  have hpp := putter_room hP y (by simp; omega)
  have hmod : ((cb.head + 1) % cb.bufsize + xs.length) % cb.bufsize = ((cb.head + xs.length) % cb.bufsize + 1) % cb.bufsize := by
    rw [Nat.mod_add_mod, Nat.mod_add_mod]; congr 1; omega
  obtain ⟨k, hk⟩ : ∃ k, xs.length = k + 1 := ⟨xs.length - 1, by omega⟩
  have hne : ¬ xs.length = 0 := by omega
  have hgP := slot_after (xs := xs) hlen h0 he (by omega)
  rw [hg] at hgP
  have hPg := hP.toRaw.grow (by simp; omega) g hgP
  have hgQ := slot_after (n := cb.bufsize) (i := cb.head) (xs := y :: xs.tail) hlen (by simp) (by omega) (by omega)
  rw [hyl, hg] at hgQ
  have hQg := hQ.toRaw.grow (by rw [List.length_append, hyl]; simp; omega) g (by simpa only [hyl] using hgQ)
  have fin := fun c h' => puts_end first (onceAt t (putter y)) xs cb.tail h0 10 c h'
  have go : ∃ cb', putsI first (onceAt t (putter y)) cb xs xs.length = .ok (cb', xs.length) ∧ cb' = (
      if t ≤ 4 then placed cb xs (((cb.head + xs.length) % cb.bufsize + 1) % cb.bufsize)
      else if t ≤ 7 then placed cb (y :: xs.tail) (((cb.head + xs.length) % cb.bufsize + 1) % cb.bufsize)
      else if t = 8 then placed cb (y :: xs.tail) ((cb.head + xs.length) % cb.bufsize)
      else withY (placed cb xs ((cb.head + xs.length) % cb.bufsize)) y) := by
    have hos := over_set (a := cb.buffer) (i := cb.head) y h0 (by omega)
    refine ⟨_, ?_, rfl⟩
    rw [putsI, putsLoopI]
    rcases (by omega : t = 1 ∨ t = 2 ∨ t = 3 ∨ t = 4 ∨ t = 5 ∨ t = 6 ∨ t = 7 ∨ t = 8 ∨ t = 9 ∨ t = 10 ∨ t = 11) with
      rfl | rfl | rfl | rfl | rfl | rfl | rfl | rfl | rfl | rfl | rfl <;> cases first <;>
      simp (config := {decide := true}) only [onceAt, loadBoth, if_true, if_false, hpy, withY, hn0, hn1, not_false_eq_true, ne_eq, true_and,
        h0, gt_iff_lt, hck, hm, hmy, Res.ok_bind, advanceI, hne, or_self, hpw, hpp, hmod, hos, placed, Nat.zero_add, Nat.sub_self, fin]
  obtain ⟨cb', h1, h2⟩ := go
  refine ⟨cb', h1, ?_⟩
  subst h2
  rw [bulkBoth, if_neg ht0]
  simp only [placed]
  split_ifs
  · exact ⟨rfl, hPg, by simp; omega⟩
  · exact ⟨rfl, by simpa only [hyl] using hQg, by simp; omega⟩
  · exact ⟨rfl, by simpa only [hyl] using hQ⟩
  · exact ⟨rfl, withY_rep hP y (by simp; omega)⟩

/-- **C247.** At the points outside the copying nothing is lost: the elements of both calls are there, each call's together. -/
theorem C247_partial {cb : Cbuf α} {q : List α} (h : Rep cb q) (xs : List α) (y : α) (first : Bool) (t : Nat) (ht : t < 12)
    (h0 : 0 < xs.length) (hr : q.length + xs.length + 1 < cb.bufsize) (he : cb.head + xs.length ≤ cb.bufsize) (hout : t = 0 ∨ 9 ≤ t) :
    ∃ cb', putsI first (onceAt t (putter y)) cb xs xs.length = .ok (cb', xs.length) ∧
      Rep cb' (if t = 0 then q ++ y :: xs else q ++ xs ++ [y]) := by
  have hl : (cb.head + xs.length) % cb.bufsize < cb.buffer.length := by rw [h.len]; exact Nat.mod_lt _ h.pos
  obtain ⟨cb', h1, -, h2⟩ := C247_exact h xs y _ first t ht h0 hr he (List.getElem?_eq_getElem hl)
  refine ⟨cb', h1, ?_⟩
  rw [bulkBoth] at h2
  rcases hout with rfl | h9
  · exact h2
  · rw [if_neg (by omega : ¬ t = 0)]
    rwa [if_neg (by omega), if_neg (by omega), if_neg (by omega), if_neg (by omega)] at h2

/-- **C247.** Between the load of `head` and the copy: the handler's element is overwritten and an old content of the array delivered
behind the others; both calls report success. -/
theorem C247_handler_wrong {cb : Cbuf α} {q : List α} (h : Rep cb q) (xs : List α) (y g : α) (first : Bool) (t : Nat)
    (ht : 1 ≤ t) (ht' : t ≤ 4) (h0 : 0 < xs.length) (hr : q.length + xs.length + 1 < cb.bufsize) (he : cb.head + xs.length ≤ cb.bufsize)
    (hg : cb.buffer[(cb.head + xs.length) % cb.bufsize]? = some g) :
    ∃ cb', putsI first (onceAt t (putter y)) cb xs xs.length = .ok (cb', xs.length) ∧ Rep cb' (q ++ xs ++ [g]) := by
  obtain ⟨cb', h1, -, h2⟩ := C247_exact h xs y g first t (by omega) h0 hr he hg
  refine ⟨cb', h1, ?_⟩
  rwa [bulkBoth, if_neg (by omega), if_pos ht'] at h2

/-- **C247.** Between the copy and the load of `head` in `advance_pointer`: the first element of the bulk put is overwritten, and an old
content of the array delivered at the end. -/
theorem C247_first_wrong {cb : Cbuf α} {q : List α} (h : Rep cb q) (x : α) (xs : List α) (y g : α) (first : Bool) (t : Nat)
    (ht : 5 ≤ t) (ht' : t ≤ 7) (hr : q.length + (x :: xs).length + 1 < cb.bufsize) (he : cb.head + (x :: xs).length ≤ cb.bufsize)
    (hg : cb.buffer[(cb.head + (x :: xs).length) % cb.bufsize]? = some g) :
    ∃ cb', putsI first (onceAt t (putter y)) cb (x :: xs) (x :: xs).length = .ok (cb', (x :: xs).length) ∧
      Rep cb' (q ++ y :: xs ++ [g]) := by
  obtain ⟨cb', h1, -, h2⟩ := C247_exact h (x :: xs) y g first t (by omega) (by simp) hr he hg
  refine ⟨cb', h1, ?_⟩
  rwa [bulkBoth, if_neg (by omega), if_neg (by omega), if_pos ht'] at h2

/-- **C247.** Between the load and the store of `head`: one element fewer than both calls reported; the first of the bulk put is lost. -/
theorem C247_short_wrong {cb : Cbuf α} {q : List α} (h : Rep cb q) (x : α) (xs : List α) (y : α) (first : Bool)
    (hr : q.length + (x :: xs).length + 1 < cb.bufsize) (he : cb.head + (x :: xs).length ≤ cb.bufsize) :
    ∃ cb', putsI first (onceAt 8 (putter y)) cb (x :: xs) (x :: xs).length = .ok (cb', (x :: xs).length) ∧ Rep cb' (q ++ y :: xs) := by
  have hl : (cb.head + (x :: xs).length) % cb.bufsize < cb.buffer.length := by rw [h.len]; exact Nat.mod_lt _ h.pos
  obtain ⟨cb', h1, -, h2⟩ := C247_exact h (x :: xs) y _ first 8 (by omega) (by simp) hr he (List.getElem?_eq_getElem hl)
  exact ⟨cb', h1, h2⟩

/-- **C247.** If there is room for the elements of the bulk put only, and the handler puts one after `head` was loaded: both calls report
success, and the buffer is empty. -/
theorem C247_empty_wrong {cb : Cbuf α} {q : List α} (h : Rep cb q) (xs : List α) (y : α) (first : Bool) (t : Nat) (ht : 1 ≤ t) (ht' : t ≤ 7)
    (h0 : 2 ≤ xs.length) (hr : q.length + xs.length + 1 = cb.bufsize) (he : cb.head + xs.length ≤ cb.bufsize) :
    ∃ cb', putsI first (onceAt t (putter y)) cb xs xs.length = .ok (cb', xs.length) ∧ Rep cb' [] := by
  have hyl : (y :: xs.tail).length = xs.length := by simp; omega
  have hl : (cb.head + xs.length) % cb.bufsize < cb.buffer.length := by rw [h.len]; exact Nat.mod_lt _ h.pos
  refine ⟨_, bulk_go h xs y first t ht (by omega) (by omega) (by omega) (by omega) he, ?_⟩
  by_cases h4 : t ≤ 4
  · rw [if_pos h4]
    have hP := h.toRaw.push (xs := xs) he (by omega) h.q_lt
    have hg := slot_after (xs := xs) h.len (by omega) he (by omega)
    rw [List.getElem?_eq_getElem hl] at hg
    exact (hP.grow (by simp; omega) _ hg).rep_empty (by simp; omega)
  · rw [if_neg h4, if_pos ht']
    have hQ := h.toRaw.push (xs := y :: xs.tail) (by omega) (by omega) h.q_lt
    have hg := slot_after (n := cb.bufsize) (i := cb.head) (xs := y :: xs.tail) h.len (by simp) (by omega) (by omega)
    rw [hyl, List.getElem?_eq_getElem hl] at hg
    have := (hQ.grow (by rw [List.length_append, hyl]; simp; omega) _ (by simpa only [hyl] using hg)).rep_empty
      (by simp only [List.length_append, hyl, List.length_singleton]; omega)
    simpa only [placed, hyl] using this

theorem putsLoopI_congr (first : Bool) {H H' : Nat → Cbuf α → Cbuf α} (data : List α) (tail : Nat) : ∀ (fuel t : Nat)
    (_ : ∀ k ≥ t, H k = H' k) (cb : Cbuf α) (head off len written : Nat),
    putsLoopI first H data tail fuel t cb head off len written = putsLoopI first H' data tail fuel t cb head off len written
  | 0, _, _, _, _, _, _, _ => rfl
  | fuel + 1, t, hH, cb, head, off, len, written => by
    have ha : ∀ c k, advanceI first H (t + 3) c k = advanceI first H' (t + 3) c k := by
      intro c k
      cases first <;> simp only [advanceI, loadBoth, Bool.false_eq_true, if_true, if_false, hH (t + 3) (by omega),
        hH (t + 3 + 1) (by omega), hH (t + 5) (by omega), hH (t + 6) (by omega),
        hH (t + 7) (by omega)]
    have hl : loadBoth first H t cb = loadBoth first H' t cb := by rw [loadBoth, loadBoth, hH t (by omega), hH (t + 1) (by omega)]
    rw [putsLoopI, putsLoopI, hl]
    simp only [hH (t + 2) (by omega), ha, putsLoopI_congr first data tail fuel (t + 8) fun k hk => hH k (by omega)]

/-- **C247.** Until `head` is stored, the handler finds what was in the buffer before the call: what it is told is what it would be told
without the call in progress. -/
theorem C247_seen {cb : Cbuf α} {q : List α} (h : Rep cb q) (xs : List α) (f : Cbuf α → Cbuf α) (first : Bool) (t : Nat) (ht : t ≤ 8)
    (h0 : 0 < xs.length) (hr : q.length + xs.length < cb.bufsize) (he : cb.head + xs.length ≤ cb.bufsize) :
    ∃ s, Rep s q ∧ s.bufsize = cb.bufsize ∧
      putsI first (onceAt t f) cb xs xs.length = putsI first (onceAt t fun _ => f s) cb xs xs.length := by
  have hlen := h.len
  have hc := fun (s : Cbuf α) fuel => putsLoopI_congr first (H := onceAt t f) (H' := onceAt t fun _ => f s) xs cb.tail fuel 10
    (fun k hk => by funext c; rw [onceAt, onceAt, if_neg (by omega), if_neg (by omega)])
  have hc' := fun (s c : Cbuf α) fuel => putsLoopI_congr first (H := onceAt t f) (H' := onceAt t fun _ => f s) xs c.tail fuel 10
    (fun k hk => by funext c; rw [onceAt, onceAt, if_neg (by omega), if_neg (by omega)])
  have hn0 : ¬ (cb.head + 1) % cb.bufsize = cb.tail := by rw [not_full h]; omega
  have hck := chunk_all h (n := xs.length) (by omega) he
  have hm := memcpy_plain (a := cb.buffer) (xs := xs) (i := cb.head) (by omega)
  by_cases h4 : t ≤ 4
  · refine ⟨cb, h, rfl, ?_⟩
    have hc1 := fun c => hc' cb c
    rw [putsI, putsI, putsLoopI, putsLoopI]
    rcases (by omega : t = 0 ∨ t = 1 ∨ t = 2 ∨ t = 3 ∨ t = 4) with rfl | rfl | rfl | rfl | rfl <;> cases first <;>
      simp (config := {decide := true}) only [onceAt, loadBoth, if_true, if_false, advanceI, hc1]
  · refine ⟨_, h.write_free (xs := xs) he hr, rfl, ?_⟩
    have hc1 := hc { cb with buffer := cb.buffer.take cb.head ++ xs ++ cb.buffer.drop (cb.head + xs.length) }
    rw [putsI, putsI, putsLoopI, putsLoopI]
    rcases (by omega : t = 5 ∨ t = 6 ∨ t = 7 ∨ t = 8) with rfl | rfl | rfl | rfl <;> cases first <;>
      simp (config := {decide := true}) only [onceAt, loadBoth, if_true, if_false, advanceI, hn0, ne_eq, not_false_eq_true, true_and, h0,
        gt_iff_lt, hck, hm, Res.ok_bind, hc1]

/-- A buffer of eight elements that holds `10`; the main program puts `1, 2, 3`, the handler `7`. -/
def bulkStart : Cbuf Nat := { buffer := [90, 91, 10, 93, 94, 95, 96, 97], bufsize := 8, head := 3, tail := 2 }

/-- What is in the buffer after the interrupted call. -/
def bulkSeen (first : Bool) (t : Nat) : Option (List (Option Nat)) :=
  match putsI first (onceAt t (putter 7)) bulkStart [1, 2, 3] 3 with
  | .ok (cb, 3) => some ((List.range ((cb.head + cb.bufsize - cb.tail) % cb.bufsize)).map fun i => cb.buffer[(cb.tail + i) % cb.bufsize]?)
  | _ => none

example : bulkSeen true 0 = some [some 10, some 7, some 1, some 2, some 3] := by decide +kernel
example : bulkSeen false 3 = some [some 10, some 1, some 2, some 3, some 96] := by decide +kernel
example : bulkSeen true 6 = some [some 10, some 7, some 2, some 3, some 96] := by decide +kernel
example : bulkSeen true 8 = some [some 10, some 7, some 2, some 3] := by decide +kernel
example : bulkSeen false 11 = some [some 10, some 1, some 2, some 3, some 7] := by decide +kernel

/-- Room for six: the main program puts six, the handler one. -/
example : (match putsI true (onceAt 5 (putter 7)) ⟨[10, 91, 92, 93, 94, 95, 96, 97], 8, 1, 0⟩ [1, 2, 3, 4, 5, 6] 6 with
    | .ok (cb, n) => some (n, isEmpty cb)
    | _ => none) = some (6, true) := by decide +kernel

end Gel.Cbuf
