import Verif.Cbuf.Isr

/-!
# Circular buffer: emptied by an interrupt handler (C235)

`circular_buf_reset` in a handler, at any point of a running `circular_buf_putc` or `circular_buf_getc`; those as in `Cbuf/Isr.lean`.
-/
namespace Gel.Cbuf

variable {α : Type u}

/-! ## What is in a buffer with one of the indices at 0 -/

theorem rep_take (b : List α) (n h : Nat) (hb : b.length = n) (hh : h < n) : Rep ⟨b, n, h, 0⟩ (b.take h) where
  len := hb
  tail_lt := by simp; omega
  q_le := by simp; omega
  head := by simp [show min h b.length = h by omega, Nat.mod_eq_of_lt hh]
  q_lt := by simp; omega
  seg := by
    intro i hi
    simp only [List.length_take] at hi
    simp [Nat.mod_eq_of_lt (show i < n by omega), show i < h by omega]

theorem rep_drop (b : List α) (n t : Nat) (hb : b.length = n) (h0 : 0 < t) (ht : t < n) : Rep ⟨b, n, 0, t⟩ (b.drop t) where
  len := hb
  tail_lt := ht
  q_le := by simp; omega
  head := by simp [show t + (b.length - t) = n by omega]
  q_lt := by simp; omega
  seg := by
    intro i hi
    simp only [List.length_drop] at hi
    simp [Nat.mod_eq_of_lt (show t + i < n by omega)]

theorem rep_drop' (b : List α) (n t : Nat) (hb : b.length = n) (ht : t < n) : Rep ⟨b, n, 0, (t + 1) % n⟩ (b.drop (t + 1)) := by
  by_cases h : t + 1 = n
  · rw [h, Nat.mod_self, List.drop_eq_nil_of_le (by omega)]
    simpa using rep_take b n 0 hb (by omega)
  · rw [Nat.mod_eq_of_lt (by omega)]
    exact rep_drop b n (t + 1) hb (by omega) (by omega)

/-! ## The results -/

/-- What `circular_buf_putc` of `x` leaves and returns if the buffer is emptied at the point `t`. -/
def putReset (cb : Cbuf α) (x : α) (first : Bool) (t : Nat) : List α × Int :=
  let b := cb.buffer.set cb.head x
  let mixed : Bool := if first then cb.head + 1 = cb.bufsize else cb.tail = 1
  match t with
  | 0 | 2 => ([x], 0)
  | 1 => if mixed then ([], -1) else ([x], 0)
  | 5 => if mixed then ([], 0) else (b.take 1, 0)
  | 7 => if cb.head + 1 = cb.bufsize then ([], 0) else (b.take (cb.head + 1), 0)
  | _ => (b.take 1, 0)

/-- What `circular_buf_getc` leaves, gives and returns if the buffer is emptied at the point `t`. -/
def getReset (cb : Cbuf α) (first : Bool) (t : Nat) : List α × Option α × Int :=
  let mixed : Bool := if first then cb.head = 0 else cb.tail = 0
  match t with
  | 0 => ([], none, -1)
  | 1 => if mixed then ([], none, -1) else (cb.buffer.drop 1, cb.buffer[0]?, 0)
  | 2 => (cb.buffer.drop 1, cb.buffer[0]?, 0)
  | 5 => (cb.buffer.drop (cb.tail + 1), cb.buffer[cb.tail]?, 0)
  | _ => (cb.buffer.drop 1, cb.buffer[cb.tail]?, 0)

/-- **C235.** What becomes of every `circular_buf_putc` during which the buffer is emptied, at every point (a full buffer is only reached by
the points 0 and 1). -/
theorem C235_put_exact {cb : Cbuf α} {q : List α} (h : Rep cb q) (hn : 2 ≤ cb.bufsize) (x : α) (first : Bool) (t : Nat) (ht : t < 8)
    (hr : q.length < cb.bufsize - 1 ∨ t ≤ 1) :
    ∃ cb', putcI first (onceAt t reset) cb x = .ok (cb', (putReset cb x first t).2) ∧ cb'.bufsize = cb.bufsize ∧
      Rep cb' (putReset cb x first t).1 := by
  obtain ⟨b, n, hd, tl⟩ := cb
  have hlen : b.length = n := h.len
  have hhd : hd < n := h.head_lt
  have htl : tl < n := h.tail_lt
  have hn' : 2 ≤ n := hn
  have h1 : (1 : Nat) % n = 1 := Nat.mod_eq_of_lt (by omega)
  have hfull : q.length < n - 1 → ¬ (hd + 1) % n = tl := fun hlt e => by
    have := (not_full h).1 e
    simp only at this
    omega
  have hmod : (hd + 1) % n = 0 ↔ hd + 1 = n := by
    constructor
    · intro e
      rcases Nat.lt_or_ge (hd + 1) n with hlt | hge
      · rw [Nat.mod_eq_of_lt hlt] at e
        omega
      · omega
    · intro e; rw [e, Nat.mod_self]
  have w0 : wr b 0 x = .ok (b.set 0 x) := wr_set (by omega)
  have wh : wr b hd x = .ok (b.set hd x) := wr_set (by omega)
  have ra : Rep (⟨b.set 0 x, n, 1, 0⟩ : Cbuf α) [x] := by
    have := rep_take (b.set 0 x) n 1 (by simp [hlen]) (by omega)
    have e : (b.set 0 x).take 1 = [x] := by
      cases b with
      | nil => simp at hlen; omega
      | cons y b => simp
    rwa [e] at this
  have re : ∀ b : List α, b.length = n → Rep (⟨b, n, 0, 0⟩ : Cbuf α) [] := fun b hb => by
    simpa using rep_take b n 0 hb (by omega)
  have rb : Rep (⟨b.set hd x, n, 1, 0⟩ : Cbuf α) ((b.set hd x).take 1) := rep_take _ n 1 (by simp [hlen]) (by omega)
  rcases (show t = 0 ∨ t = 1 ∨ t = 2 ∨ t = 3 ∨ t = 4 ∨ t = 5 ∨ t = 6 ∨ t = 7 by omega) with rfl | rfl | rfl | rfl | rfl | rfl | rfl | rfl
  · exact ⟨⟨b.set 0 x, n, 1, 0⟩, by cases first <;> simp [putcI, loadBoth, onceAt, reset, h1, w0, putReset], rfl, ra⟩
  · cases first
    · by_cases e : tl = 1
      · exact ⟨⟨b, n, 0, 0⟩, by simp [putcI, loadBoth, onceAt, reset, h1, putReset, e], rfl, by simpa [putReset, e] using re b hlen⟩
      · exact ⟨⟨b.set 0 x, n, 1, 0⟩, by simp [putcI, loadBoth, onceAt, reset, h1, w0, putReset, e, Ne.symm e], rfl,
          by simpa [putReset, e] using ra⟩
    · by_cases e : hd + 1 = n
      · exact ⟨⟨b, n, 0, 0⟩, by simp [putcI, loadBoth, onceAt, reset, putReset, e], rfl, by simpa [putReset, e] using re b hlen⟩
      · exact ⟨⟨b.set 0 x, n, 1, 0⟩, by simp [putcI, loadBoth, onceAt, reset, h1, w0, putReset, e, hmod], rfl,
          by simpa [putReset, e] using ra⟩
  all_goals have hnf := hfull (by simpa using hr)
  · exact ⟨⟨b.set 0 x, n, 1, 0⟩, by cases first <;> simp [putcI, loadBoth, onceAt, reset, hnf, h1, w0, putReset], rfl, ra⟩
  · exact ⟨⟨b.set hd x, n, 1, 0⟩, by cases first <;> simp [putcI, loadBoth, onceAt, reset, hnf, h1, wh, putReset], rfl, rb⟩
  · exact ⟨⟨b.set hd x, n, 1, 0⟩, by cases first <;> simp [putcI, loadBoth, onceAt, reset, hnf, h1, wh, putReset], rfl, rb⟩
  · cases first
    · by_cases e : tl = 1
      · exact ⟨⟨b.set hd x, n, 0, 0⟩, by subst e; simp [putcI, loadBoth, onceAt, reset, hnf, h1, wh, putReset], rfl,
          by simpa [putReset, e] using re _ (by simp [hlen])⟩
      · exact ⟨⟨b.set hd x, n, 1, 0⟩, by simp [putcI, loadBoth, onceAt, reset, hnf, h1, wh, putReset, e, Ne.symm e], rfl,
          by simpa [putReset, e] using rb⟩
    · by_cases e : hd + 1 = n
      · exact ⟨⟨b.set hd x, n, 0, 0⟩, by simp [putcI, loadBoth, onceAt, reset, hnf, wh, putReset, show ¬ 0 = tl from hmod.2 e ▸ hnf, hmod.2 e, e], rfl,
          by simpa [putReset, e] using re _ (by simp [hlen])⟩
      · exact ⟨⟨b.set hd x, n, 1, 0⟩, by simp [putcI, loadBoth, onceAt, reset, hnf, h1, wh, putReset, e, hmod], rfl,
          by simpa [putReset, e] using rb⟩
  · exact ⟨⟨b.set hd x, n, 1, 0⟩, by cases first <;> simp [putcI, loadBoth, onceAt, reset, hnf, h1, wh, putReset], rfl, rb⟩
  · by_cases e : hd + 1 = n
    · exact ⟨⟨b.set hd x, n, 0, 0⟩, by cases first <;> simp [putcI, loadBoth, onceAt, reset, hnf, wh, putReset, show ¬ 0 = tl from hmod.2 e ▸ hnf, hmod.2 e, e], rfl,
        by simpa [putReset, e] using re _ (by simp [hlen])⟩
    · exact ⟨⟨b.set hd x, n, hd + 1, 0⟩, by
        cases first <;> simp [putcI, loadBoth, onceAt, reset, hnf, wh, putReset, e, show ¬ hd + 1 = tl from
          Nat.mod_eq_of_lt (show hd + 1 < n by omega) ▸ hnf, Nat.mod_eq_of_lt (show hd + 1 < n by omega)], rfl,
        by simpa [putReset, e] using rep_take (b.set hd x) n (hd + 1) (by simp [hlen]) (by omega)⟩

/-- **C235.** What becomes of every `circular_buf_getc` during which the buffer, not empty so far, is emptied, at every point. -/
theorem C235_get_exact {cb : Cbuf α} {q : List α} (h : Rep cb q) (hq : q ≠ []) (first : Bool) (t : Nat) (ht : t < 6) :
    ∃ cb', getcI first (onceAt t reset) cb = .ok (cb', (getReset cb first t).2) ∧ cb'.bufsize = cb.bufsize ∧
      Rep cb' (getReset cb first t).1 := by
  have hne : ¬ cb.head = cb.tail := fun e => hq (h.isEmpty.1 (by simp [isEmpty, e]))
  obtain ⟨b, n, hd, tl⟩ := cb
  have hlen : b.length = n := h.len
  have hhd : hd < n := h.head_lt
  have htl : tl < n := h.tail_lt
  simp only at hne
  have hn' : 2 ≤ n := by omega
  have h1 : (1 : Nat) % n = 1 := Nat.mod_eq_of_lt (by omega)
  have r0 : rd b 0 = .ok b[0] := by simp [rd, show 0 < b.length by omega]
  have rt : rd b tl = .ok b[tl] := by simp [rd, show tl < b.length by omega]
  have g0 : b[0]? = some b[0] := List.getElem?_eq_getElem (by omega)
  have gt : b[tl]? = some b[tl] := List.getElem?_eq_getElem (by omega)
  have re : Rep (⟨b, n, 0, 0⟩ : Cbuf α) [] := by simpa using rep_take b n 0 hlen (by omega)
  have rd1 : Rep (⟨b, n, 0, 1⟩ : Cbuf α) (b.drop 1) := rep_drop b n 1 hlen (by omega) (by omega)
  rcases (show t = 0 ∨ t = 1 ∨ t = 2 ∨ t = 3 ∨ t = 4 ∨ t = 5 by omega) with rfl | rfl | rfl | rfl | rfl | rfl
  · exact ⟨⟨b, n, 0, 0⟩, by cases first <;> simp [getcI, loadBoth, onceAt, reset, getReset], rfl, re⟩
  · cases first
    · by_cases e : tl = 0
      · exact ⟨⟨b, n, 0, 0⟩, by simp [getcI, loadBoth, onceAt, reset, getReset, e], rfl, by simpa [getReset, e] using re⟩
      · exact ⟨⟨b, n, 0, 1⟩, by simp [getcI, loadBoth, onceAt, reset, getReset, e, Ne.symm e, r0, h1, g0], rfl,
          by simpa [getReset, e] using rd1⟩
    · by_cases e : hd = 0
      · exact ⟨⟨b, n, 0, 0⟩, by simp [getcI, loadBoth, onceAt, reset, getReset, e], rfl, by simpa [getReset, e] using re⟩
      · exact ⟨⟨b, n, 0, 1⟩, by simp [getcI, loadBoth, onceAt, reset, getReset, e, r0, h1, g0], rfl,
          by simpa [getReset, e] using rd1⟩
  · exact ⟨⟨b, n, 0, 1⟩, by cases first <;> simp [getcI, loadBoth, onceAt, reset, getReset, hne, r0, h1, g0], rfl, rd1⟩
  · exact ⟨⟨b, n, 0, 1⟩, by cases first <;> simp [getcI, loadBoth, onceAt, reset, getReset, hne, rt, h1, gt], rfl, rd1⟩
  · exact ⟨⟨b, n, 0, 1⟩, by cases first <;> simp [getcI, loadBoth, onceAt, reset, getReset, hne, rt, h1, gt], rfl, rd1⟩
  · exact ⟨⟨b, n, 0, (tl + 1) % n⟩, by cases first <;> simp [getcI, loadBoth, onceAt, reset, getReset, hne, rt, gt], rfl,
      rep_drop' b n tl hlen htl⟩

/-- **C235.** At the beginning of either call, and of `circular_buf_putc` also after its check: the buffer is emptied before the call (what
is missing: the other points, see below). -/
theorem C235_begin_partial {cb : Cbuf α} {q : List α} (h : Rep cb q) (hn : 2 ≤ cb.bufsize) (first : Bool) :
    (∀ x t, t = 0 ∨ (t = 2 ∧ q.length < cb.bufsize - 1) → ∃ cb', putcI first (onceAt t reset) cb x = .ok (cb', 0) ∧ Rep cb' [x]) ∧
    ∃ cb', getcI first (onceAt 0 reset) cb = .ok (cb', none, -1) ∧ Rep cb' [] := by
  constructor
  · intro x t ht
    obtain ⟨cb', h1, -, h2⟩ := C235_put_exact h hn x first t (by omega) (by omega)
    rcases ht with rfl | ⟨rfl, -⟩ <;> exact ⟨cb', h1, h2⟩
  · have hlen := h.len
    refine ⟨reset cb, by cases first <;> simp [getcI, loadBoth, onceAt, reset], ?_⟩
    have := rep_take cb.buffer cb.bufsize 0 hlen (by omega)
    rwa [List.take_zero] at this

/-- **C235.** `circular_buf_getc` interrupted after its check: the buffer that was just emptied is full. -/
theorem C235_get_wrong {cb : Cbuf α} {q : List α} (h : Rep cb q) (hq : q ≠ []) (first : Bool) (t : Nat) (ht : t = 2 ∨ t = 3 ∨ t = 4) :
    ∃ cb' r l, getcI first (onceAt t reset) cb = .ok (cb', r, 0) ∧ cb'.bufsize = cb.bufsize ∧ Rep cb' l ∧ l.length = cb.bufsize - 1 := by
  obtain ⟨cb', h1, h2, h3⟩ := C235_get_exact h hq first t (by omega)
  have hlen := h.len
  rcases ht with rfl | rfl | rfl <;> exact ⟨cb', _, _, h1, h2, h3, by simp [getReset, hlen]⟩

/-- **C235.** `circular_buf_putc` interrupted after it has loaded the index: it reports success, but the buffer holds the old contents of
its first slot instead of the element; or after it has loaded the index again: all the old contents below the index, and the element last. -/
theorem C235_put_wrong {cb : Cbuf α} {q : List α} (h : Rep cb q) (hr : q.length < cb.bufsize - 1) (hh : cb.head ≠ 0) (x : α) (first : Bool) :
    (∀ t, t = 3 ∨ t = 4 ∨ t = 6 → ∃ cb' g, putcI first (onceAt t reset) cb x = .ok (cb', 0) ∧ cb.buffer[0]? = some g ∧ Rep cb' [g]) ∧
    (cb.head + 1 < cb.bufsize → ∃ cb', putcI first (onceAt 7 reset) cb x = .ok (cb', 0) ∧ Rep cb' (cb.buffer.take cb.head ++ [x])) := by
  have hlen := h.len
  have hhd := h.head_lt
  constructor
  · intro t ht
    obtain ⟨cb', h1, -, h2⟩ := C235_put_exact h (by omega) x first t (by omega) (by omega)
    have e : (cb.buffer.set cb.head x).take 1 = [cb.buffer[0]'(by omega)] := by
      rw [List.take_one, List.head?_eq_getElem?, List.getElem?_set_ne hh, List.getElem?_eq_getElem (by omega)]
      rfl
    refine ⟨cb', cb.buffer[0]'(by omega), ?_, List.getElem?_eq_getElem _, ?_⟩
    · rcases ht with rfl | rfl | rfl <;> exact h1
    · rw [← e]; rcases ht with rfl | rfl | rfl <;> exact h2
  · intro hlt
    obtain ⟨cb', h1, -, h2⟩ := C235_put_exact h (by omega) x first 7 (by omega) (by omega)
    have hne : ¬ cb.head + 1 = cb.bufsize := by omega
    refine ⟨cb', by simpa [putReset, hne] using h1, ?_⟩
    have e : (cb.buffer.set cb.head x).take (cb.head + 1) = cb.buffer.take cb.head ++ [x] := by
      rw [List.take_succ, List.take_set_of_le (Nat.le_refl _), List.getElem?_set_self (by omega)]
      rfl
    rw [← e]
    simpa [putReset, hne] using h2

/-! ## Examples -/

/-- Five slots; 30 and 40 are waiting. -/
def waiting : Cbuf Nat := ⟨[10, 20, 30, 40, 50], 5, 4, 2⟩

example : Rep waiting [30, 40] := ⟨⟨by decide, by decide, by decide, by decide, by unfold Seg; decide⟩, by decide⟩

example : getcI true (onceAt 3 reset) waiting = .ok (⟨[10, 20, 30, 40, 50], 5, 0, 1⟩, some 30, 0) ∧
    size ⟨[10, 20, 30, 40, 50], 5, 0, 1⟩ = 5 ∧ putcI true (onceAt 4 reset) waiting 60 = .ok (⟨[10, 20, 30, 40, 60], 5, 1, 0⟩, 0) ∧
    (getc (⟨[10, 20, 30, 40, 60], 5, 1, 0⟩ : Cbuf Nat)) = .ok (⟨[10, 20, 30, 40, 60], 5, 1, 1⟩, some 10, 0) := by
  refine ⟨by rfl, by decide, by rfl, by rfl⟩

/-- An empty buffer found full: `head` was loaded before, `tail` after it was emptied. -/
example : putcI true (onceAt 1 reset) waiting 60 = .ok (⟨[10, 20, 30, 40, 50], 5, 0, 0⟩, -1) := by rfl

end Gel.Cbuf
