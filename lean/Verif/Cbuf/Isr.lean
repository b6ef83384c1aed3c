import Verif.Cbuf.Props

/-!
# Circular buffer: two producers, or two consumers, one of them an interrupt handler (C220)

`circular_buf_putc` and `circular_buf_getc` as sequences of accesses to the buffer, with a handler before each of them that runs to its
end; the handler does `H t` at the `t`-th point of the call. A producer interrupted by a consumer, or the other way round, is C06.
Every mention of `head` and `tail` is a load of its own, as in code that is not optimised; an element is copied in one step.
-/
namespace Gel.Cbuf

variable {α : Type u}

/-- The comparison in `is_circular_buf_full` (circular_buffer.c:104) or `is_circular_buf_empty` (circular_buffer.c:97): the operands may be
evaluated in any order; `first` says that `head` is loaded first. Returns `head`, `tail` and the buffer. -/
def loadBoth (first : Bool) (H : Nat → Cbuf α → Cbuf α) (t : Nat) (cb : Cbuf α) : Nat × Nat × Cbuf α :=
  let cb₀ := H t cb
  let cb₁ := H (t + 1) cb₀
  if first then (cb₀.head, cb₁.tail, cb₁) else (cb₁.head, cb₀.tail, cb₁)

/-- `circular_buf_putc`, circular_buffer.c:138-151, with `advance_pointer`, circular_buffer.c:13-23 (whose result is not used). -/
def putcI (first : Bool) (H : Nat → Cbuf α → Cbuf α) (cb : Cbuf α) (x : α) : Res (Cbuf α × Int) :=
  let (head, tail, cb) := loadBoth first H 0 cb
  if (head + 1) % cb.bufsize = tail then .ok (cb, -1)
  else
    let cb := H 2 cb
    let i := cb.head
    let cb := H 3 cb
    do
      let b ← wr cb.buffer i x
      let (head, tail, cb) := loadBoth first H 4 { cb with buffer := b }
      if (head + 1) % cb.bufsize = tail then .ok (cb, 0)
      else
        let cb := H 6 cb
        let h := cb.head
        let cb := H 7 cb
        .ok ({ cb with head := (h + 1) % cb.bufsize }, 0)

/-- `circular_buf_getc`, circular_buffer.c:187-200, with `data != NULL`, and `retreat_pointer`, circular_buffer.c:25-29. -/
def getcI (first : Bool) (H : Nat → Cbuf α → Cbuf α) (cb : Cbuf α) : Res (Cbuf α × Option α × Int) :=
  let (head, tail, cb) := loadBoth first H 0 cb
  if head = tail then .ok (cb, none, -1)
  else
    let cb := H 2 cb
    let i := cb.tail
    let cb := H 3 cb
    do
      let x ← rd cb.buffer i
      let cb := H 4 cb
      let h := cb.tail
      let cb := H 5 cb
      .ok ({ cb with tail := (h + 1) % cb.bufsize }, some x, 0)

/-- A handler at the point `k` only. -/
def onceAt (k : Nat) (f : Cbuf α → Cbuf α) (t : Nat) (cb : Cbuf α) : Cbuf α := if t = k then f cb else cb

/-- A handler that calls `circular_buf_putc`. -/
def putter (y : α) (cb : Cbuf α) : Cbuf α :=
  match putc cb y with
  | .ok (cb', _) => cb'
  | _ => cb

/-- A handler that calls `circular_buf_getc`. -/
def getter (cb : Cbuf α) : Cbuf α :=
  match getc cb with
  | .ok (cb', _) => cb'
  | _ => cb

/-! ## Without handlers -/

/-- **C220.** Without handlers the calls are those of the first model. -/
theorem C220_quiet (first : Bool) (cb : Cbuf α) :
    (∀ x, putcI first (fun _ c => c) cb x = putc cb x) ∧ getcI first (fun _ c => c) cb = getc cb := by
  constructor
  · intro x
    cases first <;> simp only [putcI, loadBoth, putc, isFull, advance, if_true, Bool.false_eq_true, if_false] <;>
    · by_cases h : (cb.head + 1) % cb.bufsize = cb.tail
      · simp [h]
      · cases hw : wr cb.buffer cb.head x <;> simp [h]
  · cases first <;> simp only [getcI, loadBoth, getc, isEmpty, retreat, if_true, Bool.false_eq_true, if_false] <;>
    · by_cases h : cb.head = cb.tail
      · simp [h]
      · simp only [h, if_false, beq_iff_eq]

/-! ## What the handlers do -/

theorem not_full {cb : Cbuf α} {q : List α} (h : Rep cb q) : ((cb.head + 1) % cb.bufsize = cb.tail) ↔ q.length = cb.bufsize - 1 := by
  have := h.isFull
  rwa [isFull, beq_iff_eq] at this

/-- The slot at `head` is free. -/
theorem Rep.set_free {cb : Cbuf α} {q : List α} (h : Rep cb q) (z : α) : Rep { cb with buffer := cb.buffer.set cb.head z } q where
  len := by simp [h.len]
  tail_lt := h.tail_lt
  q_le := h.q_le
  head := h.head
  q_lt := h.q_lt
  seg := by
    intro i hi
    have h1 := h.head_eq
    have h2 := h.tail_lt
    have h3 := h.q_lt
    simp only
    rw [List.getElem?_set_ne, h.seg i hi]
    rw [mod_two (by omega)]
    split_ifs at h1 ⊢ <;> omega

/-- `head` moved on by one: the element that happens to be in the slot is added. -/
theorem Raw.grow {cb : Cbuf α} {q : List α} (h : Raw cb q) (hq : q.length < cb.bufsize) (g : α) (hg : cb.buffer[cb.head]? = some g) :
    Raw { cb with head := (cb.head + 1) % cb.bufsize } (q ++ [g]) := by
  have hlt : cb.head < cb.bufsize := by rw [h.head]; exact Nat.mod_lt _ (by omega)
  have hp := h.push (xs := [g]) (by simp; omega) (by simp; omega) hq
  have hb : cb.buffer.take cb.head ++ [g] ++ cb.buffer.drop (cb.head + [g].length) = cb.buffer := by
    have hl : cb.head < cb.buffer.length := by rw [h.len]; exact hlt
    rw [List.getElem?_eq_getElem hl, Option.some.injEq] at hg
    rw [← hg]
    simp
  rw [hb] at hp
  exact hp

theorem wr_set {a : List α} {i : Nat} {x : α} (h : i < a.length) : wr a i x = .ok (a.set i x) := by simp [wr, h]

/-- The buffer with `y` put, if there is room. -/
def withY (cb : Cbuf α) (y : α) : Cbuf α := { cb with buffer := cb.buffer.set cb.head y, head := (cb.head + 1) % cb.bufsize }

theorem putter_room {cb : Cbuf α} {q : List α} (h : Rep cb q) (y : α) (hr : q.length < cb.bufsize - 1) :
    putter y cb = withY cb y := by
  have hf : isFull cb = false := by
    cases hf : isFull cb
    · rfl
    · have := h.isFull.1 hf; omega
  have hf' : ∀ b : List α, isFull { cb with buffer := b } = false := fun b => hf
  simp [putter, putc, hf, wr_set (by rw [h.len]; exact h.head_lt : cb.head < cb.buffer.length), advance, hf', withY]

theorem putter_full {cb : Cbuf α} {q : List α} (h : Rep cb q) (y : α) (hr : q.length = cb.bufsize - 1) : putter y cb = cb := by
  simp [putter, putc, h.isFull.2 hr]

theorem withY_rep {cb : Cbuf α} {q : List α} (h : Rep cb q) (y : α) (hr : q.length < cb.bufsize - 1) : Rep (withY cb y) (q ++ [y]) := by
  have hs := h.set_free y
  refine ⟨hs.toRaw.grow (by have := h.q_lt; exact this) y ?_, by simp [withY]; omega⟩
  simp [h.len, h.head_lt]

theorem getter_some {cb : Cbuf α} {q : List α} {x : α} (h : Rep cb (x :: q)) : getter cb = retreat cb 1 := by
  obtain ⟨cb', h1, -, -⟩ := getc_rep h
  have : isEmpty cb = false := by
    cases he : isEmpty cb
    · rfl
    · exact absurd (h.isEmpty.1 he) (by simp)
  simp only [getter, h1]
  rw [getc, this] at h1
  simp only [Bool.false_eq_true, if_false] at h1
  obtain ⟨_, -, h1⟩ := Res.bind_eq_ok.1 h1
  cases h1
  rfl

theorem getter_nil {cb : Cbuf α} (h : Rep cb []) : getter cb = cb := by
  simp [getter, getc, h.isEmpty.2 rfl]

/-! ## Two producers -/

/-- What is in the buffer, and what the interrupted call returns, if the buffer held `q`, the main program puts `x`, the handler puts `y`
at the point `t`, and `g` is what was left in the slot after the next one. -/
def putBoth (n : Nat) (q : List α) (x y g : α) (first : Bool) (t : Nat) : List α × Int :=
  if q.length = n - 1 then (q, -1)
  else
    let two : Bool := decide (q.length + 1 < n - 1)
    let t := if first = false ∧ (t = 1 ∨ t = 5) then t - 1 else t
    match t with
    | 0 => if two then (q ++ [y, x], 0) else (q ++ [y], -1)
    | 1 | 2 => (if two then q ++ [y, x] else q ++ [y], 0)
    | 3 => (if two then q ++ [x, g] else q ++ [x], 0)
    | 4 => (if two then q ++ [y, g] else q ++ [y], 0)
    | 5 | 6 => (if two then q ++ [y, g] else [], 0)
    | _ => (q ++ [y], 0)

theorem withY_set (cb : Cbuf α) (x y : α) : withY { cb with buffer := cb.buffer.set cb.head x } y = withY cb y := by
  simp [withY]

/-- The handler before the check: one call after the other. -/
theorem put_two {cb : Cbuf α} {q : List α} (h : Rep cb q) (x y : α) (hr : q.length < cb.bufsize - 1) :
    ∃ cb', putc (withY cb y) x = .ok (cb', if q.length + 1 < cb.bufsize - 1 then 0 else -1) ∧ cb'.bufsize = cb.bufsize ∧
      Rep cb' (if q.length + 1 < cb.bufsize - 1 then q ++ [y, x] else q ++ [y]) := by
  obtain ⟨cb', h1, h2, h3⟩ := putc_rep (withY_rep h y hr) x
  have hb : (withY cb y).bufsize = cb.bufsize := rfl
  refine ⟨cb', ?_, h3, ?_⟩
  · rw [h1, Spec.put, hb, List.length_append, List.length_singleton]
    split_ifs <;> rfl
  · rw [Spec.put, hb, List.length_append, List.length_singleton] at h2
    split_ifs at h2 ⊢
    · simpa using h2
    · exact h2

/-- `advance_pointer` on a buffer that holds `q`, with `g` in the slot at `head`. -/
theorem advance_any {cb : Cbuf α} {q : List α} (h : Rep cb q) (g : α) (hg : cb.buffer[cb.head]? = some g) :
    Rep (advance cb 1) (if q.length < cb.bufsize - 1 then q ++ [g] else q) := by
  have hq := h.q_lt
  rw [advance]
  by_cases hr : q.length < cb.bufsize - 1
  · have hf : isFull cb = false := by
      cases hf : isFull cb
      · rfl
      · have := h.isFull.1 hf; omega
    simp only [hf, hr, if_true, Bool.false_or]
    exact ⟨h.toRaw.grow hq g hg, by simp; omega⟩
  · rw [h.isFull.2 (by omega), if_neg hr]
    exact h

/-- `head` moved on without looking: a full buffer becomes an empty one. -/
theorem advance_blind {cb : Cbuf α} {q : List α} (h : Rep cb q) (g : α) (hg : cb.buffer[cb.head]? = some g) :
    Rep { cb with head := (cb.head + 1) % cb.bufsize } (if q.length < cb.bufsize - 1 then q ++ [g] else []) := by
  have hq := h.q_lt
  have hR := h.toRaw.grow hq g hg
  split_ifs with hr
  · exact ⟨hR, by simp; omega⟩
  · exact hR.rep_empty (by simp; omega)

theorem set_ne_slot {cb : Cbuf α} {q : List α} (h : Rep cb q) (hr : q.length < cb.bufsize - 1) : cb.head ≠ (cb.head + 1) % cb.bufsize := by
  have := h.head_lt
  rw [mod_two (by omega)]
  split_ifs <;> omega

theorem put0 (first : Bool) (f : Cbuf α → Cbuf α) (cb : Cbuf α) (x : α) : putcI first (onceAt 0 f) cb x = putc (f cb) x := by
  rw [← (C220_quiet first (f cb)).1]
  simp [putcI, loadBoth, onceAt]

theorem put1f (f : Cbuf α → Cbuf α) (cb : Cbuf α) (x : α) (ht : (f cb).tail = cb.tail) :
    putcI false (onceAt 1 f) cb x = putc (f cb) x := by
  rw [← (C220_quiet false (f cb)).1]
  simp [putcI, loadBoth, onceAt, ht]

theorem adv_eq (c : Cbuf α) : (if (c.head + 1) % c.bufsize = c.tail then Res.ok (c, (0 : Int))
    else Res.ok ({ c with head := (c.head + 1) % c.bufsize }, 0)) = .ok (advance c 1, 0) := by
  rw [advance, isFull]
  by_cases h : (c.head + 1) % c.bufsize = c.tail <;> simp [h]

theorem put12 (first : Bool) (f : Cbuf α → Cbuf α) (cb : Cbuf α) (x : α) (t : Nat) (htt : t = 2 ∨ (t = 1 ∧ first = true))
    (ht : (f cb).tail = cb.tail) (hb : (f cb).bufsize = cb.bufsize) (hn : ¬ (cb.head + 1) % cb.bufsize = cb.tail)
    (hl : (f cb).head < (f cb).buffer.length) :
    putcI first (onceAt t f) cb x = .ok (advance { f cb with buffer := (f cb).buffer.set (f cb).head x } 1, 0) := by
  rw [← adv_eq]
  rcases htt with rfl | ⟨rfl, rfl⟩
  · cases first <;> simp [putcI, loadBoth, onceAt, hn, wr_set hl]
  · simp [putcI, loadBoth, onceAt, ht, hb, hn, wr_set hl]

theorem put3 (first : Bool) (f : Cbuf α → Cbuf α) (cb : Cbuf α) (x : α) (hn : ¬ (cb.head + 1) % cb.bufsize = cb.tail)
    (hl : cb.head < (f cb).buffer.length) :
    putcI first (onceAt 3 f) cb x = .ok (advance { f cb with buffer := (f cb).buffer.set cb.head x } 1, 0) := by
  rw [← adv_eq]
  cases first <;> simp [putcI, loadBoth, onceAt, hn, wr_set hl]

theorem put4 (first : Bool) (f : Cbuf α → Cbuf α) (cb : Cbuf α) (x : α) (t : Nat) (htt : t = 4 ∨ (t = 5 ∧ first = false))
    (hn : ¬ (cb.head + 1) % cb.bufsize = cb.tail) (hl : cb.head < cb.buffer.length)
    (ht : (f { cb with buffer := cb.buffer.set cb.head x }).tail = cb.tail) :
    putcI first (onceAt t f) cb x = .ok (advance (f { cb with buffer := cb.buffer.set cb.head x }) 1, 0) := by
  rw [← adv_eq]
  rcases htt with rfl | ⟨rfl, rfl⟩
  · cases first <;> simp [putcI, loadBoth, onceAt, hn, wr_set hl]
  · simp [putcI, loadBoth, onceAt, hn, wr_set hl, ht]

theorem put56 (first : Bool) (f : Cbuf α → Cbuf α) (cb : Cbuf α) (x : α) (t : Nat) (htt : t = 6 ∨ (t = 5 ∧ first = true))
    (hn : ¬ (cb.head + 1) % cb.bufsize = cb.tail) (hl : cb.head < cb.buffer.length)
    (ht : (f { cb with buffer := cb.buffer.set cb.head x }).tail = cb.tail)
    (hb : (f { cb with buffer := cb.buffer.set cb.head x }).bufsize = cb.bufsize) :
    putcI first (onceAt t f) cb x = .ok ({ f { cb with buffer := cb.buffer.set cb.head x } with
      head := ((f { cb with buffer := cb.buffer.set cb.head x }).head + 1) % (f { cb with buffer := cb.buffer.set cb.head x }).bufsize }, 0) := by
  rcases htt with rfl | ⟨rfl, rfl⟩
  · cases first <;> simp [putcI, loadBoth, onceAt, hn, wr_set hl]
  · simp [putcI, loadBoth, onceAt, hn, wr_set hl, ht, hb]

theorem put7 (first : Bool) (f : Cbuf α → Cbuf α) (cb : Cbuf α) (x : α)
    (hn : ¬ (cb.head + 1) % cb.bufsize = cb.tail) (hl : cb.head < cb.buffer.length) :
    putcI first (onceAt 7 f) cb x = .ok ({ f { cb with buffer := cb.buffer.set cb.head x } with
      head := (cb.head + 1) % (f { cb with buffer := cb.buffer.set cb.head x }).bufsize }, 0) := by
  cases first <;> simp [putcI, loadBoth, onceAt, hn, wr_set hl]

/-- **C220.** Two producers: what becomes of every call of `circular_buf_putc` interrupted by another one, at every point. -/
theorem C220_put_exact {cb : Cbuf α} {q : List α} (h : Rep cb q) (x y g : α) (hg : cb.buffer[(cb.head + 1) % cb.bufsize]? = some g)
    (first : Bool) (t : Nat) (ht : t < 8) :
    ∃ cb', putcI first (onceAt t (putter y)) cb x = .ok (cb', (putBoth cb.bufsize q x y g first t).2) ∧ cb'.bufsize = cb.bufsize ∧
      Rep cb' (putBoth cb.bufsize q x y g first t).1 := by
  by_cases hf : q.length = cb.bufsize - 1
  · have hn := (not_full h).2 hf
    refine ⟨cb, ?_, rfl, by simpa [putBoth, hf] using h⟩
    have hy := putter_full h y hf
    have hH : ∀ k, onceAt t (putter y) k cb = cb := fun k => by rw [onceAt]; split_ifs <;> simp [hy]
    cases first <;> simp [putcI, loadBoth, hH, hn, putBoth, hf]
  · have hq := h.q_lt
    have hr : q.length < cb.bufsize - 1 := by omega
    have hn : ¬ (cb.head + 1) % cb.bufsize = cb.tail := fun e => hf ((not_full h).1 e)
    have hl : cb.head < cb.buffer.length := by rw [h.len]; exact h.head_lt
    have hy := putter_room h y hr
    have hx := putter_room (h.set_free x) y hr
    rw [withY_set] at hx
    have hY := withY_rep h y hr
    have hne := set_ne_slot h hr
    have hgY : (withY cb y).buffer[(withY cb y).head]? = some g := by
      simp only [withY]
      rw [List.getElem?_set_ne hne, hg]
    have hlY : (withY cb y).head < (withY cb y).buffer.length := by rw [hY.len]; exact hY.head_lt
    have hlen : (q ++ [y]).length = q.length + 1 := by simp
    have fin : ∀ s l r, Rep s l → s.bufsize = cb.bufsize → putcI first (onceAt t (putter y)) cb x = .ok (s, r) →
        putBoth cb.bufsize q x y g first t = (l, r) →
        ∃ cb', putcI first (onceAt t (putter y)) cb x = .ok (cb', (putBoth cb.bufsize q x y g first t).2) ∧ cb'.bufsize = cb.bufsize ∧
          Rep cb' (putBoth cb.bufsize q x y g first t).1 := by
      intro s l r h3 h2 h1 h4
      exact ⟨s, by rw [h4]; exact h1, h2, by rw [h4]; exact h3⟩
    -- the handler before the check
    obtain ⟨c0, hc0, hb0, hR0⟩ := put_two h x y hr
    -- the handler between the check and the load of the index
    have hR2 := advance_any (hY.set_free x) x (by simp [hlY])
    rw [hlen] at hR2
    -- the handler before the store of the element
    have hX := withY_rep h x hr
    have hgX : (withY cb x).buffer[(withY cb x).head]? = some g := by
      simp only [withY]
      rw [List.getElem?_set_ne hne, hg]
    have hR3 := advance_any hX g hgX
    -- the handler after it
    have hR4 := advance_any hY g hgY
    -- the handler after the second check
    have hR5 := advance_blind hY g hgY
    rw [hlen] at hR4 hR5
    rw [show (q ++ [x]).length = q.length + 1 by simp] at hR3
    have hbY : (withY cb y).bufsize = cb.bufsize := rfl
    have hbX : (withY cb x).bufsize = cb.bufsize := rfl
    have htY : (withY cb y).tail = cb.tail := rfl
    have hhY : (withY cb y).head = (cb.head + 1) % cb.bufsize := rfl
    have hset : { withY cb y with buffer := (withY cb y).buffer.set cb.head x } = withY cb x := by simp [withY]
    have hlY' : cb.head < (withY cb y).buffer.length := by simpa [withY] using hl
    have hadv : ∀ c : Cbuf α, (advance c 1).bufsize = c.bufsize := fun c => by rw [advance]; split_ifs <;> rfl
    have key : t = 0 ∨ (t = 1 ∧ first = false) ∨ (t = 2 ∨ (t = 1 ∧ first = true)) ∨ t = 3 ∨ (t = 4 ∨ (t = 5 ∧ first = false)) ∨
        (t = 6 ∨ (t = 5 ∧ first = true)) ∨ t = 7 := by
      cases first <;> simp <;> omega
    rcases key with rfl | ⟨rfl, rfl⟩ | key | rfl | key | key | rfl
    · refine fin _ _ _ hR0 hb0 (by rw [put0, hy, hc0]) ?_
      simp only [putBoth, hf]
      by_cases two : q.length + 1 < cb.bufsize - 1 <;> cases first <;> simp [two]
    · refine fin _ _ _ hR0 hb0 (by rw [put1f _ _ _ (by rw [hy, htY]), hy, hc0]) ?_
      simp only [putBoth, hf]
      by_cases two : q.length + 1 < cb.bufsize - 1 <;> simp [two]
    · refine fin _ _ _ hR2 ((hadv _).trans rfl) (by rw [put12 first _ _ _ t key (by rw [hy, htY]) (by rw [hy, hbY]) hn (by rw [hy]; exact hlY), hy]) ?_
      rcases key with rfl | ⟨rfl, rfl⟩ <;> simp only [putBoth, hf, hbY] <;>
        by_cases two : q.length + 1 < cb.bufsize - 1 <;> simp [two]
    · refine fin _ _ _ hR3 ((hadv _).trans rfl) (by rw [put3 first _ _ _ hn (by rw [hy]; exact hlY'), hy, ← hset]) ?_
      simp only [putBoth, hf, hbX]
      by_cases two : q.length + 1 < cb.bufsize - 1 <;> simp [two]
    · refine fin _ _ _ hR4 ((hadv _).trans rfl) (by rw [put4 first _ _ _ t key hn hl (by rw [hx, htY]), hx]) ?_
      rcases key with rfl | ⟨rfl, rfl⟩ <;> simp only [putBoth, hf, hbY] <;>
        by_cases two : q.length + 1 < cb.bufsize - 1 <;> simp [two]
    · refine fin _ _ _ hR5 rfl (by rw [put56 first _ _ _ t key hn hl (by rw [hx, htY]) (by rw [hx, hbY]), hx]) ?_
      rcases key with rfl | ⟨rfl, rfl⟩ <;> simp only [putBoth, hf, hbY] <;>
        by_cases two : q.length + 1 < cb.bufsize - 1 <;> simp [two]
    · refine fin _ _ _ hY rfl (by rw [put7 first _ _ _ hn hl, hx]; rfl) ?_
      simp only [putBoth, hf]
      simp

/-- **C220.** The handler finds what was in the buffer before the call: what it is told is what it would be told without the call
in progress. -/
theorem C220_put_seen {cb : Cbuf α} {q : List α} (h : Rep cb q) (x : α) (first : Bool) (t : Nat) (ht : t < 8) (f : Cbuf α → Cbuf α) :
    ∃ s, Rep s q ∧ s.bufsize = cb.bufsize ∧ putcI first (onceAt t f) cb x = putcI first (onceAt t fun _ => f s) cb x := by
  have hl : cb.head < cb.buffer.length := by rw [h.len]; exact h.head_lt
  by_cases h4 : t < 4
  · refine ⟨cb, h, rfl, ?_⟩
    have : t = 0 ∨ t = 1 ∨ t = 2 ∨ t = 3 := by omega
    rcases this with rfl | rfl | rfl | rfl <;> cases first <;> simp [putcI, loadBoth, onceAt]
  · refine ⟨_, h.set_free x, rfl, ?_⟩
    have : t = 4 ∨ t = 5 ∨ t = 6 ∨ t = 7 := by omega
    rcases this with rfl | rfl | rfl | rfl <;> cases first <;> simp [putcI, loadBoth, onceAt, wr_set hl]

/-- **C220.** Two producers, as far as the property holds: the handler comes first, before the check of the interrupted call, or before
the load of the index when there was room for two; or the buffer was full. -/
theorem C220_put_partial {cb : Cbuf α} {q : List α} (h : Rep cb q) (x y : α) (first : Bool) (t : Nat) (ht : t < 8)
    (hok : t = 0 ∨ (t ≤ 2 ∧ q.length + 1 < cb.bufsize - 1) ∨ q.length = cb.bufsize - 1) :
    ∃ cb', putcI first (onceAt t (putter y)) cb x =
        .ok (cb', (Spec.put (cb.bufsize - 1) (Spec.put (cb.bufsize - 1) q y).1 x).2) ∧
      cb'.bufsize = cb.bufsize ∧ Rep cb' (Spec.put (cb.bufsize - 1) (Spec.put (cb.bufsize - 1) q y).1 x).1 := by
  have hl : (cb.head + 1) % cb.bufsize < cb.buffer.length := by rw [h.len]; exact Nat.mod_lt _ h.pos
  have hq := h.q_lt
  have he : putBoth cb.bufsize q x y cb.buffer[(cb.head + 1) % cb.bufsize] first t =
      Spec.put (cb.bufsize - 1) (Spec.put (cb.bufsize - 1) q y).1 x := by
    by_cases hf : q.length = cb.bufsize - 1
    · simp [putBoth, Spec.put, hf]
    · have hr : q.length < cb.bufsize - 1 := by omega
      have ht' : t = 0 ∨ (t = 1 ∧ q.length + 1 < cb.bufsize - 1) ∨ (t = 2 ∧ q.length + 1 < cb.bufsize - 1) := by omega
      rcases ht' with rfl | ⟨rfl, two⟩ | ⟨rfl, two⟩
      · by_cases two : q.length + 1 < cb.bufsize - 1 <;> simp [putBoth, Spec.put, hf, hr, two]
      · cases first <;> simp [putBoth, Spec.put, hf, hr, two]
      · simp [putBoth, Spec.put, hf, hr, two]
  have := C220_put_exact h x y _ (List.getElem?_eq_getElem hl) first t ht
  rwa [he] at this

/-- **C220** is false: with the handler just before the store of `head` the element of the main program is lost, though both calls
return 0. -/
theorem C220_lost_wrong {cb : Cbuf α} {q : List α} (h : Rep cb q) (x y : α) (first : Bool) (hr : q.length < cb.bufsize - 1) :
    ∃ cb', putcI first (onceAt 7 (putter y)) cb x = .ok (cb', 0) ∧ Rep cb' (q ++ [y]) := by
  have hl : (cb.head + 1) % cb.bufsize < cb.buffer.length := by rw [h.len]; exact Nat.mod_lt _ h.pos
  obtain ⟨cb', h1, -, h2⟩ := C220_put_exact h x y _ (List.getElem?_eq_getElem hl) first 7 (by omega)
  have hf : ¬ q.length = cb.bufsize - 1 := by omega
  simp only [putBoth, hf] at h1 h2
  exact ⟨cb', by simpa using h1, by simpa using h2⟩

/-- **C220** is false: with the handler between the load of the index and the store of the element, the handler's element is lost, and
in its place the consumer will find the element of the main program followed by whatever was left in the next slot. -/
theorem C220_junk_wrong {cb : Cbuf α} {q : List α} (h : Rep cb q) (x y g : α) (hg : cb.buffer[(cb.head + 1) % cb.bufsize]? = some g)
    (first : Bool) (hr : q.length + 1 < cb.bufsize - 1) :
    ∃ cb', putcI first (onceAt 3 (putter y)) cb x = .ok (cb', 0) ∧ Rep cb' (q ++ [x, g]) := by
  obtain ⟨cb', h1, -, h2⟩ := C220_put_exact h x y g hg first 3 (by omega)
  have hf : ¬ q.length = cb.bufsize - 1 := by omega
  simp only [putBoth, hf] at h1 h2
  exact ⟨cb', by simpa using h1, by simpa [hr] using h2⟩

/-- **C220** is false: with room for one more, and the handler after the check of `advance_pointer`, everything is lost: the buffer is
empty, though both calls return 0. -/
theorem C220_empty_wrong {cb : Cbuf α} {q : List α} (h : Rep cb q) (x y : α) (first : Bool) (hr : q.length + 1 = cb.bufsize - 1) :
    ∃ cb', putcI first (onceAt 6 (putter y)) cb x = .ok (cb', 0) ∧ Rep cb' [] := by
  have hl : (cb.head + 1) % cb.bufsize < cb.buffer.length := by rw [h.len]; exact Nat.mod_lt _ h.pos
  obtain ⟨cb', h1, -, h2⟩ := C220_put_exact h x y _ (List.getElem?_eq_getElem hl) first 6 (by omega)
  have hf : ¬ q.length = cb.bufsize - 1 := by omega
  simp only [putBoth, hf] at h1 h2
  exact ⟨cb', by simpa using h1, by simpa [hr] using h2⟩

/-- **C220** is false: with room for one more, and the handler after the check of the interrupted call, that call returns 0 but its
element is not stored. -/
theorem C220_refused_wrong {cb : Cbuf α} {q : List α} (h : Rep cb q) (x y : α) (first : Bool) (hr : q.length + 1 = cb.bufsize - 1) :
    ∃ cb', putcI first (onceAt 2 (putter y)) cb x = .ok (cb', 0) ∧ Rep cb' (q ++ [y]) := by
  have hl : (cb.head + 1) % cb.bufsize < cb.buffer.length := by rw [h.len]; exact Nat.mod_lt _ h.pos
  obtain ⟨cb', h1, -, h2⟩ := C220_put_exact h x y _ (List.getElem?_eq_getElem hl) first 2 (by omega)
  have hf : ¬ q.length = cb.bufsize - 1 := by omega
  simp only [putBoth, hf] at h1 h2
  exact ⟨cb', by simpa using h1, by simpa [hr] using h2⟩

/-- A ring of four that holds 1 and 2 is empty after both puts. -/
example : putcI true (onceAt 6 (putter 9)) ⟨[1, 2, 0, 0], 4, 2, 0⟩ 3 = .ok (⟨[1, 2, 9, 0], 4, 0, 0⟩, 0) := by decide

/-- A ring of five that holds 1: the 9 of the handler is lost, the consumer will get 1, 3 and the 8 left from earlier. -/
example : putcI true (onceAt 3 (putter 9)) ⟨[1, 7, 8, 0, 0], 5, 1, 0⟩ 3 = .ok (⟨[1, 3, 8, 0, 0], 5, 3, 0⟩, 0) := by decide

/-! ## Two consumers -/

/-- Any positions within the ring are those of some queue. -/
theorem rep_any {cb : Cbuf α} (hb : cb.buffer.length = cb.bufsize) (hh : cb.head < cb.bufsize) (ht : cb.tail < cb.bufsize) :
    ∃ l, Rep cb l ∧ l.length = (cb.head + cb.bufsize - cb.tail) % cb.bufsize := by
  have hk : (cb.head + cb.bufsize - cb.tail) % cb.bufsize < cb.bufsize := Nat.mod_lt _ (by omega)
  refine ⟨(List.range ((cb.head + cb.bufsize - cb.tail) % cb.bufsize)).map fun i =>
    cb.buffer[(cb.tail + i) % cb.bufsize]'(by rw [hb]; exact Nat.mod_lt _ (by omega)), ⟨⟨hb, ht, ?_, ?_, ?_⟩, ?_⟩, ?_⟩
  · simp; omega
  · simp only [List.length_map, List.length_range]
    rw [Nat.add_mod_mod, show cb.tail + (cb.head + cb.bufsize - cb.tail) = cb.head + cb.bufsize by omega, Nat.add_mod_right,
      Nat.mod_eq_of_lt hh]
  · intro i hi
    simp only [List.length_map, List.length_range] at hi
    simp [hi]
  · simpa using hk
  · simp

/-- What a call of `circular_buf_getc` interrupted by another one returns, and what is left in the buffer (`none`: the positions have
crossed, and a full ring of old elements seems to be there), if the buffer held `q` and `g` is in the slot after the next one. The
handler has got the first of `q`. -/
def getBoth (q : List α) (g : α) (first : Bool) (t : Nat) : Option α × Option (List α) :=
  match q with
  | [] => (none, some [])
  | a :: r =>
    let t := if first = true ∧ t = 1 then 0 else t
    match t with
    | 0 => (r.head?, some r.tail)
    | 1 | 2 => (some (r.head?.getD g), if r = [] then none else some r.tail)
    | 3 | 4 => (some a, if r = [] then none else some r.tail)
    | _ => (some a, some r)

theorem get0 (first : Bool) (f : Cbuf α → Cbuf α) (cb : Cbuf α) (t : Nat) (htt : t = 0 ∨ (t = 1 ∧ first = true)) (hh : (f cb).head = cb.head) :
    getcI first (onceAt t f) cb = getc (f cb) := by
  rw [← (C220_quiet first (f cb)).2]
  rcases htt with rfl | ⟨rfl, rfl⟩
  · simp [getcI, loadBoth, onceAt]
  · simp [getcI, loadBoth, onceAt, hh]

theorem get12 (first : Bool) (f : Cbuf α → Cbuf α) (cb : Cbuf α) (t : Nat) (htt : t = 2 ∨ (t = 1 ∧ first = false))
    (hh : (f cb).head = cb.head) (hn : ¬ cb.head = cb.tail) (g : α) (hg : (f cb).buffer[(f cb).tail]? = some g) :
    getcI first (onceAt t f) cb = .ok ({ f cb with tail := ((f cb).tail + 1) % (f cb).bufsize }, some g, 0) := by
  rcases htt with rfl | ⟨rfl, rfl⟩
  · cases first <;> simp [getcI, loadBoth, onceAt, hn, rd_ok hg]
  · simp [getcI, loadBoth, onceAt, hn, hh, rd_ok hg]

theorem get34 (first : Bool) (f : Cbuf α → Cbuf α) (cb : Cbuf α) (t : Nat) (htt : t = 3 ∨ t = 4) (hn : ¬ cb.head = cb.tail)
    (hb : (f cb).buffer = cb.buffer) (a : α) (ha : cb.buffer[cb.tail]? = some a) :
    getcI first (onceAt t f) cb = .ok ({ f cb with tail := ((f cb).tail + 1) % (f cb).bufsize }, some a, 0) := by
  rcases htt with rfl | rfl <;> cases first <;> simp [getcI, loadBoth, onceAt, hn, hb, rd_ok ha]

theorem get5 (first : Bool) (f : Cbuf α → Cbuf α) (cb : Cbuf α) (hn : ¬ cb.head = cb.tail) (a : α) (ha : cb.buffer[cb.tail]? = some a) :
    getcI first (onceAt 5 f) cb = .ok ({ f cb with tail := (cb.tail + 1) % (f cb).bufsize }, some a, 0) := by
  cases first <;> simp [getcI, loadBoth, onceAt, hn, rd_ok ha]

/-- `tail` moved on by two. -/
theorem retreat_two {cb : Cbuf α} {a : α} {r : List α} (h : Rep cb (a :: r)) :
    match (if r = [] then none else some r.tail : Option (List α)) with
    | some l => Rep (retreat (retreat cb 1) 1) l
    | none => ∃ l, l.length = cb.bufsize - 1 ∧ Rep (retreat (retreat cb 1) 1) l := by
  by_cases hr : r = []
  · subst hr
    simp only [if_true]
    have h1 := h.head
    have h2 := h.tail_lt
    have h3 := h.q_lt
    simp only [List.length_singleton] at h1 h3
    obtain ⟨l, hl, hk⟩ := rep_any (cb := retreat (retreat cb 1) 1) h.len h.head_lt (Nat.mod_lt _ h.pos)
    refine ⟨l, ?_, hl⟩
    rw [hk]
    simp only [retreat]
    rw [h1, Nat.mod_add_mod, mod_two (n := cb.bufsize) (x := cb.tail + 1) (by omega), mod_two (n := cb.bufsize) (x := cb.tail + 1 + 1) (by omega)]
    split_ifs
    · rw [show cb.tail + 1 + cb.bufsize - (cb.tail + 1 + 1) = cb.bufsize - 1 by omega, Nat.mod_eq_of_lt (by omega)]
    · rw [mod_two (by omega)]
      split_ifs <;> omega
    · omega
    · rw [show cb.tail + 1 - cb.bufsize + cb.bufsize - (cb.tail + 1 + 1 - cb.bufsize) = cb.bufsize - 1 by omega, Nat.mod_eq_of_lt (by omega)]
  · simp only [hr, if_false]
    have := (h.pop (c := 1) (by simp)).pop (c := 1) (by cases r <;> simp_all)
    simpa using this

/-- **C220.** Two consumers: what becomes of every call of `circular_buf_getc` interrupted by another one, at every point. -/
theorem C220_get_exact {cb : Cbuf α} {q : List α} (h : Rep cb q) (g : α) (hg : cb.buffer[(cb.tail + 1) % cb.bufsize]? = some g)
    (first : Bool) (t : Nat) (ht : t < 6) :
    ∃ cb', getcI first (onceAt t getter) cb = .ok (cb', (getBoth q g first t).1, if (getBoth q g first t).1.isSome then 0 else -1) ∧
      match (getBoth q g first t).2 with
      | some l => Rep cb' l
      | none => ∃ l, l.length = cb.bufsize - 1 ∧ Rep cb' l := by
  cases q with
  | nil =>
    have he : cb.head = cb.tail := by simpa [isEmpty] using h.isEmpty.2 rfl
    have hy := getter_nil h
    have hH : ∀ k, onceAt t getter k cb = cb := fun k => by rw [onceAt]; split_ifs <;> simp [hy]
    refine ⟨cb, ?_, h⟩
    cases first <;> simp [getcI, loadBoth, hH, he, getBoth]
  | cons a r =>
    have hn : ¬ cb.head = cb.tail := fun e => by
      have := h.isEmpty.1 (by simpa [isEmpty] using e)
      cases this
    have hy := getter_some h
    have hh : (getter cb).head = cb.head := by rw [hy]; rfl
    have hb : (getter cb).buffer = cb.buffer := by rw [hy]; rfl
    have ha : cb.buffer[cb.tail]? = some a := by
      have := h.seg 0 (by simp)
      simpa [Nat.mod_eq_of_lt h.tail_lt] using this
    have hP : Rep (retreat cb 1) r := by simpa using h.pop (c := 1) (by simp)
    have hgr : r.head?.getD g = g := by
      cases r with
      | nil => rfl
      | cons b r =>
        have := h.seg 1 (by simp)
        rw [hg] at this
        simpa using this.symm
    have h2 := retreat_two h
    have key : (t = 0 ∨ (t = 1 ∧ first = true)) ∨ (t = 2 ∨ (t = 1 ∧ first = false)) ∨ (t = 3 ∨ t = 4) ∨ t = 5 := by
      cases first <;> simp <;> omega
    rcases key with key | key | key | rfl
    · have hB : getBoth (a :: r) g first t = (r.head?, some r.tail) := by rcases key with rfl | ⟨rfl, rfl⟩ <;> simp [getBoth]
      obtain ⟨cb', h3, h4, -⟩ := getc_rep hP
      refine ⟨cb', ?_, ?_⟩
      · rw [get0 first getter cb t key hh, hy, h3, hB]
        cases r <;> simp [Spec.take1]
      · rw [hB]
        cases r <;> simpa [Spec.take1] using h4
    · have hB : getBoth (a :: r) g first t = (some g, if r = [] then none else some r.tail) := by
        rcases key with rfl | ⟨rfl, rfl⟩ <;> simp [getBoth, hgr]
      refine ⟨retreat (retreat cb 1) 1, ?_, ?_⟩
      rotate_left
      · rw [hB]; exact h2
      · rw [get12 first getter cb t key hh hn g (by rw [hy]; exact hg), hB, hy]
        rfl
    · have hB : getBoth (a :: r) g first t = (some a, if r = [] then none else some r.tail) := by
        rcases key with rfl | rfl <;> simp [getBoth]
      refine ⟨retreat (retreat cb 1) 1, ?_, ?_⟩
      rotate_left
      · rw [hB]; exact h2
      · rw [get34 first getter cb t key hn hb a ha, hB, hy]
        rfl
    · have hB : getBoth (a :: r) g first 5 = (some a, some r) := by simp [getBoth]
      refine ⟨retreat cb 1, ?_, ?_⟩
      rotate_left
      · rw [hB]; exact hP
      · rw [get5 first getter cb hn a ha, hB, hy]
        rfl

/-- **C220.** The handler finds what was in the buffer before the call. -/
theorem C220_get_seen (cb : Cbuf α) (first : Bool) (t : Nat) (ht : t < 6) (f : Cbuf α → Cbuf α) :
    getcI first (onceAt t f) cb = getcI first (onceAt t fun _ => f cb) cb := by
  have : t = 0 ∨ t = 1 ∨ t = 2 ∨ t = 3 ∨ t = 4 ∨ t = 5 := by omega
  rcases this with rfl | rfl | rfl | rfl | rfl | rfl <;> cases first <;> simp [getcI, loadBoth, onceAt]

/-- **C220.** Two consumers, as far as the property holds: the handler comes first, before the check of the interrupted call, or before
the load of the index when there were two elements; or the buffer was empty. -/
theorem C220_get_partial {cb : Cbuf α} {q : List α} (h : Rep cb q) (first : Bool) (t : Nat) (ht : t < 6)
    (hok : t = 0 ∨ (t ≤ 2 ∧ 2 ≤ q.length) ∨ q = []) :
    ∃ cb', getcI first (onceAt t getter) cb = .ok (cb', (Spec.take1 (Spec.take1 q).1).2) ∧ Rep cb' (Spec.take1 (Spec.take1 q).1).1 := by
  have hl : (cb.tail + 1) % cb.bufsize < cb.buffer.length := by rw [h.len]; exact Nat.mod_lt _ h.pos
  obtain ⟨cb', h1, h2⟩ := C220_get_exact h _ (List.getElem?_eq_getElem hl) first t ht
  refine ⟨cb', ?_, ?_⟩
  · rw [h1]
    rcases q with _ | ⟨a, _ | ⟨b, r⟩⟩
    · simp [getBoth, Spec.take1]
    · have : t = 0 := by simpa using hok
      subst this
      simp [getBoth, Spec.take1]
    · have : t = 0 ∨ t = 1 ∨ t = 2 := by simp at hok; omega
      rcases this with rfl | rfl | rfl <;> cases first <;> simp [getBoth, Spec.take1]
  · rcases q with _ | ⟨a, _ | ⟨b, r⟩⟩
    · simpa [getBoth, Spec.take1] using h2
    · have : t = 0 := by simpa using hok
      subst this
      simpa [getBoth, Spec.take1] using h2
    · have : t = 0 ∨ t = 1 ∨ t = 2 := by simp at hok; omega
      rcases this with rfl | rfl | rfl <;> cases first <;> simpa [getBoth, Spec.take1] using h2

/-- **C220** is false: with the handler just before the store of `tail` both get the same element. -/
theorem C220_same_wrong {cb : Cbuf α} {a : α} {r : List α} (h : Rep cb (a :: r)) (first : Bool) :
    ∃ cb', getcI first (onceAt 5 getter) cb = .ok (cb', some a, 0) ∧ Rep cb' r := by
  have hl : (cb.tail + 1) % cb.bufsize < cb.buffer.length := by rw [h.len]; exact Nat.mod_lt _ h.pos
  obtain ⟨cb', h1, h2⟩ := C220_get_exact h _ (List.getElem?_eq_getElem hl) first 5 (by omega)
  exact ⟨cb', by simpa [getBoth] using h1, by simpa [getBoth] using h2⟩

/-- **C220** is false: with the handler just before or after the load of the element both get the same one, and the next one is
lost. -/
theorem C220_skip_wrong {cb : Cbuf α} {a b : α} {r : List α} (h : Rep cb (a :: b :: r)) (first : Bool) (t : Nat) (ht : t = 3 ∨ t = 4) :
    ∃ cb', getcI first (onceAt t getter) cb = .ok (cb', some a, 0) ∧ Rep cb' r := by
  have hl : (cb.tail + 1) % cb.bufsize < cb.buffer.length := by rw [h.len]; exact Nat.mod_lt _ h.pos
  obtain ⟨cb', h1, h2⟩ := C220_get_exact h _ (List.getElem?_eq_getElem hl) first t (by omega)
  rcases ht with rfl | rfl <;> exact ⟨cb', by simpa [getBoth] using h1, by simpa [getBoth] using h2⟩

/-- **C220** is false: with one element, and the handler between the check and the store of `tail`, the buffer, which should be empty,
then seems full. -/
theorem C220_crossed_wrong {cb : Cbuf α} {a : α} (h : Rep cb [a]) (first : Bool) (t : Nat) (ht : 2 ≤ t) (ht' : t ≤ 4) :
    ∃ cb' r, getcI first (onceAt t getter) cb = .ok (cb', some r, 0) ∧ ∃ l, l.length = cb.bufsize - 1 ∧ Rep cb' l := by
  have hl : (cb.tail + 1) % cb.bufsize < cb.buffer.length := by rw [h.len]; exact Nat.mod_lt _ h.pos
  obtain ⟨cb', h1, h2⟩ := C220_get_exact h _ (List.getElem?_eq_getElem hl) first t (by omega)
  have : t = 2 ∨ t = 3 ∨ t = 4 := by omega
  rcases this with rfl | rfl | rfl <;> exact ⟨cb', _, by simpa [getBoth] using h1, by simpa [getBoth] using h2⟩

/-- A ring of four that holds 5 alone: the handler gets it, the main program gets an old 8, and three old elements seem to be there. -/
example : getcI true (onceAt 2 getter) ⟨[5, 8, 7, 6], 4, 1, 0⟩ = .ok (⟨[5, 8, 7, 6], 4, 1, 2⟩, some 8, 0) := by decide

/-- Its contents now. -/
example : size (⟨[5, 8, 7, 6], 4, 1, 2⟩ : Cbuf Nat) = 4 ∧
    run (⟨[5, 8, 7, 6], 4, 1, 2⟩ : Cbuf Nat) [.getc, .getc, .getc, .getc] = .ok (⟨[5, 8, 7, 6], 4, 1, 1⟩,
      [⟨0, some [7]⟩, ⟨0, some [6]⟩, ⟨0, some [5]⟩, ⟨-1, none⟩]) := by decide

end Gel.Cbuf
