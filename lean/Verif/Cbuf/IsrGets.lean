import Verif.Cbuf.Isr

/-!
# Circular buffer: a bulk get interrupted by a get of an interrupt handler (C248)

`circular_buf_gets` and `circular_buf_drop` as sequences of accesses to the buffer, as `circular_buf_getc` in `Cbuf/Isr.lean`: the handler
does `H t` at the `t`-th point and runs to its end; `memcpy` is one step.
-/
namespace Gel.Cbuf

variable {α : Type u}

/-- `circular_buf_size`, circular_buffer.c:107-124, as the first thing in a call. -/
def sizeI (first : Bool) (H : Nat → Cbuf α → Cbuf α) (cb : Cbuf α) : Nat × Cbuf α :=
  let cb := H 0 cb
  let tail := cb.tail
  let cb := H 1 cb
  let head := cb.head
  let (h, l, cb) := loadBoth first H 2 cb
  (if (h + 1) % cb.bufsize = l then cb.bufsize else if head ≥ tail then head - tail else cb.bufsize + head - tail, cb)

/-- The loop of `_circular_buf_get`, circular_buffer.c:41-61, with `consume`, from the point `t` on; an iteration has four points: before the
copy, before the load and the store of `tail` in `retreat_pointer` (circular_buffer.c:25-29), and before the load of what it returns. -/
def getLoopI (H : Nat → Cbuf α → Cbuf α) (head : Nat) :
    (fuel t : Nat) → Cbuf α → Option (List α) → (tail off len read : Nat) → Res (Cbuf α × Option (List α) × Nat)
  | 0, _, _, _, _, _, _, _ => .diverge
  | fuel + 1, t, cb, out, tail, off, len, read =>
    if len > 0 then do
      let chunk := getChunk cb.bufsize head tail len
      let cb := H t cb
      let out' ← storeChunk out off cb.buffer tail chunk
      let cb := H (t + 1) cb
      let l := cb.tail
      let cb := H (t + 2) cb
      let cb := H (t + 3) { cb with tail := (l + chunk) % cb.bufsize }
      getLoopI H head fuel (t + 4) cb out' cb.tail (off + chunk) (len - chunk) (read + chunk)
    else .ok (cb, out, read)

/-- `_circular_buf_get` with `consume`, circular_buffer.c:31-64; `len` is a `size_t`. -/
def getsI (first : Bool) (H : Nat → Cbuf α → Cbuf α) (cb : Cbuf α) (out : Option (List α)) (len : Nat) :
    Res (Cbuf α × Option (List α) × Nat) :=
  let (sz, cb) := sizeI first H cb
  let len := if len < sz then len else sz
  let cb := H 4 cb
  let tail := cb.tail
  let cb := H 5 cb
  getLoopI H cb.head (len + 1) 6 cb out tail 0 len 0

/-! ## Without handlers -/

theorem getLoopI_quiet (head : Nat) : ∀ (fuel t : Nat) (cb : Cbuf α) (out : Option (List α)) (tail off len read : Nat),
    getLoopI (fun _ c => c) head fuel t cb out tail off len read = getLoop true head fuel cb out tail off len read
  | 0, _, _, _, _, _, _, _ => rfl
  | fuel + 1, t, cb, out, tail, off, len, read => by
    rw [getLoopI, getLoop]
    by_cases hc : len > 0
    · simp only [if_pos hc, if_true]
      congr 1
      funext b
      exact getLoopI_quiet head fuel (t + 4) _ _ _ _ _ _
    · rw [if_neg hc, if_neg hc]

/-- **C248.** Without handlers this is the call of the first model. -/
theorem C248_quiet (first : Bool) (cb : Cbuf α) (out : Option (List α)) (len : Int) :
    getsI first (fun _ c => c) cb out (asSize len) = gets cb out len := by
  have hs : sizeI first (fun _ c => c) cb = (size cb, cb) := by
    simp only [sizeI, loadBoth, size, isFull, ite_self]
    by_cases hf : (cb.head + 1) % cb.bufsize = cb.tail <;> simp [hf]
  rw [getsI, gets, get, hs]
  exact getLoopI_quiet _ _ _ _ _ _ _ _ _

/-! ## The handler at any point -/

/-- What the interrupted call gets and what is left, if the buffer held `q`, the call asks for `n` and the handler gets one element at the
point `t`. -/
def bulkGot (q : List α) (n t : Nat) : List α × List α :=
  if t ≤ 4 then (q.tail.take n, q.tail.drop n)
  else if t ≤ 7 then (q.take n, q.drop (n + 1))
  else if t = 8 then (q.take n, q.drop n)
  else (q.take n, q.drop (n + 1))

theorem seg_take {cb : Cbuf α} {q : List α} (h : Rep cb q) {n : Nat} (hn : n ≤ q.length) (he : cb.tail + n ≤ cb.bufsize) :
    (cb.buffer.drop cb.tail).take n = q.take n := by
  apply List.ext_getElem?
  intro i
  rw [List.getElem?_take, List.getElem?_take]
  split_ifs with hi
  · rw [List.getElem?_drop, ← h.seg i (by omega), Nat.mod_eq_of_lt (by omega)]
  · rfl

/-- The copy of elements that lie before the end of the array. -/
theorem store_chunk {cb : Cbuf α} {q o : List α} (h : Rep cb q) {n : Nat} (hn : n ≤ q.length) (he : cb.tail + n ≤ cb.bufsize)
    (ho : n ≤ o.length) :
    storeChunk (some o) 0 cb.buffer cb.tail n = .ok (some (Spec.stored o (q.take n))) := by
  have hl := h.len
  rw [storeChunk, memcpy, if_pos ⟨by omega, by omega⟩, seg_take h hn he]
  simp [Spec.stored, Nat.min_eq_left hn]

/-- The number of elements asked for, if both sizes the call may compute are at least that. -/
theorem pick_size {n b s : Nat} (P : Prop) [Decidable P] (hb : n ≤ b) (hs : n ≤ s) :
    (if n < (if P then b else s) then n else (if P then b else s)) = n := by
  split_ifs <;> omega

/-- The end of the loop after one piece. -/
theorem get_end (H : Nat → Cbuf α → Cbuf α) (head : Nat) {n : Nat} (h0 : 0 < n) (t : Nat) (c : Cbuf α) (out : Option (List α)) (tl : Nat) :
    getLoopI H head n t c out tl n 0 n = .ok (c, out, n) := by
  have : ∀ f, 0 < f → getLoopI H head f t c out tl n 0 n = .ok (c, out, n) := by
    intro f hf
    cases f with
    | zero => omega
    | succ f => rw [getLoopI, if_neg (by omega)]
  exact this n h0

theorem getLoopI_congr {H H' : Nat → Cbuf α → Cbuf α} (head : Nat) : ∀ (fuel t : Nat) (_ : ∀ k ≥ t, H k = H' k) (cb : Cbuf α)
    (out : Option (List α)) (tail off len read : Nat),
    getLoopI H head fuel t cb out tail off len read = getLoopI H' head fuel t cb out tail off len read
  | 0, _, _, _, _, _, _, _, _ => rfl
  | fuel + 1, t, hH, cb, out, tail, off, len, read => by
    rw [getLoopI, getLoopI, hH t (by omega), hH (t + 1) (by omega), hH (t + 2) (by omega), hH (t + 3) (by omega)]
    simp only [getLoopI_congr head fuel (t + 4) fun k hk => hH k (by omega)]

theorem onceAt_past (f f' : Cbuf α → Cbuf α) {t s : Nat} (h : t < s) : ∀ k ≥ s, onceAt t f k = onceAt t f' k := by
  intro k hk
  funext c
  rw [onceAt, onceAt, if_neg (by omega), if_neg (by omega)]

/-- **C248.** Until `tail` is stored for the first time, the handler finds what was in the buffer before the call. -/
theorem C248_seen (cb : Cbuf α) (out : Option (List α)) (n : Nat) (f : Cbuf α → Cbuf α) (first : Bool) (t : Nat) (ht : t < 9) :
    getsI first (onceAt t f) cb out n = getsI first (onceAt t fun _ => f cb) cb out n := by
  have hc := fun head fuel => getLoopI_congr head fuel 10 (onceAt_past f (fun _ => f cb) (by omega : t < 10))
  rcases (by omega : t = 0 ∨ t = 1 ∨ t = 2 ∨ t = 3 ∨ t = 4 ∨ t = 5 ∨ t = 6 ∨ t = 7 ∨ t = 8) with
    rfl | rfl | rfl | rfl | rfl | rfl | rfl | rfl | rfl <;> cases first <;>
    simp (config := {decide := true}) only [getsI, sizeI, onceAt, loadBoth, if_true, if_false, getLoopI, hc]

/-- **C248.** A bulk get of elements that lie before the end of the array, interrupted once at any point by a get of the handler, with
enough elements for both: the call reports that it got all, and gets and leaves what `bulkGot` says. -/
theorem C248_exact {cb : Cbuf α} {q : List α} (h : Rep cb q) (o : List α) (n : Nat) (first : Bool) (t : Nat) (ht : t < 10)
    (h0 : 0 < n) (hn : n < q.length) (he : cb.tail + n < cb.bufsize) (ho : n ≤ o.length) :
    ∃ cb', getsI first (onceAt t getter) cb (some o) n = .ok (cb', some (Spec.stored o (bulkGot q n t).1), n) ∧
      cb'.bufsize = cb.bufsize ∧ Rep cb' (bulkGot q n t).2 := by
  obtain ⟨a, r, rfl⟩ : ∃ a r, q = a :: r := by
    cases q with
    | nil => simp at hn
    | cons a r => exact ⟨a, r, rfl⟩
  simp only [List.length_cons] at hn
  have hlen := h.len
  have htl := h.tail_lt
  have hql := h.q_lt
  simp only [List.length_cons] at hql
  have hP : Rep (retreat cb 1) r := ⟨by simpa using h.toRaw.pop (c := 1) (by simp), by simp [retreat]; omega⟩
  have hy := getter_some h
  have ht1 : (cb.tail + 1) % cb.bufsize = cb.tail + 1 := Nat.mod_eq_of_lt (by omega)
  have htn : (cb.tail + n) % cb.bufsize = cb.tail + n := Nat.mod_eq_of_lt he
  have hh := h.head_eq
  simp only [List.length_cons] at hh
  have hs0 : n ≤ if cb.head ≥ cb.tail then cb.head - cb.tail else cb.bufsize + cb.head - cb.tail := by
    split_ifs at hh ⊢ <;> omega
  have hs1 : n ≤ if cb.head ≥ cb.tail + 1 then cb.head - (cb.tail + 1) else cb.bufsize + cb.head - (cb.tail + 1) := by
    split_ifs at hh ⊢ <;> omega
  have hp0 := fun (P : Prop) [Decidable P] => pick_size P (by omega : n ≤ cb.bufsize) hs0
  have hp1 := fun (P : Prop) [Decidable P] => pick_size P (by omega : n ≤ cb.bufsize) hs1
  have hc0 : getChunk cb.bufsize cb.head cb.tail n = n := by
    have h1 := h.head_eq
    simp only [List.length_cons] at h1
    simp only [getChunk]
    split_ifs at h1 ⊢ <;> omega
  have hc1 : getChunk cb.bufsize cb.head (cb.tail + 1) n = n := by
    have h1 := h.head_eq
    simp only [List.length_cons] at h1
    simp only [getChunk]
    split_ifs at h1 ⊢ <;> omega
  have hst0 := store_chunk (o := o) h (n := n) (by simp; omega) (by omega) ho
  have hst1 := store_chunk (o := o) hP (n := n) (by omega) (by simp only [retreat]; omega) ho
  simp only [retreat, ht1] at hst1
  have hN : Rep (retreat cb n) ((a :: r).drop n) := ⟨h.toRaw.pop (by simp; omega), by simp [retreat]; omega⟩
  have hN1 : Rep (retreat cb (n + 1)) ((a :: r).drop (n + 1)) := ⟨h.toRaw.pop (by simp; omega), by simp [retreat]; omega⟩
  obtain ⟨b, r', hbr⟩ : ∃ b r', (a :: r).drop n = b :: r' := by
    cases hd : (a :: r).drop n with
    | nil => rw [List.drop_eq_nil_iff] at hd; simp at hd; omega
    | cons b r' => exact ⟨b, r', rfl⟩
  have hy9 := getter_some (hbr ▸ hN)
  simp only [retreat] at hy9 hy
  have hm9 : ((cb.tail + n) % cb.bufsize + 1) % cb.bufsize = (cb.tail + (n + 1)) % cb.bufsize := by rw [Nat.mod_add_mod]; congr 1
  have hm7 : (cb.tail + 1 + n) % cb.bufsize = (cb.tail + (n + 1)) % cb.bufsize := by congr 1; omega
  have go : getsI first (onceAt t getter) cb (some o) n = .ok (
      (if t = 8 then retreat cb n else retreat cb (n + 1)), some (Spec.stored o (if t ≤ 4 then r.take n else (a :: r).take n)), n) := by
    rcases (by omega : t = 0 ∨ t = 1 ∨ t = 2 ∨ t = 3 ∨ t = 4 ∨ t = 5 ∨ t = 6 ∨ t = 7 ∨ t = 8 ∨ t = 9) with
      rfl | rfl | rfl | rfl | rfl | rfl | rfl | rfl | rfl | rfl <;> cases first <;>
      simp (config := {decide := true}) only [getsI, sizeI, onceAt, loadBoth, if_true, if_false, hy, hy9, ht1, hp0, hp1, getLoopI, gt_iff_lt,
        h0, hc0, hc1, hst0, hst1, Res.ok_bind, Nat.zero_add, Nat.sub_self, get_end, retreat, hm9, hm7]
  have hd : ∀ k, (a :: r).drop (k + 1) = r.drop k := fun _ => rfl
  refine ⟨if t = 8 then retreat cb n else retreat cb (n + 1), ?_, ?_⟩
  · rw [go, bulkGot]
    split_ifs <;> rfl
  · rw [bulkGot]
    split_ifs <;> first | exact ⟨rfl, hN⟩ | exact ⟨rfl, hN1⟩ | omega

/-- **C248.** Before `tail` is loaded for the copy, or after it is stored, each element is got once, in order. -/
theorem C248_partial {cb : Cbuf α} {q : List α} (h : Rep cb q) (o : List α) (n : Nat) (first : Bool) (t : Nat) (ht : t < 10)
    (h0 : 0 < n) (hn : n < q.length) (he : cb.tail + n < cb.bufsize) (ho : n ≤ o.length) (hout : t ≤ 4 ∨ t = 9) :
    ∃ cb', getsI first (onceAt t getter) cb (some o) n =
        .ok (cb', some (Spec.stored o (if t ≤ 4 then q.tail.take n else q.take n)), n) ∧ Rep cb' (q.drop (n + 1)) := by
  obtain ⟨cb', h1, -, h2⟩ := C248_exact h o n first t ht h0 hn he ho
  refine ⟨cb', ?_, ?_⟩
  · rw [h1, bulkGot]
    rcases hout with h4 | rfl
    · rw [if_pos h4, if_pos h4]
    · rfl
  · rw [bulkGot] at h2
    rcases hout with h4 | rfl
    · rw [if_pos h4] at h2
      simpa [List.drop_drop, Nat.add_comm] using h2
    · exact h2

/-- **C248.** Between the load of `tail` and its load in `retreat_pointer`: the call gets the element the handler has got too, and the one
behind those it gets is got by nobody. -/
theorem C248_skip_wrong {cb : Cbuf α} {a : α} {r : List α} (h : Rep cb (a :: r)) (o : List α) (n : Nat) (first : Bool) (t : Nat)
    (ht : 5 ≤ t) (ht' : t ≤ 7) (hn : n + 1 ≤ r.length) (he : cb.tail + (n + 1) < cb.bufsize) (ho : n + 1 ≤ o.length) :
    ∃ cb', getsI first (onceAt t getter) cb (some o) (n + 1) = .ok (cb', some (Spec.stored o (a :: r.take n)), n + 1) ∧
      Rep cb' (r.drop (n + 1)) := by
  obtain ⟨cb', h1, -, h2⟩ := C248_exact h o (n + 1) first t (by omega) (by omega) (by simp; omega) he ho
  rw [bulkGot, if_neg (by omega), if_pos ht'] at h1 h2
  exact ⟨cb', h1, h2⟩

/-- **C248.** Between the load and the store of `tail` in `retreat_pointer`: the call gets the element the handler has got too. -/
theorem C248_twice_wrong {cb : Cbuf α} {a : α} {r : List α} (h : Rep cb (a :: r)) (o : List α) (n : Nat) (first : Bool)
    (hn : n + 1 ≤ r.length) (he : cb.tail + (n + 1) < cb.bufsize) (ho : n + 1 ≤ o.length) :
    ∃ cb', getsI first (onceAt 8 getter) cb (some o) (n + 1) = .ok (cb', some (Spec.stored o (a :: r.take n)), n + 1) ∧
      Rep cb' (r.drop n) := by
  obtain ⟨cb', h1, -, h2⟩ := C248_exact h o (n + 1) first 8 (by omega) (by omega) (by simp; omega) he ho
  exact ⟨cb', h1, h2⟩

/-! ## The handler before `tail` is loaded for the copy: any number of elements -/

theorem getLoopI_past (f : Cbuf α → Cbuf α) {t s : Nat} (h : t < s) (head fuel : Nat) (cb : Cbuf α) (out : Option (List α))
    (tail off len read : Nat) :
    getLoopI (onceAt t f) head fuel s cb out tail off len read = getLoop true head fuel cb out tail off len read := by
  rw [← getLoopI_quiet (t := s)]
  refine getLoopI_congr head fuel s (fun k hk => ?_) _ _ _ _ _ _
  funext c
  rw [onceAt, if_neg (by omega)]

/-- **C248.** With the handler before the first access the calls are one after the other. -/
theorem C248_before (first : Bool) (f : Cbuf α → Cbuf α) (cb : Cbuf α) (out : Option (List α)) (len : Int) :
    getsI first (onceAt 0 f) cb out (asSize len) = gets (f cb) out len := by
  rw [← C248_quiet first]
  simp (config := {decide := true}) only [getsI, sizeI, onceAt, loadBoth, if_true, if_false,
    getLoopI_past f (by decide : 0 < 6), getLoopI_quiet]

/-- Past the end of an empty buffer it seems full. -/
theorem retreat_empty {cb : Cbuf α} (h : Rep cb []) : ∃ l, l.length = cb.bufsize - 1 ∧ Rep (retreat cb 1) l := by
  have h1 := h.head_eq
  have h2 := h.tail_lt
  obtain ⟨l, hl, hk⟩ := rep_any (cb := retreat cb 1) h.len h.head_lt (Nat.mod_lt _ h.pos)
  refine ⟨l, ?_, hl⟩
  rw [hk]
  simp only [List.length_nil, Nat.add_zero, h2, if_true] at h1
  simp only [retreat, h1]
  rw [mod_two (n := cb.bufsize) (x := cb.tail + 1) (by omega)]
  split_ifs
  · rw [show cb.tail + cb.bufsize - (cb.tail + 1) = cb.bufsize - 1 by omega, Nat.mod_eq_of_lt (by omega)]
  · rw [show cb.tail + cb.bufsize - (cb.tail + 1 - cb.bufsize) = cb.bufsize - 1 + cb.bufsize by omega, Nat.add_mod_right,
      Nat.mod_eq_of_lt (by omega)]

theorem early {cb : Cbuf α} {a : α} {r : List α} (h : Rep cb (a :: r)) (hf : r.length + 1 < cb.bufsize - 1) (out : Option (List α)) (n : Nat)
    (first : Bool) (t : Nat) (ht : 1 ≤ t) (ht' : t ≤ 4) :
    getsI first (onceAt t getter) cb out n =
      getLoop true (retreat cb 1).head (min n (r.length + 1) + 1) (retreat cb 1) out (retreat cb 1).tail 0 (min n (r.length + 1)) 0 := by
  have hP : Rep (retreat cb 1) r := ⟨by simpa using h.toRaw.pop (c := 1) (by simp), by simp [retreat]; omega⟩
  have hy := getter_some h
  have hs := h.size (by simp; omega)
  have hn0 : ¬ (cb.head + 1) % cb.bufsize = cb.tail := by rw [not_full h]; simp; omega
  have hn1 : ¬ (cb.head + 1) % cb.bufsize = (cb.tail + 1) % cb.bufsize := by
    have := not_full hP
    simp only [retreat] at this
    rw [this]; omega
  simp only [size, isFull, beq_eq_false_iff_ne.2 hn0, Bool.not_false, if_true, List.length_cons] at hs
  have hmin : (if n < r.length + 1 then n else r.length + 1) = min n (r.length + 1) := by split_ifs <;> omega
  simp only [retreat] at hy ⊢
  have hp := fun head fuel => getLoopI_past (α := α) getter (by omega : t < 6) head fuel
  rcases (by omega : t = 1 ∨ t = 2 ∨ t = 3 ∨ t = 4) with rfl | rfl | rfl | rfl <;> cases first <;>
    simp (config := {decide := true}) only [getsI, sizeI, onceAt, loadBoth, if_true, if_false, hy, hn0, hn1, hs, hmin, hp]

/-- **C248.** The handler gets an element after the call has computed the size and before it loads `tail`: if the call asks for fewer
elements than there were, all is well, wherever they lie in the array. -/
theorem C248_early_partial {cb : Cbuf α} {a : α} {r : List α} (h : Rep cb (a :: r)) (hf : r.length + 1 < cb.bufsize - 1) (o : List α) (n : Nat)
    (first : Bool) (t : Nat) (ht : 1 ≤ t) (ht' : t ≤ 4) (hn : n ≤ r.length) (ho : n ≤ o.length) :
    ∃ cb', getsI first (onceAt t getter) cb (some o) n = .ok (cb', some (Spec.stored o (r.take n)), n) ∧ Rep cb' (r.drop n) := by
  have hP : Rep (retreat cb 1) r := ⟨by simpa using h.toRaw.pop (c := 1) (by simp), by simp [retreat]; omega⟩
  have hl : (r.take n).length = n := by simp; omega
  have hseg : Seg (retreat cb 1).buffer (retreat cb 1).bufsize (retreat cb 1).tail (r.take n) := by
    intro i hi
    rw [hP.seg i (by omega), List.getElem?_take, if_pos (by omega)]
  have := getLoop_eq true (retreat cb 1).head (n + 1) (retreat cb 1) (some o) (retreat cb 1).tail 0 0 (r.take n) (by omega) hP.len
    hP.tail_lt hP.head_lt (fun _ => rfl) hseg (by rintro _ ⟨⟩; omega)
  rw [hl] at this
  refine ⟨_, ?_, ⟨hP.toRaw.pop hn, ?_⟩⟩
  · rw [early h hf _ _ _ _ ht ht', Nat.min_eq_left (by omega), this]
    simp [splice, Spec.stored, hl, retreat]
  · have := hP.q_lt; simp [retreat] at this ⊢; omega

/-- **C248.** If it asks for all that was there, or more, it gets an old content of the array at the end, which it reports as an element,
and afterwards the buffer seems full. -/
theorem C248_all_wrong {cb : Cbuf α} {a g : α} {r : List α} (h : Rep cb (a :: r)) (hf : r.length + 1 < cb.bufsize - 1)
    (hg : cb.buffer[cb.head]? = some g) (o : List α) (n : Nat) (first : Bool) (t : Nat) (ht : 1 ≤ t) (ht' : t ≤ 4) (hn : r.length < n)
    (ho : n ≤ o.length) :
    ∃ cb', getsI first (onceAt t getter) cb (some o) n = .ok (cb', some (Spec.stored o (r ++ [g])), r.length + 1) ∧
      ∃ l, l.length = cb.bufsize - 1 ∧ Rep cb' l := by
  have hP : Rep (retreat cb 1) r := ⟨by simpa using h.toRaw.pop (c := 1) (by simp), by simp [retreat]; omega⟩
  have hseg := (hP.toRaw.grow hP.q_lt g hg).seg
  have := getLoop_eq true (retreat cb 1).head (r.length + 1 + 1) (retreat cb 1) (some o) (retreat cb 1).tail 0 0 (r ++ [g]) (by simp) hP.len
    hP.tail_lt hP.head_lt (fun _ => rfl) hseg (by rintro _ ⟨⟩; simp; omega)
  have hE : Rep (retreat (retreat cb 1) r.length) [] := ⟨by simpa using hP.toRaw.pop (Nat.le_refl _), h.pos⟩
  obtain ⟨l, hl, hR⟩ := retreat_empty hE
  refine ⟨_, ?_, l, hl, hR⟩
  rw [early h hf _ _ _ _ ht ht', Nat.min_eq_right (by omega)]
  simp only [List.length_append, List.length_singleton] at this
  rw [this]
  simp [splice, Spec.stored, retreat, Nat.add_assoc]

/-- A buffer of eight elements that holds `1` to `5`; the main program asks for two. -/
def getStart : Cbuf Nat := { buffer := [90, 1, 2, 3, 4, 5, 96, 97], bufsize := 8, head := 6, tail := 1 }

/-- What the interrupted call gets, and the position of what is left. -/
def getSeen (first : Bool) (t : Nat) : Option (Option (List Nat) × Nat) :=
  match getsI first (onceAt t getter) getStart (some [0, 0]) 2 with
  | .ok (cb, o, 2) => some (o, cb.tail)
  | _ => none

example : getSeen true 0 = some (some [2, 3], 4) := by decide +kernel
example : getSeen false 4 = some (some [2, 3], 4) := by decide +kernel
example : getSeen false 6 = some (some [1, 2], 4) := by decide +kernel
example : getSeen true 8 = some (some [1, 2], 3) := by decide +kernel
example : getSeen true 9 = some (some [1, 2], 4) := by decide +kernel

/-- The main program asks for up to eight: it is told there were five, the last of which is not an element. -/
example : (match getsI true (onceAt 3 getter) getStart (some (List.replicate 8 0)) 8 with
    | .ok (cb, o, n) => some (o, n, isFull cb)
    | _ => none) = some (some [2, 3, 4, 5, 96, 0, 0, 0], 5, true) := by decide +kernel

end Gel.Cbuf
