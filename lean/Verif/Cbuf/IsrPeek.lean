import Verif.Cbuf.IsrGets

/-!
# Circular buffer: a peek interrupted by a get of an interrupt handler (C249)

`circular_buf_peek` as a sequence of accesses to the buffer, as `circular_buf_gets` in `Cbuf/IsrGets.lean`.
-/
namespace Gel.Cbuf

variable {α : Type u}

/-- The loop of `_circular_buf_get`, circular_buffer.c:41-61, without `consume`, from the point `t` on; an iteration has one point, before
the copy. -/
def peekLoopI (H : Nat → Cbuf α → Cbuf α) (head : Nat) :
    (fuel t : Nat) → Cbuf α → Option (List α) → (tail off len read : Nat) → Res (Cbuf α × Option (List α) × Nat)
  | 0, _, _, _, _, _, _, _ => .diverge
  | fuel + 1, t, cb, out, tail, off, len, read =>
    if len > 0 then do
      let chunk := getChunk cb.bufsize head tail len
      let cb := H t cb
      let out' ← storeChunk out off cb.buffer tail chunk
      peekLoopI H head fuel (t + 1) cb out' ((tail + chunk) % cb.bufsize) (off + chunk) (len - chunk) (read + chunk)
    else .ok (cb, out, read)

/-- `_circular_buf_get` without `consume`, circular_buffer.c:31-64; `len` is a `size_t`. -/
def peekI (first : Bool) (H : Nat → Cbuf α → Cbuf α) (cb : Cbuf α) (out : Option (List α)) (len : Nat) :
    Res (Cbuf α × Option (List α) × Nat) :=
  let (sz, cb) := sizeI first H cb
  let len := if len < sz then len else sz
  let cb := H 4 cb
  let tail := cb.tail
  let cb := H 5 cb
  peekLoopI H cb.head (len + 1) 6 cb out tail 0 len 0

theorem peekLoopI_quiet {H : Nat → Cbuf α → Cbuf α} (head : Nat) : ∀ (fuel t : Nat) (_ : ∀ k ≥ t, ∀ c, H k c = c) (cb : Cbuf α)
    (out : Option (List α)) (tail off len read : Nat),
    peekLoopI H head fuel t cb out tail off len read = getLoop false head fuel cb out tail off len read
  | 0, _, _, _, _, _, _, _, _ => rfl
  | fuel + 1, t, hH, cb, out, tail, off, len, read => by
    rw [peekLoopI, getLoop]
    by_cases hc : len > 0
    · simp only [if_pos hc, hH t (Nat.le_refl t), Bool.false_eq_true, if_false]
      congr 1
      funext b
      exact peekLoopI_quiet head fuel (t + 1) (fun k hk => hH k (by omega)) _ _ _ _ _ _
    · rw [if_neg hc, if_neg hc]

/-- **C249.** Without handlers this is the call of the first model. -/
theorem C249_quiet (first : Bool) (cb : Cbuf α) (out : Option (List α)) (len : Int) :
    peekI first (fun _ c => c) cb out (asSize len) = peek cb out len := by
  have hs : sizeI first (fun _ c => c) cb = (size cb, cb) := by
    simp only [sizeI, loadBoth, size, isFull, ite_self]
    by_cases hf : (cb.head + 1) % cb.bufsize = cb.tail <;> simp [hf]
  rw [peekI, peek, get, hs]
  exact peekLoopI_quiet _ _ _ (fun _ _ _ => rfl) _ _ _ _ _ _

theorem peekLoopI_past (f : Cbuf α → Cbuf α) {t s : Nat} (h : t < s) (head fuel : Nat) (cb : Cbuf α) (out : Option (List α))
    (tail off len read : Nat) :
    peekLoopI (onceAt t f) head fuel s cb out tail off len read = getLoop false head fuel cb out tail off len read :=
  peekLoopI_quiet head fuel s (fun k hk c => by rw [onceAt, if_neg (by omega)]) _ _ _ _ _ _

/-- **C249.** With the handler before the first access the calls are one after the other. -/
theorem C249_before (first : Bool) (f : Cbuf α → Cbuf α) (cb : Cbuf α) (out : Option (List α)) (len : Int) :
    peekI first (onceAt 0 f) cb out (asSize len) = peek (f cb) out len := by
  rw [← C249_quiet first]
  simp (config := {decide := true}) only [peekI, sizeI, onceAt, loadBoth, if_true, if_false,
    peekLoopI_past f (by decide : 0 < 6), peekLoopI_quiet (H := fun _ c => c) _ _ _ (fun _ _ _ => rfl)]

/-- With the handler at a later point. -/
theorem peek_go {cb : Cbuf α} {a : α} {r : List α} (h : Rep cb (a :: r)) (hf : r.length + 1 < cb.bufsize - 1) (out : Option (List α)) (n : Nat)
    (h0 : 0 < n) (first : Bool) (t : Nat) (ht : 1 ≤ t) (ht' : t ≤ 6) :
    peekI first (onceAt t getter) cb out n = getLoop false cb.head (min n (r.length + 1) + 1) (retreat cb 1) out
      (if t ≤ 4 then (cb.tail + 1) % cb.bufsize else cb.tail) 0 (min n (r.length + 1)) 0 := by
  have hP : Rep (retreat cb 1) r := ⟨by simpa using h.toRaw.pop (c := 1) (by simp), by simp [retreat]; omega⟩
  have hy := getter_some h
  have hs := h.size (by simp; omega)
  have hn0 : ¬ (cb.head + 1) % cb.bufsize = cb.tail := by rw [not_full h]; simp; omega
  have hn1 : ¬ (cb.head + 1) % cb.bufsize = (cb.tail + 1) % cb.bufsize := by
    have := not_full hP
    simp only [retreat] at this
    rw [this]; omega
  simp only [size, isFull, beq_eq_false_iff_ne.2 hn0, Bool.not_false, if_true, List.length_cons] at hs
  have hmin : (if n < r.length + 1 then n else r.length + 1) = min n (r.length + 1) := by split_ifs <;> omega
  simp only [retreat] at hy ⊢
  by_cases h6 : t = 6
  · subst h6
    have hpos : 0 < min n (r.length + 1) := by omega
    have hp := fun head fuel => peekLoopI_past (α := α) getter (by omega : 6 < 6 + 1) head fuel
    cases first <;>
      simp (config := {decide := true}) only [peekI, sizeI, onceAt, loadBoth, if_true, if_false, hn0, hs, hmin, peekLoopI, gt_iff_lt, hpos,
        hy, getLoop] <;>
      · congr 1
        funext b
        exact hp _ _ _ _ _ _ _ _
  · have hp := fun head fuel => peekLoopI_past (α := α) getter (by omega : t < 6) head fuel
    rcases (by omega : t = 1 ∨ t = 2 ∨ t = 3 ∨ t = 4 ∨ t = 5) with rfl | rfl | rfl | rfl | rfl <;> cases first <;>
      simp (config := {decide := true}) only [peekI, sizeI, onceAt, loadBoth, if_true, if_false, hy, hn0, hn1, hs, hmin, hp]

/-- **C249.** A peek interrupted once by a get of the handler, at any point after the first access and before the first copy, for every
number of elements wherever they lie: the elements reported are those from the position of the handler's element on, or from the next one
if the handler ran before `tail` was loaded for the copy; `g` is what is in the slot behind the last element. -/
theorem C249_exact {cb : Cbuf α} {a g : α} {r : List α} (h : Rep cb (a :: r)) (hf : r.length + 1 < cb.bufsize - 1)
    (hg : cb.buffer[cb.head]? = some g) (o : List α) (n : Nat) (h0 : 0 < n) (ho : n ≤ o.length) (first : Bool) (t : Nat) (ht : 1 ≤ t)
    (ht' : t ≤ 6) :
    ∃ cb', peekI first (onceAt t getter) cb (some o) n =
        .ok (cb', some (Spec.stored o ((if t ≤ 4 then r ++ [g] else a :: r).take n)), min n (r.length + 1)) ∧ Rep cb' r := by
  have hP : Rep (retreat cb 1) r := ⟨by simpa using h.toRaw.pop (c := 1) (by simp), by simp [retreat]; omega⟩
  refine ⟨retreat cb 1, ?_, hP⟩
  rw [peek_go h hf _ _ h0 _ _ ht ht']
  have main : ∀ (T : Nat) (xs : List α), T < cb.bufsize → xs.length = r.length + 1 → Seg cb.buffer cb.bufsize T xs →
      getLoop false cb.head (min n (r.length + 1) + 1) (retreat cb 1) (some o) T 0 (min n (r.length + 1)) 0 =
        .ok (retreat cb 1, some (Spec.stored o (xs.take n)), min n (r.length + 1)) := by
    intro T xs hT hx hseg
    have hl : (xs.take n).length = min n (r.length + 1) := by rw [List.length_take, hx]
    have := getLoop_eq false cb.head (min n (r.length + 1) + 1) (retreat cb 1) (some o) T 0 0 (xs.take n) (by omega) h.len hT h.head_lt
      (by simp) (by intro i hi; rw [List.getElem?_take, if_pos (by omega)]; exact hseg i (by omega)) (by rintro _ ⟨⟩; omega)
    rw [hl] at this
    rw [this]
    simp [splice, Spec.stored, hl]
  split_ifs with h4
  · exact main _ _ (Nat.mod_lt _ h.pos) (by simp) (hP.toRaw.grow hP.q_lt g hg).seg
  · exact main _ _ h.tail_lt (by simp) h.seg

/-- **C249** (partial). If fewer elements are asked for than there were, or the handler runs after `tail` was loaded for the copy, the
result is that of a peek before the handler or after it. Missing: a peek at all elements with the handler earlier (`C249_wrong`). -/
theorem C249_partial {cb : Cbuf α} {a : α} {r : List α} (h : Rep cb (a :: r)) (hf : r.length + 1 < cb.bufsize - 1) (o : List α) (n : Nat)
    (h0 : 0 < n) (ho : n ≤ o.length) (first : Bool) (t : Nat) (ht : 1 ≤ t) (ht' : t ≤ 6) (hok : n ≤ r.length ∨ 5 ≤ t) :
    ∃ cb' v, peekI first (onceAt t getter) cb (some o) n = .ok (cb', some (Spec.stored o (v.take n)), min n v.length) ∧ Rep cb' r ∧
      v = if t ≤ 4 then r else a :: r := by
  have hl : cb.head < cb.buffer.length := by rw [h.len]; exact h.head_lt
  obtain ⟨cb', h1, h2⟩ := C249_exact h hf (List.getElem?_eq_getElem hl) o n h0 ho first t ht ht'
  refine ⟨cb', _, ?_, h2, rfl⟩
  rw [h1]
  by_cases h4 : t ≤ 4
  · have hn : n ≤ r.length := by omega
    simp only [if_pos h4]
    rw [List.take_append_of_le_length hn, Nat.min_eq_left hn, Nat.min_eq_left (by omega)]
  · simp only [if_neg h4, List.length_cons]

/-- **C249 is false of the code**: a peek at all elements with the handler between the computation of the size and the load of `tail`
reports one element that is not in the buffer, whatever was left in the slot. -/
theorem C249_wrong {cb : Cbuf α} {a g : α} {r : List α} (h : Rep cb (a :: r)) (hf : r.length + 1 < cb.bufsize - 1)
    (hg : cb.buffer[cb.head]? = some g) (o : List α) (n : Nat) (hn : r.length < n) (ho : n ≤ o.length) (first : Bool) (t : Nat) (ht : 1 ≤ t)
    (ht' : t ≤ 4) :
    ∃ cb', peekI first (onceAt t getter) cb (some o) n = .ok (cb', some (Spec.stored o (r ++ [g])), r.length + 1) ∧ Rep cb' r := by
  obtain ⟨cb', h1, h2⟩ := C249_exact h hf hg o n (by omega) ho first t ht (by omega)
  refine ⟨cb', ?_, h2⟩
  rw [h1, if_pos ht', List.take_of_length_le (by simp; omega), Nat.min_eq_right (by omega)]

/-- The buffer of `getStart`, which holds `1` to `5`. -/
def peekSeen (t n : Nat) : Option (Option (List Nat) × Nat × Nat) :=
  match peekI true (onceAt t getter) getStart (some [0, 0, 0, 0, 0, 0]) n with
  | .ok (cb, o, k) => some (o, k, cb.tail)
  | _ => none

example : peekSeen 0 6 = some (some [2, 3, 4, 5, 0, 0], 4, 2) := by decide +kernel
example : peekSeen 3 6 = some (some [2, 3, 4, 5, 96, 0], 5, 2) := by decide +kernel
example : peekSeen 3 2 = some (some [2, 3, 0, 0, 0, 0], 2, 2) := by decide +kernel
example : peekSeen 6 6 = some (some [1, 2, 3, 4, 5, 0], 5, 2) := by decide +kernel

end Gel.Cbuf
