import Verif.Cbuf.Model
import Verif.Cbuf.Spec
import Mathlib.Tactic.SplitIfs
import Mathlib.Logic.Basic

/-!
# Circular buffer: representation relation and helper lemmas
-/
namespace Gel.Cbuf

variable {α : Type u}

theorem mod_two {n x : Nat} (h : x < 2 * n) : x % n = if x < n then x else x - n := by
  split_ifs with h1
  · exact Nat.mod_eq_of_lt h1
  · rw [Nat.mod_eq_sub_mod (by omega), Nat.mod_eq_of_lt (by omega)]

/-- `xs` is stored in the ring `b` of size `n` from position `t` on. -/
def Seg (b : List α) (n t : Nat) (xs : List α) : Prop :=
  ∀ i, i < xs.length → b[(t + i) % n]? = xs[i]?

/-- The buffer holds the queue `q`; `q.length = bufsize` is possible here (a wrapped overfull buffer). -/
structure Raw (cb : Cbuf α) (q : List α) : Prop where
  len : cb.buffer.length = cb.bufsize
  tail_lt : cb.tail < cb.bufsize
  q_le : q.length ≤ cb.bufsize
  head : cb.head = (cb.tail + q.length) % cb.bufsize
  seg : Seg cb.buffer cb.bufsize cb.tail q

/-- The buffer holds the queue `q`. -/
structure Rep (cb : Cbuf α) (q : List α) : Prop extends Raw cb q where
  q_lt : q.length < cb.bufsize

theorem Rep.pos {cb : Cbuf α} {q} (h : Rep cb q) : 0 < cb.bufsize := by have := h.tail_lt; omega

theorem Rep.head_lt {cb : Cbuf α} {q} (h : Rep cb q) : cb.head < cb.bufsize := by
  rw [h.head]; exact Nat.mod_lt _ h.pos

theorem Rep.head_eq {cb : Cbuf α} {q} (h : Rep cb q) :
    cb.head = if cb.tail + q.length < cb.bufsize then cb.tail + q.length else cb.tail + q.length - cb.bufsize := by
  rw [h.head]; apply mod_two; have := h.tail_lt; have := h.q_lt; omega

theorem Rep.isEmpty {cb : Cbuf α} {q} (h : Rep cb q) : isEmpty cb = true ↔ q = [] := by
  have h1 := h.head_eq; have h2 := h.q_lt; have h3 := h.tail_lt
  unfold Cbuf.isEmpty
  rw [beq_iff_eq, ← List.length_eq_zero_iff]
  split_ifs at h1 <;> omega

theorem Rep.isFull {cb : Cbuf α} {q} (h : Rep cb q) : isFull cb = true ↔ q.length = cb.bufsize - 1 := by
  have h1 := h.head_eq; have h2 := h.q_lt; have h3 := h.tail_lt; have h4 := h.head_lt
  unfold Cbuf.isFull
  rw [beq_iff_eq, mod_two (by omega)]
  split_ifs at h1 ⊢ <;> omega

theorem Rep.size {cb : Cbuf α} {q} (h : Rep cb q) (hf : q.length ≠ cb.bufsize - 1) : size cb = q.length := by
  have h1 := h.head_eq; have h2 := h.q_lt; have h3 := h.tail_lt; have h4 := h.isFull
  unfold Cbuf.size
  cases hb : Cbuf.isFull cb
  · simp only [Bool.not_false, if_true]
    split_ifs at h1 ⊢ <;> omega
  · exact absurd (h4.1 hb) hf

theorem Rep.size_full {cb : Cbuf α} {q} (h : Rep cb q) (hf : q.length = cb.bufsize - 1) : Cbuf.size cb = cb.bufsize := by
  have h4 := h.isFull.2 hf
  unfold Cbuf.size
  simp [h4]

theorem Raw.rep_empty {cb : Cbuf α} {q} (h : Raw cb q) (hq : q.length = cb.bufsize) : Rep cb [] where
  len := h.len
  tail_lt := h.tail_lt
  q_le := by simp
  head := by rw [h.head, hq]; simp
  seg := by intro i hi; simp at hi
  q_lt := by have := h.tail_lt; simp; omega

theorem memcpy_ok {dst src : List α} {doff soff cnt : Nat} (h1 : doff + cnt ≤ dst.length)
    (h2 : soff + cnt ≤ src.length) :
    memcpy dst doff src soff cnt = .ok (dst.take doff ++ (src.drop soff).take cnt ++ dst.drop (doff + cnt)) := by
  simp [memcpy, h1, h2]

theorem getElem?_splice {dst xs : List α} {doff : Nat} (h1 : doff + xs.length ≤ dst.length) (i : Nat) :
    (dst.take doff ++ xs ++ dst.drop (doff + xs.length))[i]? =
      if doff ≤ i ∧ i < doff + xs.length then xs[i - doff]? else dst[i]? := by
  have hl : (dst.take doff).length = doff := by simp; omega
  rcases Nat.lt_or_ge i doff with h | h
  · rw [if_neg (by omega), List.append_assoc, List.getElem?_append_left (by omega), List.getElem?_take, if_pos h]
  · rw [List.append_assoc, List.getElem?_append_right (by omega), hl]
    rcases Nat.lt_or_ge i (doff + xs.length) with h' | h'
    · rw [List.getElem?_append_left (by omega), if_pos ⟨h, h'⟩]
    · rw [List.getElem?_append_right (by omega), if_neg (by omega), List.getElem?_drop]
      congr 1; omega

/-- Appending a contiguous chunk at the head. -/
theorem Raw.push {cb : Cbuf α} {q xs : List α} (h : Raw cb q) (hh : cb.head + xs.length ≤ cb.bufsize)
    (hq : q.length + xs.length ≤ cb.bufsize) (hlt : q.length < cb.bufsize) :
    Raw { cb with buffer := cb.buffer.take cb.head ++ xs ++ cb.buffer.drop (cb.head + xs.length),
                  head := (cb.head + xs.length) % cb.bufsize } (q ++ xs) where
  len := by have := h.len; simp; omega
  tail_lt := h.tail_lt
  q_le := by simpa using hq
  head := by
    simp only [List.length_append]
    rw [h.head, Nat.mod_add_mod, Nat.add_assoc]
  seg := by
    intro i hi
    simp only [List.length_append] at hi
    have h3 := h.tail_lt
    have hm : (cb.tail + i) % cb.bufsize = _ := mod_two (n := cb.bufsize) (x := cb.tail + i) (by omega)
    have hhd : cb.head = _ := h.head.trans (mod_two (n := cb.bufsize) (x := cb.tail + q.length) (by omega))
    simp only
    rw [getElem?_splice (by rw [h.len]; exact hh)]
    rcases Nat.lt_or_ge i q.length with hiq | hiq
    · rw [List.getElem?_append_left hiq, ← h.seg i hiq]
      rw [if_neg]
      rw [hm]
      split_ifs at hhd ⊢ <;> omega
    · rw [List.getElem?_append_right hiq, if_pos]
      · rw [hm]; congr 1
        split_ifs at hhd ⊢ <;> omega
      · rw [hm]
        split_ifs at hhd ⊢ <;> omega

theorem wr_eq_splice {a : List α} {i : Nat} {x : α} (h : i < a.length) :
    wr a i x = .ok (a.take i ++ [x] ++ a.drop (i + 1)) := by
  simp only [wr, h, if_true]
  rw [List.set_eq_take_append_cons_drop, if_pos h]
  simp

theorem putc_rep {cb : Cbuf α} {q : List α} (h : Rep cb q) (x : α) :
    ∃ cb', putc cb x = .ok (cb', (Spec.put (cb.bufsize - 1) q x).2) ∧ Rep cb' (Spec.put (cb.bufsize - 1) q x).1 ∧
      cb'.bufsize = cb.bufsize := by
  have hf := h.isFull
  have hlt := h.q_lt
  unfold putc Spec.put
  cases hb : Cbuf.isFull cb
  · have hne : q.length < cb.bufsize - 1 := by
      rcases Nat.lt_or_ge q.length (cb.bufsize - 1) with h' | h'
      · exact h'
      · exact absurd (hf.2 (by omega)) (by simp [hb])
    have hw := wr_eq_splice (a := cb.buffer) (x := x) (by rw [h.len]; exact h.head_lt)
    simp only [Bool.not_false, if_true, hw, Res.ok_bind, if_pos hne]
    refine ⟨_, rfl, ?_⟩
    unfold advance
    have hb' : isFull { cb with buffer := cb.buffer.take cb.head ++ [x] ++ cb.buffer.drop (cb.head + 1) } = false := hb
    rw [hb']
    have hp := h.toRaw.push (xs := [x]) (by have := h.head_lt; simp; omega) (by simp; omega) hlt
    exact ⟨⟨hp, by simp; omega⟩, rfl⟩
  · have hq := hf.1 hb
    simp only [Bool.not_true, Bool.false_eq_true, if_false, hq, Nat.lt_irrefl]
    exact ⟨cb, rfl, h, rfl⟩

theorem Raw.pop {cb : Cbuf α} {q : List α} (h : Raw cb q) {c : Nat} (hc : c ≤ q.length) :
    Raw (retreat cb c) (q.drop c) where
  len := h.len
  tail_lt := Nat.mod_lt _ (by have := h.tail_lt; omega)
  q_le := by have := h.q_le; simp [retreat]; omega
  head := by
    simp only [retreat, List.length_drop]
    rw [h.head, Nat.mod_add_mod]
    congr 1; omega
  seg := by
    intro i hi
    simp only [List.length_drop] at hi
    simp only [retreat, List.getElem?_drop]
    rw [Nat.mod_add_mod, ← h.seg (c + i) (by omega), Nat.add_assoc]

theorem Rep.pop {cb : Cbuf α} {q : List α} (h : Rep cb q) {c : Nat} (hc : c ≤ q.length) :
    Rep (retreat cb c) (q.drop c) :=
  ⟨h.toRaw.pop hc, by have := h.q_lt; simp [retreat]; omega⟩

theorem rd_ok {a : List α} {i : Nat} {x : α} (h : a[i]? = some x) : rd a i = .ok x := by simp [rd, h]

theorem getc_rep {cb : Cbuf α} {q : List α} (h : Rep cb q) :
    ∃ cb', getc cb = .ok (cb', (Spec.take1 q).2) ∧ Rep cb' (Spec.take1 q).1 ∧ cb'.bufsize = cb.bufsize := by
  have he := h.isEmpty
  unfold getc
  cases q with
  | nil =>
    rw [he.2 rfl]
    exact ⟨cb, rfl, h, rfl⟩
  | cons x q =>
    have hb : Cbuf.isEmpty cb = false := by
      cases hb : Cbuf.isEmpty cb
      · rfl
      · exact absurd (he.1 hb) (by simp)
    have hs := h.seg 0 (by simp)
    simp only [Nat.add_zero, List.getElem?_cons_zero, Nat.mod_eq_of_lt h.tail_lt] at hs
    simp only [hb, Bool.false_eq_true, if_false, rd_ok hs, Res.ok_bind]
    exact ⟨_, rfl, h.pop (c := 1) (by simp), rfl⟩

theorem getcNull_rep {cb : Cbuf α} {q : List α} (h : Rep cb q) :
    ∃ cb', getcNull cb = .ok (cb', (Spec.take1 q).2.2) ∧ Rep cb' (Spec.take1 q).1 ∧ cb'.bufsize = cb.bufsize := by
  have he := h.isEmpty
  unfold getcNull
  cases q with
  | nil =>
    rw [he.2 rfl]
    exact ⟨cb, rfl, h, rfl⟩
  | cons x q =>
    have hb : Cbuf.isEmpty cb = false := by
      cases hb : Cbuf.isEmpty cb
      · rfl
      · exact absurd (he.1 hb) (by simp)
    simp only [hb, Bool.false_eq_true, if_false]
    exact ⟨_, rfl, h.pop (c := 1) (by simp), rfl⟩

theorem init_rep {b : List α} {n : Nat} (hn : 0 < n) (hb : b.length = n) :
    ∃ cb, init (some b) n = some cb ∧ Rep cb ([] : List α) ∧ cb.bufsize = n := by
  refine ⟨reset ⟨b, n, 0, 0⟩, ?_, ?_, rfl⟩
  · simp [init]; omega
  · refine ⟨⟨hb, hn, by simp, by simp [reset], ?_⟩, hn⟩
    intro i hi; simp at hi

theorem reset_rep {cb : Cbuf α} {q : List α} (h : Rep cb q) : Rep (reset cb) [] := by
  refine ⟨⟨h.len, h.pos, by simp, by simp [reset], ?_⟩, h.pos⟩
  intro i hi; simp at hi

/-! ### Bulk reads -/

theorem exists_seg {b : List α} {n : Nat} (hb : b.length = n) (hn : 0 < n) (t k : Nat) :
    ∃ xs : List α, xs.length = k ∧ Seg b n t xs := by
  induction k with
  | zero => exact ⟨[], rfl, by intro i hi; simp at hi⟩
  | succ k ih =>
    obtain ⟨xs, hl, hs⟩ := ih
    have hlt : (t + k) % n < b.length := by rw [hb]; exact Nat.mod_lt _ hn
    refine ⟨xs ++ [b[(t + k) % n]], by simp [hl], ?_⟩
    intro i hi
    simp only [List.length_append, List.length_singleton] at hi
    rcases Nat.lt_or_ge i xs.length with h | h
    · rw [List.getElem?_append_left h]; exact hs i h
    · have : i = k := by omega
      subst this
      rw [List.getElem?_append_right h, hl]
      simp [hlt]

theorem Seg.drop {b : List α} {n t : Nat} {xs : List α} (h : Seg b n t xs) (c : Nat) :
    Seg b n ((t + c) % n) (xs.drop c) := by
  intro i hi
  simp only [List.length_drop] at hi
  rw [List.getElem?_drop, Nat.mod_add_mod, ← h (c + i) (by omega), Nat.add_assoc]

theorem Seg.take_eq {b : List α} {n t : Nat} {xs : List α} (h : Seg b n t xs) (hb : b.length = n) {c : Nat}
    (hc : c ≤ xs.length) (ht : t + c ≤ n) : (b.drop t).take c = xs.take c := by
  apply List.ext_getElem?
  intro i
  simp only [List.getElem?_take, List.getElem?_drop]
  split_ifs with hi
  · rw [← h i (by omega), Nat.mod_eq_of_lt (by omega)]
  · rfl

theorem getChunk_pos {n head tail len : Nat} (ht : tail < n) (hl : 0 < len) : 0 < getChunk n head tail len := by
  simp only [getChunk]; split_ifs <;> omega

theorem getChunk_le {n head tail len : Nat} (hh : head < n) :
    getChunk n head tail len ≤ len ∧ tail + getChunk n head tail len ≤ max n tail := by
  simp only [getChunk]; split_ifs <;> omega

/-- The output array after storing `xs` at offset `off`. -/
def splice (o : List α) (off : Nat) (xs : List α) : List α := o.take off ++ xs ++ o.drop (off + xs.length)

theorem splice_splice {o xs : List α} {off c : Nat} (ho : off + xs.length ≤ o.length) (hc : c ≤ xs.length) :
    splice (splice o off (xs.take c)) (off + c) (xs.drop c) = splice o off xs := by
  have hl1 : (xs.take c).length = c := by simp; omega
  have hA : (o.take off ++ xs.take c).length = off + c := by simp; omega
  unfold splice
  rw [hl1]
  have h1 : (o.take off ++ xs.take c ++ o.drop (off + c)).take (off + c) = o.take off ++ xs.take c := by
    rw [List.take_append_of_le_length (by omega), List.take_of_length_le (by omega)]
  have h2 : (o.take off ++ xs.take c ++ o.drop (off + c)).drop (off + c + (xs.drop c).length) =
      o.drop (off + xs.length) := by
    rw [List.drop_append, hA, List.drop_of_length_le (by omega), List.drop_drop]
    simp; congr 1; omega
  rw [h1, h2]
  simp

theorem getLoop_eq (consume : Bool) (head : Nat) : ∀ (fuel : Nat) (cb : Cbuf α) (out : Option (List α))
    (tail off read : Nat) (xs : List α), xs.length < fuel → cb.buffer.length = cb.bufsize → tail < cb.bufsize →
    head < cb.bufsize → (consume = true → cb.tail = tail) → Seg cb.buffer cb.bufsize tail xs →
    (∀ o, out = some o → off + xs.length ≤ o.length) →
    getLoop consume head fuel cb out tail off xs.length read =
      .ok (if consume then { cb with tail := (tail + xs.length) % cb.bufsize } else cb,
        out.map (fun o => splice o off xs), read + xs.length) := by
  intro fuel
  induction fuel with
  | zero => intro _ _ _ _ _ _ h; omega
  | succ fuel ih =>
    intro cb out tail off read xs hfuel hlen ht hh hcons hseg hout
    unfold getLoop
    by_cases h0 : 0 < xs.length
    · simp only [gt_iff_lt, h0, if_true]
      have hpos := getChunk_pos (head := head) ht h0
      have hle := getChunk_le (tail := tail) (len := xs.length) hh
      generalize hcdef : getChunk cb.bufsize head tail xs.length = c at hpos hle
      have hct : tail + c ≤ cb.bufsize := by omega
      have htake := hseg.take_eq hlen hle.1 hct
      have hlt : (xs.take c).length = c := by simp; omega
      have hout' : storeChunk out off cb.buffer tail c = Res.ok (out.map (fun o => splice o off (xs.take c))) := by
        unfold storeChunk
        cases out with
        | none => rfl
        | some o =>
          have := hout o rfl
          simp only [memcpy_ok (dst := o) (doff := off) (src := cb.buffer) (soff := tail) (cnt := c) (by omega)
            (by omega), Res.ok_bind, Option.map_some, htake, splice, hlt]
      rw [hout']
      simp only [Res.ok_bind]
      have hlen' : xs.length - c = (xs.drop c).length := by simp
      have hmlt : (tail + c) % cb.bufsize < cb.bufsize := Nat.mod_lt _ (by omega)
      have hbound : ∀ o, (out.map fun o => splice o off (xs.take c)) = some o →
          off + c + (xs.drop c).length ≤ o.length := by
        intro o ho
        cases out with
        | none => simp at ho
        | some o' =>
          have h' := hout o' rfl
          simp only [Option.map_some, Option.some.injEq] at ho
          subst ho
          simp only [splice, List.length_append, List.length_take, List.length_drop]
          omega
      have hmap : Option.map (fun o => splice o (off + c) (xs.drop c))
          (Option.map (fun o => splice o off (xs.take c)) out) = Option.map (fun o => splice o off xs) out := by
        cases out with
        | none => rfl
        | some o =>
          simp only [Option.map_some]
          rw [splice_splice (hout o rfl) hle.1]
      have hmod : ((tail + c) % cb.bufsize + (xs.drop c).length) % cb.bufsize = (tail + xs.length) % cb.bufsize := by
        rw [Nat.mod_add_mod]; simp; congr 1; omega
      have hread : read + c + (xs.drop c).length = read + xs.length := by simp; omega
      cases consume with
      | true =>
        have htl := hcons rfl
        subst htl
        simp only [if_true]
        rw [hlen', show (retreat cb c).tail = (cb.tail + c) % cb.bufsize from rfl,
          ih (retreat cb c) _ _ _ _ _ (by simp; omega) hlen hmlt hh (by intro; rfl) (hseg.drop c) hbound]
        simp only [retreat, hmap, hmod, hread, if_true]
      | false =>
        simp only [Bool.false_eq_true, if_false]
        rw [hlen', ih cb _ _ _ _ _ (by simp; omega) hlen hmlt hh (by intro h; cases h) (hseg.drop c) hbound]
        simp only [hmap, hread, Bool.false_eq_true, if_false]
    · have hx : xs = [] := by
        rw [← List.length_eq_zero_iff]; omega
      subst hx
      have hm : ∀ o : List α, splice o off [] = o := by intro o; simp [splice]
      simp only [List.length_nil, gt_iff_lt, Nat.lt_irrefl, if_false, Nat.add_zero, hm, Option.map_id']
      cases consume with
      | true =>
        have htl := hcons rfl
        subst htl
        simp [Nat.mod_eq_of_lt ht]
      | false => simp

/-- `_circular_buf_get` returns the first `min len size` elements of the ring, whatever they are. -/
theorem get_eq {cb : Cbuf α} {q : List α} (h : Rep cb q) (out : Option (List α)) (len : Nat) (consume : Bool)
    (xs : List α) (hx : xs.length = min len (size cb)) (hs : Seg cb.buffer cb.bufsize cb.tail xs)
    (hout : ∀ o, out = some o → xs.length ≤ o.length) :
    get cb out len consume =
      .ok (if consume then retreat cb xs.length else cb, out.map (fun o => Spec.stored o xs), xs.length) := by
  unfold get
  have : (if len < size cb then len else size cb) = xs.length := by rw [hx]; split_ifs <;> omega
  simp only [this]
  rw [getLoop_eq consume cb.head _ cb out cb.tail 0 0 xs (by omega) h.len h.tail_lt h.head_lt (by intro; rfl) hs
    (by intro o ho; have := hout o ho; omega)]
  simp [retreat, splice, Spec.stored]

/-! ### Bulk put -/

theorem Raw.push_chunk {cb : Cbuf α} {q data : List α} {off c : Nat} (h : Raw cb q) (hlt : q.length < cb.bufsize)
    (hh : cb.head + c ≤ cb.bufsize) (hq : q.length + c ≤ cb.bufsize) (hd : off + c ≤ data.length)
    (hnf : isFull cb = false) :
    ∃ b, memcpy cb.buffer cb.head data off c = .ok b ∧
      Raw (advance { cb with buffer := b } c) (q ++ (data.drop off).take c) ∧
      (advance { cb with buffer := b } c).bufsize = cb.bufsize ∧
      (advance { cb with buffer := b } c).tail = cb.tail ∧
      (advance { cb with buffer := b } c).head = (cb.head + c) % cb.bufsize := by
  have hl : ((data.drop off).take c).length = c := by simp; omega
  have hc := memcpy_ok (dst := cb.buffer) (doff := cb.head) (src := data) (soff := off) (cnt := c)
    (by rw [h.len]; exact hh) hd
  refine ⟨_, hc, ?_⟩
  have hp := h.push (xs := (data.drop off).take c) (by omega) (by omega) hlt
  rw [hl] at hp
  unfold advance
  have hb' : isFull { cb with buffer := cb.buffer.take cb.head ++ (data.drop off).take c ++ cb.buffer.drop (cb.head + c) } = false := hnf
  rw [hb']
  by_cases h0 : c = 0
  · subst h0
    simp only [beq_self_eq_true, Bool.or_true, if_true]
    simp only [Nat.add_zero] at hp ⊢
    have hhd : cb.head % cb.bufsize = cb.head := by rw [h.head, Nat.mod_mod]
    rw [hhd] at hp
    exact ⟨hp, by simp [hhd]⟩
  · have : (c == 0) = false := by simp [h0]
    simp only [this, Bool.or_false, Bool.false_eq_true, if_false]
    exact ⟨hp, by simp⟩

/-- The region in which `circular_buf_puts` goes wrong: exactly one element more than fits is requested and the last
free segment is bounded by the tail (and not empty when it is reached). -/
def PutCorner (cb : Cbuf α) (q : List α) (len : Nat) : Prop :=
  len = cb.bufsize - 1 - q.length + 1 ∧
    ((cb.head < cb.tail ∧ q.length < cb.bufsize - 1) ∨ (cb.tail ≤ cb.head ∧ 2 ≤ cb.tail))

theorem isFull_false {cb : Cbuf α} {q : List α} (h : Rep cb q) (hq : q.length ≠ cb.bufsize - 1) :
    isFull cb = false := by
  cases hb : Cbuf.isFull cb
  · rfl
  · exact absurd (h.isFull.1 hb) hq

/-- Where the loop stops. -/
theorem putsLoop_stop {data : List α} {tail fuel : Nat} {cb : Cbuf α} {head off len written : Nat} (hf : 0 < fuel)
    (h : isFull cb = true ∨ len = 0) : putsLoop data tail fuel cb head off len written = .ok (cb, written) := by
  obtain ⟨fuel, rfl⟩ : ∃ k, fuel = k + 1 := ⟨fuel - 1, by omega⟩
  unfold putsLoop
  rcases h with h | h <;> simp [h]

/-- One iteration. -/
theorem putsLoop_step {data : List α} {tail fuel : Nat} {cb : Cbuf α} {head off len written : Nat}
    {b : List α} (hf : 0 < fuel) (hnf : isFull cb = false) (hl : 0 < len)
    (hb : memcpy cb.buffer head data off (putChunk cb.bufsize head tail len) = .ok b) :
    putsLoop data tail fuel cb head off len written =
      putsLoop data tail (fuel - 1) (advance { cb with buffer := b } (putChunk cb.bufsize head tail len))
        (advance { cb with buffer := b } (putChunk cb.bufsize head tail len)).head
        (off + putChunk cb.bufsize head tail len) (len - putChunk cb.bufsize head tail len)
        (written + putChunk cb.bufsize head tail len) := by
  obtain ⟨fuel, rfl⟩ : ∃ k, fuel = k + 1 := ⟨fuel - 1, by omega⟩
  conv => lhs; unfold putsLoop
  simp [hnf, hl, hb]

/-- The amount `circular_buf_puts` really copies. -/
def putAmount (cb : Cbuf α) (q : List α) (len : Nat) : Prop → Nat → Prop := fun corner k =>
  (corner → k = cb.bufsize - q.length) ∧ (¬corner → k = min len (cb.bufsize - 1 - q.length))

/-- What `circular_buf_puts` does in every state. -/
theorem puts_raw {cb : Cbuf α} {q : List α} (h : Rep cb q) (data : List α) (len : Nat) (hd : len ≤ data.length) :
    ∃ cb' k, puts cb data len = .ok (cb', k) ∧ Raw cb' (q ++ data.take k) ∧ cb'.bufsize = cb.bufsize ∧ k ≤ len ∧
      putAmount cb q len (PutCorner cb q len) k := by
  have hlt := h.q_lt
  have ht := h.tail_lt
  have hh := h.head_lt
  have hhe := h.head_eq
  unfold puts
  by_cases hstop : q.length = cb.bufsize - 1 ∨ len = 0
  · rw [putsLoop_stop (by omega) (hstop.imp h.isFull.2 id)]
    refine ⟨cb, 0, rfl, by simpa using h.toRaw, rfl, by omega, ?_, ?_⟩
    · rintro ⟨h1, h2⟩
      rcases hstop with hs | hs
      · rcases h2 with ⟨_, h2⟩ | ⟨h2, h3⟩
        · omega
        · split_ifs at hhe <;> omega
      · omega
    · intro _; omega
  · have hq : q.length ≠ cb.bufsize - 1 := fun h => hstop (Or.inl h)
    have hl : 0 < len := Nat.pos_of_ne_zero fun h => hstop (Or.inr h)
    have hnf := isFull_false h hq
    -- first iteration
    obtain ⟨c, hc⟩ : ∃ c, putChunk cb.bufsize cb.head cb.tail len = c := ⟨_, rfl⟩
    have hcc := hc
    simp only [putChunk, beq_iff_eq] at hcc
    have hc1 : cb.head + c ≤ cb.bufsize ∧ q.length + c ≤ cb.bufsize ∧ c ≤ len := by
      split_ifs at hcc hhe <;> omega
    obtain ⟨b, hb, hraw, hbs, htl, hhd⟩ := h.toRaw.push_chunk (data := data) (off := 0) (c := c) hlt hc1.1 hc1.2.1
      (by omega) hnf
    rw [List.drop_zero] at hraw
    rw [putsLoop_step (by omega) hnf hl (by rw [hc]; exact hb), hc]
    generalize hcb1 : advance { cb with buffer := b } c = cb1 at hraw hbs htl hhd
    simp only [Nat.zero_add]
    have hql : (q ++ data.take c).length = q.length + c := by simp; omega
    -- does the loop end here?
    by_cases hone : len = c ∨ (q.length + c = cb.bufsize - 1)
    · have hstop1 : isFull cb1 = true ∨ len - c = 0 := by
        rcases hone with h1 | h1
        · right; omega
        · left
          have hrep : Rep cb1 (q ++ data.take c) := ⟨hraw, by omega⟩
          rw [hrep.isFull]; omega
      rw [putsLoop_stop (by omega) hstop1]
      refine ⟨cb1, c, rfl, hraw, hbs, by omega, ?_, ?_⟩
      · rintro ⟨h1, h2⟩
        split_ifs at hcc hhe <;> omega
      · intro hn
        have hn' : ¬ (len = cb.bufsize - 1 - q.length + 1 ∧ _) := hn
        rw [not_and_or] at hn'
        split_ifs at hcc hhe <;> omega
    · -- second iteration, from position 0
      have h1 : cb.tail ≤ cb.head ∧ 2 ≤ cb.tail ∧ c = cb.bufsize - cb.head ∧ c < len := by
        split_ifs at hcc hhe <;> omega
      have hlt1 : (q ++ data.take c).length < cb1.bufsize := by
        rw [hql, hbs]; split_ifs at hhe <;> omega
      have hrep1 : Rep cb1 (q ++ data.take c) := ⟨hraw, hlt1⟩
      have hnf1 := isFull_false hrep1 (by rw [hql, hbs]; omega)
      have hhd0 : cb1.head = 0 := by
        rw [hhd, show cb.head + c = cb.bufsize from by omega, Nat.mod_self]
      obtain ⟨c2, hc2⟩ : ∃ c2, putChunk cb1.bufsize cb1.head cb.tail (len - c) = c2 := ⟨_, rfl⟩
      have hcc2 := hc2
      simp only [putChunk, beq_iff_eq, hhd0, hbs] at hcc2
      rw [if_neg (by omega)] at hcc2
      have hc3 : cb1.head + c2 ≤ cb1.bufsize ∧ (q ++ data.take c).length + c2 ≤ cb1.bufsize ∧ c2 ≤ len - c := by
        rw [hql, hhd0, hbs]
        split_ifs at hcc2 hhe <;> omega
      obtain ⟨b2, hb2, hraw2, hbs2, htl2, hhd2⟩ := hraw.push_chunk (data := data) (off := c) (c := c2) hlt1 hc3.1
        hc3.2.1 (by omega) hnf1
      rw [putsLoop_step (by omega) hnf1 (by omega) (by rw [hc2]; exact hb2), hc2]
      generalize hcb2 : advance { cb1 with buffer := b2 } c2 = cb2 at hraw2 hbs2 htl2 hhd2
      have hql2 : (q ++ data.take c ++ (data.drop c).take c2).length = q.length + c + c2 := by simp; omega
      have hcat : q ++ data.take c ++ (data.drop c).take c2 = q ++ data.take (c + c2) := by
        rw [List.append_assoc, List.take_add]
      have hstop2 : isFull cb2 = true ∨ len - c - c2 = 0 := by
        by_cases hh2 : len - c - c2 = 0
        · exact Or.inr hh2
        · left
          have hrep2 : Rep cb2 (q ++ data.take c ++ (data.drop c).take c2) := by
            refine ⟨hraw2, ?_⟩
            rw [hql2, hbs2, hbs]
            split_ifs at hcc2 hhe <;> omega
          rw [hrep2.isFull, hql2, hbs2, hbs]
          split_ifs at hcc2 hhe <;> omega
      rw [putsLoop_stop (by omega) hstop2]
      rw [hcat] at hraw2
      refine ⟨cb2, c + c2, rfl, hraw2, hbs2.trans hbs, by omega, ?_, ?_⟩
      · rintro ⟨h1, h2⟩
        split_ifs at hcc2 hhe <;> omega
      · intro hn
        have hn' : ¬ (len = cb.bufsize - 1 - q.length + 1 ∧ _) := hn
        rw [not_and_or] at hn'
        split_ifs at hcc2 hhe <;> omega

end Gel.Cbuf
