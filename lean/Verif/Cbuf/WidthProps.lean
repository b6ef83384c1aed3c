import Verif.Cbuf.WidthModel
import Verif.Cbuf.Refine
import Mathlib.Tactic.Positivity
import Mathlib.Algebra.Order.Ring.Int

/-!
# Circular buffer: integer widths (C134)
-/
namespace Gel.Cbuf
variable {α : Type}

theorem toSz_nat {sw : Nat} {i : Int} {k : Nat} (h : i = k) (hk : k < 2 ^ sw) : toSz sw i = k := by
  subst h
  rw [toSz, wrapU, Int.emod_eq_of_lt (by omega) (by exact_mod_cast hk)]
  simp

theorem toI_nat {iw : Nat} {k : Nat} (h0 : 0 < iw) (hk : k < 2 ^ (iw - 1)) : toI iw k = k := by
  have h2 : 2 ^ iw = 2 * 2 ^ (iw - 1) := by rw [← pow_succ']; congr 1; omega
  rw [toI, wrapS, BitVec.toInt_ofInt, Int.bmod_eq_of_le]
  · have : (0 : Int) ≤ ((2 ^ iw : Nat) : Int) / 2 := by positivity
    omega
  · have : ((2 ^ iw : Nat) : Int) = 2 * ((2 ^ (iw - 1) : Nat) : Int) := by exact_mod_cast h2
    rw [this]
    omega

theorem chkS_nat {iw : Nat} {i : Int} {k : Nat} (h : i = k) (hk : k < 2 ^ (iw - 1)) : chkS iw i = .ok i := by
  subst h
  have hp : (0 : Int) ≤ 2 ^ (iw - 1) := by positivity
  rw [chkS, if_pos ⟨by omega, by exact_mod_cast hk⟩]

/-- The buffer is small enough for `int`. -/
structure Small (iw sw : Nat) (cb : Cbuf α) : Prop where
  w : 0 < iw
  le : iw ≤ sw
  size : cb.bufsize < 2 ^ (iw - 1)
  head : cb.head < cb.bufsize
  tail : cb.tail < cb.bufsize

theorem pow_bound {iw sw : Nat} (h0 : 0 < iw) (hle : iw ≤ sw) : 2 * 2 ^ (iw - 1) ≤ 2 ^ sw := by
  rw [← pow_succ', show iw - 1 + 1 = iw by omega]
  exact Nat.pow_le_pow_right (by omega) hle

theorem isFullW_eq {iw sw : Nat} {cb : Cbuf α} (h : Small iw sw cb) : isFullW sw cb = isFull cb := by
  have hp := pow_bound h.w h.le
  have := h.size; have := h.head
  rw [isFullW, toSz_nat (k := cb.head + 1) (by push_cast; rfl) (by omega), isFull]

theorem advanceW_eq {iw sw : Nat} {cb : Cbuf α} (h : Small iw sw cb) {c : Nat} (hc : c ≤ cb.bufsize) :
    advanceW sw cb c = advance cb c := by
  have hp := pow_bound h.w h.le
  have := h.size; have := h.head
  rw [advanceW, advance, isFullW_eq h, toSz_nat (k := cb.head + c) (by push_cast; rfl) (by omega)]
  have : ((c : Int) == 0) = (c == 0) := by
    rw [Bool.eq_iff_iff]; simp
  rw [this]

theorem retreatW_eq {iw sw : Nat} {cb : Cbuf α} (h : Small iw sw cb) {c : Nat} (hc : c ≤ cb.bufsize) :
    retreatW sw cb c = retreat cb c := by
  have hp := pow_bound h.w h.le
  have := h.size; have := h.tail
  rw [retreatW, retreat, toSz_nat (k := cb.tail + c) (by push_cast; rfl) (by omega)]

theorem sizeW_eq {iw sw : Nat} {cb : Cbuf α} (h : Small iw sw cb) : sizeW iw sw cb = .ok (size cb) := by
  have hp := pow_bound h.w h.le
  have := h.size; have := h.head; have := h.tail
  simp only [sizeW, size, isFullW_eq h, toI_nat h.w (show cb.head < 2 ^ (iw - 1) by omega),
    toI_nat h.w (show cb.tail < 2 ^ (iw - 1) by omega)]
  cases isFull cb
  · simp only [Bool.not_false, if_true]
    by_cases h1 : cb.head ≥ cb.tail
    · rw [if_pos (by omega), if_pos h1, chkS_nat (k := cb.head - cb.tail) (by omega) (by omega), Res.ok_bind,
        toSz_nat (k := cb.head - cb.tail) (by omega) (by omega)]
    · rw [if_neg (by omega), if_neg h1, toSz_nat (k := cb.bufsize + cb.head - cb.tail) (by omega) (by omega)]
  · simp

theorem putChunkW_eq {iw sw n head tail len : Nat} (h0 : 0 < iw) (hle : iw ≤ sw) (hn : n < 2 ^ (iw - 1)) (hh : head < n)
    (ht : tail < n) : putChunkW iw sw n head tail len = putChunk n head tail len ∧ putChunk n head tail len ≤ n := by
  have hp := pow_bound h0 hle
  have hb : putChunk n head tail len ≤ n := by
    simp only [putChunk]
    split_ifs <;> omega
  refine ⟨?_, hb⟩
  rw [← toI_nat h0 (show putChunk n head tail len < 2 ^ (iw - 1) by omega), putChunkW]
  congr 1
  rw [putChunk]
  by_cases h1 : head ≥ tail
  · rw [if_pos h1, if_pos h1, toSz_nat (k := n - head - 1) (by omega) (by omega), toSz_nat (k := n - head) (by omega) (by omega)]
  · rw [if_neg h1, if_neg h1, toSz_nat (k := tail - head) (by omega) (by omega),
      toSz_nat (k := tail - head - 1) (by omega) (by omega)]

theorem memcpyW_nat (dst : List α) (d : Nat) (src : List α) (s c : Nat) : memcpyW dst d src s c = memcpy dst d src s c := by
  rw [memcpyW, if_pos ⟨by omega, by omega, by omega⟩]
  simp

theorem putChunk_le {n head tail len : Nat} : putChunk n head tail len ≤ len := by
  simp only [putChunk]
  split_ifs <;> omega

theorem putsLoop_mono (data : List α) (tail : Nat) : ∀ (fuel : Nat) (cb : Cbuf α) (head off len written : Nat) cb' w,
    putsLoop data tail fuel cb head off len written = .ok (cb', w) → written ≤ w := by
  intro fuel
  induction fuel with
  | zero => intro cb head off len written cb' w h; cases h
  | succ fuel ih =>
    intro cb head off len written cb' w h
    rw [putsLoop] at h
    split_ifs at h with hc
    · obtain ⟨b, -, h2⟩ := Res.bind_eq_ok.1 h
      have := ih _ _ _ _ _ _ _ h2
      omega
    · injection h with h
      injection h with h1 h2
      omega

theorem putsLoopW_eq {iw sw : Nat} (data : List α) (tail : Nat) : ∀ (fuel : Nat) (cb : Cbuf α) (head off len written : Nat) cb' w,
    Small iw sw cb → head < cb.bufsize → tail < cb.bufsize → len < 2 ^ sw → w < 2 ^ (iw - 1) →
    putsLoop data tail fuel cb head off len written = .ok (cb', w) →
    putsLoopW iw sw data tail fuel cb head off len written = .ok (cb', (w : Int)) := by
  intro fuel
  induction fuel with
  | zero => intro cb head off len written cb' w _ _ _ _ _ h; cases h
  | succ fuel ih =>
    intro cb head off len written cb' w hs hh ht hl hw h
    rw [putsLoop] at h
    rw [putsLoopW, isFullW_eq hs]
    split_ifs at h ⊢ with hc
    · obtain ⟨b, h1, h2⟩ := Res.bind_eq_ok.1 h
      obtain ⟨e1, e2⟩ := putChunkW_eq (len := len) hs.w hs.le hs.size hh ht
      have hm := putsLoop_mono _ _ _ _ _ _ _ _ _ _ h2
      have hcl := putChunk_le (n := cb.bufsize) (head := head) (tail := tail) (len := len)
      generalize putChunk cb.bufsize head tail len = c at *
      have hs1 : Small iw sw { cb with buffer := b } := ⟨hs.w, hs.le, hs.size, hs.head, hs.tail⟩
      have hs2 : Small iw sw (advance { cb with buffer := b } c) := by
        rw [advance]
        split_ifs
        · exact hs1
        · exact ⟨hs.w, hs.le, hs.size, Nat.mod_lt _ (by have := hs.head; show 0 < cb.bufsize; omega), hs.tail⟩
      have hb : (advance { cb with buffer := b } c).bufsize = cb.bufsize := by
        rw [advance]; split_ifs <;> rfl
      simp only [e1, memcpyW_nat, h1, Res.ok_bind]
      rw [advanceW_eq hs1 (by exact e2), chkS_nat (k := written + c) (by push_cast; rfl) (by omega), Res.ok_bind,
        toSz_nat (k := len - c) (by omega) (by omega)]
      have := ih _ _ _ _ _ _ _ hs2 (by exact hs2.head) (by rw [hb]; exact ht) (by omega) hw h2
      push_cast at this
      exact this
    · injection h with h
      injection h with h1 h2
      rw [h1, h2]

theorem getChunkW_eq {iw sw n head tail len : Nat} (h0 : 0 < iw) (hle : iw ≤ sw) (hn : n < 2 ^ (iw - 1)) (hh : head < n)
    (ht : tail < n) : getChunkW iw sw n head tail len = .ok (getChunk n head tail len) ∧ getChunk n head tail len ≤ n := by
  have hp := pow_bound h0 hle
  constructor
  · rw [getChunkW, getChunk]
    by_cases h1 : head > tail
    · rw [if_pos (by omega), if_pos h1, chkS_nat (k := head - tail) (by omega) (by omega)]
      simp only [Res.ok_bind]
      rw [toSz_nat (k := head - tail) (by omega) (by omega)]
    · rw [if_neg (by omega), if_neg h1]
      simp only [Res.ok_bind]
      rw [toSz_nat (k := n - tail) (by omega) (by omega)]
  · simp only [getChunk]
    split_ifs <;> omega

theorem storeChunkW_eq (out : Option (List α)) (off : Nat) (buffer : List α) (tail chunk : Nat) :
    storeChunkW out off buffer tail chunk = storeChunk out off buffer tail chunk := by
  cases out <;> simp [storeChunkW, storeChunk, memcpyW_nat]

theorem getLoopW_eq {iw sw : Nat} (consume : Bool) (head : Nat) : ∀ (fuel : Nat) (cb : Cbuf α) (out : Option (List α))
    (tail off len read : Nat), Small iw sw cb → head < cb.bufsize → tail < cb.bufsize → read + len < 2 ^ (iw - 1) →
    getLoopW iw sw consume head fuel cb out tail off len read = (do
      let (cb, out, r) ← getLoop consume head fuel cb out tail off len read
      .ok (cb, out, (r : Int))) := by
  intro fuel
  induction fuel with
  | zero => intro cb out tail off len read _ _ _ _; rfl
  | succ fuel ih =>
    intro cb out tail off len read hs hh ht hr
    have hp := pow_bound hs.w hs.le
    rw [getLoopW, getLoop]
    by_cases hl : len > 0
    · rw [if_pos hl, if_pos hl]
      obtain ⟨e1, e2⟩ := getChunkW_eq (len := len) hs.w hs.le hs.size hh ht
      have e3 : getChunk cb.bufsize head tail len ≤ len := (getChunk_le hh).1
      have hsz := hs.size
      have e4 := hs.tail
      generalize getChunk cb.bufsize head tail len = c at *
      rw [e1, Res.ok_bind, storeChunkW_eq]
      simp only [bind_assoc]
      congr 1
      funext out'
      rw [toSz_nat (i := (read : Int)) (k := read) rfl (by omega), toSz_nat (k := read + c) (by push_cast; rfl) (by omega),
        toI_nat hs.w (show read + c < 2 ^ (iw - 1) by omega), toI_nat hs.w (show c < 2 ^ (iw - 1) by omega), retreatW_eq hs e2,
        toSz_nat (k := tail + c) (by push_cast; rfl) (by omega)]
      have hm : ∀ x, x % cb.bufsize < cb.bufsize := fun x => Nat.mod_lt _ (by omega)
      have hs2 : Small iw sw (retreat cb c) := ⟨hs.w, hs.le, hs.size, hs.head, hm _⟩
      have ht2 := hs2.tail
      have hb : (retreat cb c).bufsize = cb.bufsize := rfl
      cases consume
      · simp only [Bool.false_eq_true, if_false]
        have := hm (tail + c)
        rw [toI_nat hs.w (by omega)]
        exact ih _ _ _ _ _ _ hs hh (hm _) (by omega)
      · simp only [if_true]
        rw [toI_nat hs.w (by omega)]
        exact ih _ _ _ _ _ _ hs2 (by exact hh) ht2 (by omega)
    · rw [if_neg hl, if_neg hl]
      rfl

theorem getW_eq {iw sw : Nat} {cb : Cbuf α} (h : Small iw sw cb) (out : Option (List α)) (len len' : Nat) (consume : Bool)
    (hlen : min len (size cb) = min len' (size cb)) :
    getW iw sw cb out len consume = (do
      let (cb, out, r) ← get cb out len' consume
      .ok (cb, out, (r : Int))) := by
  have hs : size cb ≤ cb.bufsize := by
    have := h.head; have := h.tail
    rw [size]
    split_ifs <;> omega
  have h1 : (if len < size cb then len else size cb) = (if len' < size cb then len' else size cb) := by
    split_ifs <;> omega
  have := h.size; have := h.head; have := h.tail
  rw [getW, sizeW_eq h, Res.ok_bind, get]
  simp only
  rw [h1, toI_nat h.w (by omega), toI_nat h.w (by omega)]
  exact getLoopW_eq consume cb.head _ cb out cb.tail 0 _ 0 h h.head h.tail (by split_ifs <;> omega)

/-! ## C134 -/

/-- The arguments are values of their types. -/
def Spec.Typed (iw sw : Nat) : Call α → Prop
  | .puts _ len => len < 2 ^ sw
  | .gets _ len | .peek _ len | .drop len => -2 ^ (iw - 1) ≤ len ∧ len < 2 ^ (iw - 1)
  | _ => True

theorem Rep.small {iw sw : Nat} {cb : Cbuf α} {q : List α} (h : Rep cb q) (h0 : 0 < iw) (hle : iw ≤ sw)
    (hn : cb.bufsize < 2 ^ (iw - 1)) : Small iw sw cb := ⟨h0, hle, hn, h.head_lt, h.tail_lt⟩

theorem min_len {iw sw : Nat} {cb : Cbuf α} (h : Small iw sw cb) (h64 : iw ≤ 64) {len : Int} (h1 : -2 ^ (iw - 1) ≤ len)
    (h2 : len < 2 ^ (iw - 1)) : min (toSz sw len) (size cb) = min (asSize len) (size cb) := by
  have hs : size cb ≤ cb.bufsize := by
    have := h.head; have := h.tail
    rw [size]
    split_ifs <;> omega
  have hp := pow_bound h.w h.le
  have hq := pow_bound h.w h64
  have hb := h.size
  have hc : ((2 : Int) ^ (iw - 1)) = ((2 ^ (iw - 1) : Nat) : Int) := by push_cast; rfl
  rw [hc] at h1 h2
  rcases le_or_gt 0 len with hl | hl
  · obtain ⟨k, rfl⟩ := Int.eq_ofNat_of_zero_le hl
    rw [toSz_nat (k := k) rfl (by omega), asSize, Int.emod_eq_of_lt hl (by
      have : k < 2 ^ 64 := by omega
      exact_mod_cast this)]
    simp
  · have e1 : toSz sw len = 2 ^ sw - len.natAbs := by
      have hc2 : ((2 : Int) ^ sw) = ((2 ^ sw : Nat) : Int) := by push_cast; rfl
      rw [toSz, wrapU, hc2]
      generalize 2 ^ sw = N at *
      rw [show len % (N : Int) = len + N by rw [← Int.add_emod_right, Int.emod_eq_of_lt (by omega) (by omega)]]
      omega
    have e2 : asSize len = 2 ^ 64 - len.natAbs := by
      rw [asSize, show len % (2 : Int) ^ 64 = len + 2 ^ 64 by
        rw [← Int.add_emod_right, Int.emod_eq_of_lt (by omega) (by omega)]]
      omega
    omega

theorem stepW_eq {iw sw : Nat} {cb : Cbuf α} {q : List α} (h : Rep cb q) (h0 : 0 < iw) (hle : iw ≤ sw) (h64 : iw ≤ 64)
    (hn : cb.bufsize < 2 ^ (iw - 1)) (c : Call α) (hc : Spec.Fits cb.bufsize c) (ht : Spec.Typed iw sw c) :
    stepW iw sw cb c = step cb c := by
  have hs := h.small h0 hle hn
  have hget : ∀ (out : Option (List α)) (len : Int) (consume : Bool), -2 ^ (iw - 1) ≤ len → len < 2 ^ (iw - 1) →
      getW iw sw cb out (toSz sw len) consume = (do
        let (cb, out, r) ← get cb out (asSize len) consume
        .ok (cb, out, (r : Int))) := fun out len consume h1 h2 => getW_eq hs out _ _ consume (min_len hs h64 h1 h2)
  have hpos := h.pos
  cases c with
  | putc x =>
    simp only [stepW, step, putcW, putc, isFullW_eq hs]
    split_ifs
    · simp only [bind_assoc]
      congr 1
      funext b
      have hs1 : Small iw sw { cb with buffer := b } := ⟨hs.w, hs.le, hs.size, hs.head, hs.tail⟩
      have := advanceW_eq hs1 (c := 1) (by exact hpos)
      push_cast at this
      rw [this]
    · rfl
  | getc =>
    have := retreatW_eq hs (c := 1) hpos
    push_cast at this
    simp only [stepW, step, getcW, getc, this]
  | getcNull =>
    have := retreatW_eq hs (c := 1) hpos
    push_cast at this
    simp only [stepW, step, getcNullW, getcNull, this]
  | puts data len =>
    obtain ⟨cb', k, h1, h2, h3, h4, h5, h6⟩ := puts_raw h data len hc
    have hk : k ≤ cb.bufsize := by
      by_cases hcn : PutCorner cb q len
      · have := h5 hcn; omega
      · have := h6 hcn; omega
    have := putsLoopW_eq (iw := iw) (sw := sw) data cb.tail (len + 1) cb cb.head 0 len 0 cb' k hs hs.head hs.tail ht (by omega) h1
    simp only [stepW, step, putsW, h1, Res.ok_bind]
    push_cast at this
    rw [this]
    rfl
  | gets out len =>
    simp only [stepW, step, gets, hget out len true ht.1 ht.2, bind_assoc]
    rfl
  | peek out len =>
    simp only [stepW, step, peek, hget out len false ht.1 ht.2, bind_assoc]
    rfl
  | drop len =>
    simp only [stepW, step, drop, hget none len true ht.1 ht.2, bind_assoc]
    rfl
  | reset => rfl
  | isEmpty => rfl
  | isFull => simp only [stepW, step, isFullW_eq hs]
  | size => simp only [stepW, step, sizeW_eq hs, Res.ok_bind]
  | capacity =>
    have hp := pow_bound h0 hle
    simp only [stepW, step, capacityW, capacity]
    rw [toSz_nat (k := cb.bufsize - 1) (by omega) (by omega)]

/-- **C134** (partial). With a buffer of less than 2^(iw-1) elements, i.e. at most INT_MAX, no history of calls is affected by the
widths of `int` and `size_t`: the results are those of the model without widths, for which the other theorems are proved.
Missing: larger buffers, for which it is false (`C134_size_wrong`, `C134_read_wrong`). -/
theorem C134_widths_partial (iw sw : Nat) (h0 : 0 < iw) (hle : iw ≤ sw) (h64 : iw ≤ 64) (buffer : List α) (n : Nat) (hn : 0 < n)
    (hb : buffer.length = n) (hm : n < 2 ^ (iw - 1)) (cs : List (Call α)) (hf : ∀ c ∈ cs, Spec.Fits n c)
    (ht : ∀ c ∈ cs, Spec.Typed iw sw c) :
    ∃ cb r, init (some buffer) n = some cb ∧ run cb cs = .ok r ∧ runW iw sw cb cs = .ok r := by
  obtain ⟨cb, h1, h2, h3⟩ := init_rep hn hb
  have key : ∀ (cs : List (Call α)) (cb : Cbuf α) (q : List α), Rep cb q → cb.bufsize = n → (∀ c ∈ cs, Spec.Fits n c) →
      (∀ c ∈ cs, Spec.Typed iw sw c) → runW iw sw cb cs = run cb cs := by
    intro cs
    induction cs with
    | nil => intros; rfl
    | cons c cs ih =>
      intro cb q h hs hf ht
      subst hs
      obtain ⟨cb1, o, q1, e1, e2, e3⟩ := step_fits h c (hf c List.mem_cons_self)
      rw [runW, run, stepW_eq h h0 hle h64 hm c (hf c List.mem_cons_self) (ht c List.mem_cons_self), e1, Res.ok_bind,
        Res.ok_bind]
      simp only [ih cb1 q1 e2 e3 (fun c hc => hf c (List.mem_cons_of_mem _ hc)) (fun c hc => ht c (List.mem_cons_of_mem _ hc))]
  obtain ⟨cb', os, q', e1, -, -⟩ := run_fits h2 cs (by rw [h3]; exact hf)
  exact ⟨cb, (cb', os), h1, e1, by rw [key cs cb [] h2 h3 hf ht, e1]⟩

theorem toI_big {iw : Nat} {k : Nat} (h0 : 0 < iw) (h1 : 2 ^ (iw - 1) ≤ k) (h2 : k < 2 ^ iw) : toI iw k = (k : Int) - 2 ^ iw := by
  have hp : 2 ^ iw = 2 * 2 ^ (iw - 1) := by rw [← pow_succ']; congr 1; omega
  have hc : ((2 : Int) ^ iw) = ((2 ^ iw : Nat) : Int) := by push_cast; rfl
  rw [toI, wrapS, BitVec.toInt_ofInt, Int.bmod, hc]
  generalize 2 ^ iw = N at *
  rw [Int.emod_eq_of_lt (by omega) (by omega), if_neg (by omega)]

/-- **C134**, where it fails: with 2^(iw-1) elements or more in a buffer that has never been read, `circular_buf_size` reports the
buffer size too many, modulo 2^iw (if `size_t` is as wide as `int`). -/
theorem C134_size_wrong (iw : Nat) (h0 : 0 < iw) (cb : Cbuf α) (ht : cb.tail = 0) (h1 : 2 ^ (iw - 1) ≤ cb.head)
    (h2 : cb.head + 1 < cb.bufsize) (h3 : cb.bufsize < 2 ^ iw) :
    sizeW iw iw cb = .ok ((cb.bufsize + cb.head) % 2 ^ iw) ∧ (cb.bufsize + cb.head) % 2 ^ iw ≠ cb.head := by
  have hp : 2 ^ iw = 2 * 2 ^ (iw - 1) := by rw [← pow_succ']; congr 1; omega
  have hf : isFullW iw cb = false := by
    rw [isFullW, toSz_nat (k := cb.head + 1) (by push_cast; rfl) (by omega), Nat.mod_eq_of_lt h2, ht]
    simp
  have hc : ((2 : Int) ^ iw) = ((2 ^ iw : Nat) : Int) := by push_cast; rfl
  constructor
  · simp only [sizeW, hf, Bool.not_false, if_true]
    rw [ht, toI_nat h0 (k := 0) (by positivity), toI_big h0 h1 (by omega), if_neg (by
      rw [hc]; omega)]
    congr 1
    rw [toSz, wrapU, show (cb.bufsize : Int) + ((cb.head : Int) - 2 ^ iw) - (0 : Nat) = ((cb.bufsize + cb.head : Nat) : Int) +
      2 ^ iw * (-1) by push_cast; omega, Int.add_mul_emod_self_left, hc, ← Int.natCast_mod,
      Int.toNat_natCast]
  · intro h
    rw [Nat.mod_eq_sub_mod (by omega), Nat.mod_eq_of_lt (by omega)] at h
    omega

/-- **C134**, where it fails: a bulk read that starts at 2^(iw-1) or beyond is undefined (the position is negative). -/
theorem C134_read_wrong (iw sw : Nat) (h0 : 0 < iw) (cb : Cbuf α) (o : List α) (len : Nat) (consume : Bool) (hl : 0 < len)
    (h1 : 2 ^ (iw - 1) ≤ cb.tail) (h2 : cb.tail < 2 ^ iw) (s : Nat) (hs : sizeW iw sw cb = .ok s) (hs0 : 0 < s) :
    getW iw sw cb (some o) len consume = .ub := by
  have hp : 2 ^ iw = 2 * 2 ^ (iw - 1) := by rw [← pow_succ']; congr 1; omega
  have hc : ((2 : Int) ^ iw) = ((2 ^ iw : Nat) : Int) := by push_cast; rfl
  have hneg : toI iw cb.tail < 0 := by rw [toI_big h0 h1 h2, hc]; omega
  simp only [getW, hs, Res.ok_bind, getLoopW]
  rw [if_pos (by split_ifs <;> omega)]
  generalize (if len < s then len else s) = l
  have hch : getChunkW iw sw cb.bufsize (toI iw cb.head) (toI iw cb.tail) l = .ub ∨
      ∃ c, getChunkW iw sw cb.bufsize (toI iw cb.head) (toI iw cb.tail) l = .ok c := by
    rw [getChunkW]
    split_ifs
    · rw [chkS]
      split_ifs
      · right; exact ⟨_, rfl⟩
      · left; rfl
    · right; exact ⟨_, rfl⟩
  rcases hch with h | ⟨c, h⟩
  · rw [h]; rfl
  · rw [h]
    simp only [Res.ok_bind, storeChunkW, memcpyW]
    rw [if_neg (by omega)]
    rfl

/-- 4-bit `int` and `size_t`, a buffer of 7 cells: the widths do not matter. -/
example : (runW 4 4 ⟨[0, 0, 0, 0, 0, 0, 0], 7, 0, 0⟩ [.puts [1, 2, 3, 4, 5] 5, .gets (some [0, 0, 0]) 3, .puts [6, 7, 8] 3, .size]) =
    run ⟨[0, 0, 0, 0, 0, 0, 0], 7, 0, 0⟩ [.puts [1, 2, 3, 4, 5] 5, .gets (some [0, 0, 0]) 3, .puts [6, 7, 8] 3, .size] := by decide

/-- With a 4-bit `int` and 12 cells, after nine puts the size is 12 + 9 - 16 = 5. -/
example : (runW 4 4 ⟨List.replicate 12 0, 12, 0, 0⟩ (List.replicate 9 (.putc 1) ++ [.size])).isOk = true ∧
    sizeW 4 4 (⟨List.replicate 12 0, 12, 9, 0⟩ : Cbuf Nat) = .ok 5 := by decide

/-- A real 16-bit platform: 40000 cells, 35000 elements, size 9464. -/
example (b : List Nat) : sizeW 16 16 (⟨b, 40000, 35000, 0⟩ : Cbuf Nat) = .ok 9464 := by
  rw [(C134_size_wrong 16 (by decide) ⟨b, 40000, 35000, 0⟩ rfl (by show 2 ^ 15 ≤ 35000; decide) (by show 35001 < 40000; decide)
    (by show 40000 < 2 ^ 16; decide)).1]
  simp only [Nat.reduceAdd, Nat.reducePow, Nat.reduceMod]

/-- A read at cell 33000 on such a platform. -/
example (b : List Nat) : getW 16 16 (⟨b, 40000, 33010, 33000⟩ : Cbuf Nat) (some [0, 0]) 2 true = .ub :=
  C134_read_wrong 16 16 (by decide) _ _ 2 true (by decide) (by show 2 ^ 15 ≤ 33000; decide) (by show 33000 < 2 ^ 16; decide) 10 rfl
    (by decide)

/-- The hypotheses of `C134_widths_partial`. -/
example : ∃ cb r, init (some [0, 0, 0, 0]) 4 = some cb ∧
    run cb [.puts [1, 2, 3] 3, .drop (-1), .size] = .ok r ∧ runW 16 16 cb [.puts [1, 2, 3] 3, .drop (-1), .size] = .ok r :=
  C134_widths_partial 16 16 (by decide) (by decide) (by decide) [0, 0, 0, 0] 4 (by decide) rfl (by decide) _
    (by simp [Spec.Fits]) (by simp [Spec.Typed])

end Gel.Cbuf
