import Verif.Cbuf.Props

/-!
# Circular buffer: elements of several bytes, properties C157 and C158

The element type has `k` bytes and the memory consists of bytes. (`chunk * sizeof(GEL_CBUF_TYPE)` does not wrap around: the objects
are no larger than `SIZE_MAX`.)
-/
namespace Gel.Cbuf.Bytes

abbrev Byte := BitVec 8

/-! ## Model -/

/-- `circular_buf_putc`, circular_buffer.c:138-151, with the bytes of the element. -/
def putc (k : Nat) (cb : Cbuf Byte) (x : List Byte) : Res (Cbuf Byte × Int) :=
  if !isFull cb then do
    let b ← memcpy cb.buffer (cb.head * k) x 0 k
    .ok (advance { cb with buffer := b } 1, 0)
  else .ok (cb, -1)

/-- `circular_buf_getc`, circular_buffer.c:187-200, with `data != NULL`: the bytes stored through `data`, if any. -/
def getc (k : Nat) (cb : Cbuf Byte) : Res (Cbuf Byte × Option (List Byte) × Int) :=
  if isEmpty cb then .ok (cb, none, -1)
  else do
    let x ← memcpy (List.replicate k 0) 0 cb.buffer (cb.tail * k) k
    .ok (retreat cb 1, some x, 0)

/-- The loop of `circular_buf_puts`, circular_buffer.c:161-177, see `Gel.Cbuf.putsLoop`. -/
def putsLoop (k : Nat) (data : List Byte) (tail : Nat) :
    (fuel : Nat) → Cbuf Byte → (head off len written : Nat) → Res (Cbuf Byte × Nat)
  | 0, _, _, _, _, _ => .diverge
  | fuel + 1, cb, head, off, len, written =>
    if !isFull cb && len > 0 then do
      let chunk := putChunk cb.bufsize head tail len
      let b ← memcpy cb.buffer (head * k) data (off * k) (chunk * k)
      let cb' := advance { cb with buffer := b } chunk
      putsLoop k data tail fuel cb' cb'.head (off + chunk) (len - chunk) (written + chunk)
    else .ok (cb, written)

/-- `circular_buf_puts`, circular_buffer.c:153-180. -/
def puts (k : Nat) (cb : Cbuf Byte) (data : List Byte) (len : Nat) : Res (Cbuf Byte × Nat) :=
  putsLoop k data cb.tail (len + 1) cb cb.head 0 len 0

/-- The copy to the caller's array, circular_buffer.c:50-53 (`none` = NULL). -/
def storeChunk (k : Nat) (out : Option (List Byte)) (off : Nat) (buffer : List Byte) (tail chunk : Nat) :
    Res (Option (List Byte)) :=
  match out with
  | none => .ok none
  | some o => do
    let o' ← memcpy o (off * k) buffer (tail * k) (chunk * k)
    .ok (some o')

/-- The loop of `_circular_buf_get`, circular_buffer.c:41-61, see `Gel.Cbuf.getLoop`. -/
def getLoop (k : Nat) (consume : Bool) (head : Nat) :
    (fuel : Nat) → Cbuf Byte → Option (List Byte) → (tail off len read : Nat) →
      Res (Cbuf Byte × Option (List Byte) × Nat)
  | 0, _, _, _, _, _, _ => .diverge
  | fuel + 1, cb, out, tail, off, len, read =>
    if len > 0 then do
      let chunk := getChunk cb.bufsize head tail len
      let out' ← storeChunk k out off cb.buffer tail chunk
      if consume then
        let cb' := retreat cb chunk
        getLoop k consume head fuel cb' out' cb'.tail (off + chunk) (len - chunk) (read + chunk)
      else
        getLoop k consume head fuel cb out' ((tail + chunk) % cb.bufsize) (off + chunk) (len - chunk) (read + chunk)
    else .ok (cb, out, read)

/-- `_circular_buf_get`, circular_buffer.c:31-64. -/
def get (k : Nat) (cb : Cbuf Byte) (out : Option (List Byte)) (len : Nat) (consume : Bool) :
    Res (Cbuf Byte × Option (List Byte) × Nat) :=
  let sz := size cb
  let len := if len < sz then len else sz
  getLoop k consume cb.head (len + 1) cb out cb.tail 0 len 0

/-- One API call; the caller's arrays of elements are given by their bytes, and so is what it finds in them afterwards. -/
def step (k : Nat) (cb : Cbuf Byte) : Call (List Byte) → Res (Cbuf Byte × Obs Byte)
  | .putc x => do let (cb, r) ← putc k cb x; .ok (cb, ⟨r, none⟩)
  | .getc => do let (cb, x, r) ← getc k cb; .ok (cb, ⟨r, x⟩)
  | .getcNull => do let (cb, r) ← getcNull cb; .ok (cb, ⟨r, none⟩)
  | .puts d n => do let (cb, w) ← puts k cb d.flatten n; .ok (cb, ⟨w, none⟩)
  | .gets o n => do let (cb, o, r) ← get k cb (o.map List.flatten) (asSize n) true; .ok (cb, ⟨r, o⟩)
  | .peek o n => do let (cb, o, r) ← get k cb (o.map List.flatten) (asSize n) false; .ok (cb, ⟨r, o⟩)
  | .drop n => do let (cb, _, r) ← get k cb none (asSize n) true; .ok (cb, ⟨r, none⟩)
  | .reset => .ok (reset cb, ⟨0, none⟩)
  | .isEmpty => .ok (cb, ⟨b2i (isEmpty cb), none⟩)
  | .isFull => .ok (cb, ⟨b2i (isFull cb), none⟩)
  | .size => .ok (cb, ⟨size cb, none⟩)
  | .capacity => .ok (cb, ⟨capacity cb, none⟩)

/-- A history of calls and its observations. -/
def run (k : Nat) (cb : Cbuf Byte) : List (Call (List Byte)) → Res (Cbuf Byte × List (Obs Byte))
  | [] => .ok (cb, [])
  | c :: cs => do
    let (cb, o) ← step k cb c
    let (cb, os) ← run k cb cs
    .ok (cb, o :: os)

/-! ## Specification -/

/-- The buffer with its elements laid out in memory. -/
def flat (cb : Cbuf (List Byte)) : Cbuf Byte := ⟨cb.buffer.flatten, cb.bufsize, cb.head, cb.tail⟩

/-- What is observed, in bytes. -/
def flatObs (o : Obs (List Byte)) : Obs Byte := ⟨o.ret, o.data.map List.flatten⟩

/-- The bytes passed are those of whole elements. -/
def Whole (k : Nat) : Call (List Byte) → Prop
  | .putc x => x.length = k
  | .puts d _ => ∀ x ∈ d, x.length = k
  | .gets (some o) _ | .peek (some o) _ => ∀ x ∈ o, x.length = k
  | _ => True

/-! ## Theorems -/

theorem flatten_length {k : Nat} {l : List (List Byte)} (h : ∀ x ∈ l, x.length = k) : l.flatten.length = l.length * k := by
  induction l with
  | nil => simp
  | cons x l ih =>
    rw [List.flatten_cons, List.length_append, ih fun y hy => h y (by simp [hy]), h x (by simp), List.length_cons, Nat.succ_mul, Nat.add_comm]

theorem flatten_drop {k : Nat} {l : List (List Byte)} (h : ∀ x ∈ l, x.length = k) (i : Nat) :
    (l.drop i).flatten = l.flatten.drop (i * k) := by
  induction l generalizing i with
  | nil => simp
  | cons x l ih =>
    cases i with
    | zero => simp
    | succ i =>
      rw [List.drop_succ_cons, ih fun y hy => h y (by simp [hy]), List.flatten_cons, List.drop_append, h x (by simp)]
      rw [List.drop_eq_nil_of_le (as := x) (by rw [h x (by simp), Nat.succ_mul]; omega), List.nil_append, Nat.succ_mul, Nat.add_sub_cancel]

theorem flatten_take {k : Nat} {l : List (List Byte)} (h : ∀ x ∈ l, x.length = k) (i : Nat) :
    (l.take i).flatten = l.flatten.take (i * k) := by
  induction l generalizing i with
  | nil => simp
  | cons x l ih =>
    cases i with
    | zero => simp
    | succ i =>
      rw [List.take_succ_cons, List.flatten_cons, ih fun y hy => h y (by simp [hy]), List.flatten_cons, List.take_append, h x (by simp)]
      rw [List.take_of_length_le (l := x) (by rw [h x (by simp), Nat.succ_mul]; omega), Nat.succ_mul, Nat.add_sub_cancel]

theorem mul_fits {k : Nat} (hk : 0 < k) (a b n : Nat) : a * k + b * k ≤ n * k ↔ a + b ≤ n := by
  rw [← Nat.add_mul]
  exact Nat.mul_le_mul_right_iff hk

/-- Copying elements copies their bytes. -/
theorem memcpy_flat {k : Nat} (hk : 0 < k) {dst src : List (List Byte)} (hd : ∀ x ∈ dst, x.length = k)
    (hs : ∀ x ∈ src, x.length = k) (doff soff cnt : Nat) :
    memcpy dst.flatten (doff * k) src.flatten (soff * k) (cnt * k) = memcpy dst doff src soff cnt >>= fun b => .ok b.flatten := by
  unfold memcpy
  simp only [flatten_length hd, flatten_length hs, mul_fits hk]
  by_cases h : doff + cnt ≤ dst.length ∧ soff + cnt ≤ src.length
  · rw [if_pos h, if_pos h]
    rw [Res.ok_bind, List.flatten_append, List.flatten_append, flatten_take hd, flatten_take (fun x hx => hs x (List.mem_of_mem_drop hx)),
      flatten_drop hs, flatten_drop hd, Nat.add_mul]
  · rw [if_neg h, if_neg h]
    rfl

/-- The elements of the result are whole. -/
theorem memcpy_whole {k : Nat} {dst src b : List (List Byte)} (hd : ∀ x ∈ dst, x.length = k) (hs : ∀ x ∈ src, x.length = k)
    {doff soff cnt : Nat} (h : memcpy dst doff src soff cnt = .ok b) : ∀ x ∈ b, x.length = k := by
  unfold memcpy at h
  split at h
  · cases h
    intro x hx
    rcases List.mem_append.1 hx with hx | hx
    · rcases List.mem_append.1 hx with hx | hx
      · exact hd x (List.mem_of_mem_take hx)
      · exact hs x (List.mem_of_mem_drop (List.mem_of_mem_take hx))
    · exact hd x (List.mem_of_mem_drop hx)
  · cases h

theorem wr_memcpy (a : List α) (i : Nat) (x : α) : wr a i x = memcpy a i [x] 0 1 := by
  unfold wr memcpy
  by_cases h : i < a.length
  · rw [if_pos h, if_pos ⟨h, by simp⟩]
    simp [List.set_eq_take_append_cons_drop, h]
  · rw [if_neg h, if_neg (by omega)]

theorem rd_memcpy (a : List α) (y : α) (i : Nat) : (rd a i >>= fun x => .ok [x]) = memcpy [y] 0 a i 1 := by
  unfold rd memcpy
  by_cases h : i < a.length
  · rw [if_pos ⟨by simp, h⟩, List.getElem?_eq_getElem h]
    rw [Res.ok_bind, List.drop_eq_getElem_cons h]
    rfl
  · rw [if_neg (by omega), List.getElem?_eq_none (by omega)]
    rfl

/-- All elements of the buffer are whole. -/
def WholeBuf (k : Nat) (cb : Cbuf (List Byte)) : Prop := ∀ x ∈ cb.buffer, x.length = k

theorem flat_advance (cb : Cbuf (List Byte)) (n : Nat) : advance (flat cb) n = flat (advance cb n) := by
  unfold advance
  show (if isFull cb || n == 0 then _ else _) = _
  split <;> rfl

theorem whole_advance {k : Nat} {cb : Cbuf (List Byte)} (h : WholeBuf k cb) (n : Nat) : WholeBuf k (advance cb n) := by
  unfold advance
  split <;> exact h

/-- Two runs correspond: the same outcome, and in the end the same elements. -/
def Corr {A B : Type} (k : Nat) (r : Res (Cbuf (List Byte) × A)) (r' : Res (Cbuf Byte × B)) (f : A → B) : Prop :=
  match r with
  | .ok (cb, a) => WholeBuf k cb ∧ r' = .ok (flat cb, f a)
  | .ub => r' = .ub
  | .abort => r' = .abort
  | .diverge => r' = .diverge

theorem corr_bind {A B C D : Type} {k : Nat} {r : Res (Cbuf (List Byte) × A)} {r' : Res (Cbuf Byte × B)} {f : A → B}
    (h : Corr k r r' f) {g : Cbuf (List Byte) × A → Res (Cbuf (List Byte) × C)} {g' : Cbuf Byte × B → Res (Cbuf Byte × D)} {f' : C → D}
    (hg : ∀ cb a, WholeBuf k cb → r = .ok (cb, a) → Corr k (g (cb, a)) (g' (flat cb, f a)) f') :
    Corr k (r >>= g) (r' >>= g') f' := by
  cases r with
  | ok p =>
    obtain ⟨cb, a⟩ := p
    obtain ⟨h1, h2⟩ := h
    subst h2
    exact hg cb a h1 rfl
  | ub => rw [show r' = .ub from h]; exact rfl
  | abort => rw [show r' = .abort from h]; exact rfl
  | diverge => rw [show r' = .diverge from h]; exact rfl

theorem putsLoop_corr {k : Nat} (hk : 0 < k) {data : List (List Byte)} (hd : ∀ x ∈ data, x.length = k) (tail fuel : Nat) :
    ∀ (cb : Cbuf (List Byte)) (head off len written : Nat), WholeBuf k cb →
      Corr k (Cbuf.putsLoop data tail fuel cb head off len written) (putsLoop k data.flatten tail fuel (flat cb) head off len written) id := by
  induction fuel with
  | zero => exact fun _ _ _ _ _ _ => rfl
  | succ fuel ih =>
    intro cb head off len written hw
    rw [Cbuf.putsLoop, putsLoop]
    show Corr k _ (if (!isFull cb && decide (len > 0)) = true then _ else _) id
    split
    · dsimp only
      rw [show (flat cb).buffer = cb.buffer.flatten from rfl, memcpy_flat hk hw hd]
      rw [show (flat cb).bufsize = cb.bufsize from rfl]
      generalize putChunk cb.bufsize head tail len = c
      cases hm : memcpy cb.buffer head data off c with
      | ok b =>
        have hb : WholeBuf k { cb with buffer := b } := memcpy_whole hw hd hm
        simp only [Res.ok_bind]
        show Corr k _ (putsLoop k data.flatten tail fuel (advance (flat { cb with buffer := b }) c) (advance (flat { cb with buffer := b }) c).head _ _ _) id
        rw [flat_advance]
        exact ih _ _ _ _ _ (whole_advance hb _)
      | ub => exact rfl
      | abort => exact rfl
      | diverge => exact rfl
    · exact ⟨hw, rfl⟩

theorem storeChunk_flat {k : Nat} (hk : 0 < k) {out : Option (List (List Byte))} {buffer : List (List Byte)}
    (ho : ∀ o, out = some o → ∀ x ∈ o, x.length = k) (hb : ∀ x ∈ buffer, x.length = k) (off tail chunk : Nat) :
    storeChunk k (out.map List.flatten) off buffer.flatten tail chunk =
      Cbuf.storeChunk out off buffer tail chunk >>= fun o => .ok (o.map List.flatten) := by
  cases out with
  | none => rfl
  | some o =>
    simp only [storeChunk, Cbuf.storeChunk, Option.map_some]
    rw [memcpy_flat hk (ho o rfl) hb]
    cases memcpy o off buffer tail chunk <;> rfl

theorem storeChunk_whole {k : Nat} {out out' : Option (List (List Byte))} {buffer : List (List Byte)}
    (ho : ∀ o, out = some o → ∀ x ∈ o, x.length = k) (hb : ∀ x ∈ buffer, x.length = k) {off tail chunk : Nat}
    (h : Cbuf.storeChunk out off buffer tail chunk = .ok out') : ∀ o, out' = some o → ∀ x ∈ o, x.length = k := by
  cases out with
  | none => cases h; intro o ho; cases ho
  | some o =>
    simp only [Cbuf.storeChunk] at h
    cases hm : memcpy o off buffer tail chunk with
    | ok b =>
      rw [hm] at h
      cases h
      intro o' ho'
      cases ho'
      exact memcpy_whole (ho o rfl) hb hm
    | ub => rw [hm] at h; cases h
    | abort => rw [hm] at h; cases h
    | diverge => rw [hm] at h; cases h

/-- What `_circular_buf_get` returns, in bytes. -/
def flatOut (p : Option (List (List Byte)) × Nat) : Option (List Byte) × Nat := (p.1.map List.flatten, p.2)

theorem getLoop_corr {k : Nat} (hk : 0 < k) (consume : Bool) (head fuel : Nat) :
    ∀ (cb : Cbuf (List Byte)) (out : Option (List (List Byte))) (tail off len read : Nat), WholeBuf k cb →
      (∀ o, out = some o → ∀ x ∈ o, x.length = k) →
      Corr k (Cbuf.getLoop consume head fuel cb out tail off len read)
        (getLoop k consume head fuel (flat cb) (out.map List.flatten) tail off len read) flatOut := by
  induction fuel with
  | zero => exact fun _ _ _ _ _ _ _ _ => rfl
  | succ fuel ih =>
    intro cb out tail off len read hw ho
    rw [Cbuf.getLoop, getLoop]
    show Corr k _ (if len > 0 then _ else _) flatOut
    split
    · dsimp only
      rw [show (flat cb).buffer = cb.buffer.flatten from rfl, storeChunk_flat hk ho hw]
      rw [show (flat cb).bufsize = cb.bufsize from rfl]
      generalize getChunk cb.bufsize head tail len = c
      cases hm : Cbuf.storeChunk out off cb.buffer tail c with
      | ok o' =>
        have ho' := storeChunk_whole ho hw hm
        cases consume with
        | true => exact ih (retreat cb _) o' _ _ _ _ hw ho'
        | false => exact ih cb o' _ _ _ _ hw ho'
      | ub => exact rfl
      | abort => exact rfl
      | diverge => exact rfl
    · exact ⟨hw, rfl⟩

theorem get_corr {k : Nat} (hk : 0 < k) {cb : Cbuf (List Byte)} (hw : WholeBuf k cb) {out : Option (List (List Byte))}
    (ho : ∀ o, out = some o → ∀ x ∈ o, x.length = k) (len : Nat) (consume : Bool) :
    Corr k (Cbuf.get cb out len consume) (get k (flat cb) (out.map List.flatten) len consume) flatOut :=
  getLoop_corr hk consume cb.head _ cb out cb.tail 0 _ 0 hw ho

theorem step_corr {k : Nat} (hk : 0 < k) {cb : Cbuf (List Byte)} (hw : WholeBuf k cb) {c : Call (List Byte)} (hc : Whole k c) :
    Corr k (Cbuf.step cb c) (step k (flat cb) c) flatObs := by
  cases c with
  | putc x =>
    have hx : ∀ y ∈ [x], y.length = k := by
      intro y hy
      rw [List.mem_singleton.1 hy]
      exact hc
    simp only [Cbuf.step, step, Cbuf.putc, putc]
    rw [show isFull (flat cb) = isFull cb from rfl]
    split
    · have := memcpy_flat hk hw hx cb.head 0 1
      rw [Nat.one_mul, Nat.zero_mul, show [x].flatten = x by simp] at this
      rw [show (flat cb).buffer = cb.buffer.flatten from rfl, show (flat cb).head = cb.head from rfl, this, wr_memcpy]
      cases hm : memcpy cb.buffer cb.head [x] 0 1 with
      | ok b =>
        refine ⟨whole_advance (memcpy_whole hw hx hm) 1, ?_⟩
        show Res.ok (advance (flat { cb with buffer := b }) 1, _) = _
        rw [flat_advance]
        rfl
      | ub => exact rfl
      | abort => exact rfl
      | diverge => exact rfl
    · exact ⟨hw, rfl⟩
  | getc =>
    simp only [Cbuf.step, step, Cbuf.getc, getc]
    rw [show isEmpty (flat cb) = isEmpty cb from rfl]
    split
    · exact ⟨hw, rfl⟩
    · have hr : ∀ y ∈ [List.replicate k (0 : Byte)], y.length = k := by simp
      have := memcpy_flat hk hr hw 0 cb.tail 1
      rw [Nat.one_mul, Nat.zero_mul, show [List.replicate k (0 : Byte)].flatten = List.replicate k 0 by simp, ← rd_memcpy] at this
      rw [show (flat cb).buffer = cb.buffer.flatten from rfl, show (flat cb).tail = cb.tail from rfl, this]
      cases hm : rd cb.buffer cb.tail with
      | ok x =>
        refine ⟨hw, ?_⟩
        show Res.ok (_, _) = _
        simp [flatObs, flat, retreat]
      | ub => exact rfl
      | abort => exact rfl
      | diverge => exact rfl
  | getcNull =>
    simp only [Cbuf.step, step, Cbuf.getcNull]
    rw [show isEmpty (flat cb) = isEmpty cb from rfl]
    split <;> exact ⟨hw, rfl⟩
  | puts d n =>
    refine corr_bind (putsLoop_corr hk (show ∀ x ∈ d, x.length = k from hc) cb.tail (n + 1) cb cb.head 0 n 0 hw) ?_
    intro cb' a hw' _
    exact ⟨hw', rfl⟩
  | gets o n =>
    refine corr_bind (get_corr hk hw (out := o) ?_ (asSize n) true) ?_
    · rintro o' rfl
      exact hc
    · intro cb' a hw' _
      exact ⟨hw', rfl⟩
  | peek o n =>
    refine corr_bind (get_corr hk hw (out := o) ?_ (asSize n) false) ?_
    · rintro o' rfl
      exact hc
    · intro cb' a hw' _
      exact ⟨hw', rfl⟩
  | drop n =>
    refine corr_bind (get_corr hk hw (out := none) ?_ (asSize n) true) ?_
    · rintro o' ⟨⟩
    · intro cb' a hw' _
      exact ⟨hw', rfl⟩
  | _ => exact ⟨hw, rfl⟩

theorem run_corr {k : Nat} (hk : 0 < k) (cs : List (Call (List Byte))) (hc : ∀ c ∈ cs, Whole k c) :
    ∀ cb, WholeBuf k cb → Corr k (Cbuf.run cb cs) (run k (flat cb) cs) (List.map flatObs) := by
  induction cs with
  | nil => exact fun cb hw => ⟨hw, rfl⟩
  | cons c cs ih =>
    intro cb hw
    refine corr_bind (step_corr hk hw (hc c (by simp))) ?_
    intro cb o hw _
    refine corr_bind (ih (fun c h => hc c (by simp [h])) cb hw) ?_
    intro cb os hw _
    exact ⟨hw, rfl⟩

/-- **C157.** Elements of any size, on a buffer that was initialised with the number of elements: every history of calls has
exactly the outcome and the observations that it has for a buffer of cells (C01-C05, C135), byte by byte, including the bytes
left in the buffer. -/
theorem C157_bytes (k : Nat) (hk : 0 < k) (cb : Cbuf (List Byte)) (hw : ∀ x ∈ cb.buffer, x.length = k)
    (cs : List (Call (List Byte))) (hc : ∀ c ∈ cs, Whole k c) :
    run k (flat cb) cs = (do
      let (cb', os) ← Cbuf.run cb cs
      .ok (flat cb', os.map flatObs)) := by
  have h := run_corr hk cs hc cb hw
  unfold Corr at h
  cases hr : Cbuf.run cb cs with
  | ok p =>
    obtain ⟨cb', os⟩ := p
    rw [hr] at h
    exact h.2
  | ub => rw [hr] at h; exact h
  | abort => rw [hr] at h; exact h
  | diverge => rw [hr] at h; exact h

/-- **C157.** So no history of calls whose arrays hold what is asked for accesses a byte outside the buffer or these arrays. -/
theorem C157_safe (k : Nat) (hk : 0 < k) (n : Nat) (hn : 0 < n) (buffer : List (List Byte)) (hb : buffer.length = n)
    (hw : ∀ x ∈ buffer, x.length = k) (cs : List (Call (List Byte))) (hc : ∀ c ∈ cs, Whole k c) (hf : ∀ c ∈ cs, Spec.Fits n c) :
    ∃ cb os, run k ⟨buffer.flatten, n, 0, 0⟩ cs = .ok (cb, os) ∧ cb.buffer.length = n * k := by
  obtain ⟨cb, cb', os, h1, h2, h3, -⟩ := C05_memory_safe buffer n hn hb cs hf
  have h0 : cb = ⟨buffer, n, 0, 0⟩ := by
    simp only [Cbuf.init, if_neg (show n ≠ 0 by omega), reset, Option.some.injEq] at h1
    exact h1.symm
  subst h0
  have h := run_corr hk cs hc ⟨buffer, n, 0, 0⟩ hw
  rw [h2] at h
  exact ⟨_, _, h.2, by rw [show (flat cb').buffer = cb'.buffer.flatten from rfl, flatten_length h.1, h3]⟩

/-! ## C158: the size in bytes -/

/-- `circular_buf_init(cbuf, buffer, size)` for a buffer of the bytes given, circular_buffer.c:70-79. -/
def init (buffer : List Byte) (size : Nat) : Option (Cbuf Byte) := if size = 0 then none else some ⟨buffer, size, 0, 0⟩

/-- **C158** (partial). Elements of one byte: with the size of the buffer in bytes, as circular_buffer.h:25 says, every history is as it
is for a buffer of as many cells. Missing: larger elements (`C158_wrong`). -/
theorem C158_partial (buffer : List Byte) (hb : buffer ≠ []) (cs : List (Call (List Byte))) (hc : ∀ c ∈ cs, Whole 1 c) :
    ∃ cb, init buffer buffer.length = some cb ∧ run 1 cb cs = (do
      let (cb', os) ← Cbuf.run ⟨buffer.map fun x => [x], buffer.length, 0, 0⟩ cs
      .ok (flat cb', os.map flatObs)) := by
  refine ⟨⟨buffer, buffer.length, 0, 0⟩, by simp [init, hb], ?_⟩
  have h := C157_bytes 1 (by omega) ⟨buffer.map fun x => [x], buffer.length, 0, 0⟩ (by simp) cs hc
  rw [← h]
  congr 1
  simp only [flat]
  congr 1
  clear h hb
  induction buffer with
  | nil => rfl
  | cons x l ih => rw [List.map_cons, List.flatten_cons, ← ih]; rfl

theorem putc_ok {k : Nat} {cb : Cbuf Byte} {x : List Byte} (hx : x.length = k) (hf : isFull cb = false)
    (h : cb.head * k + k ≤ cb.buffer.length) :
    ∃ b, b.length = cb.buffer.length ∧ putc k cb x = .ok ({ cb with buffer := b, head := (cb.head + 1) % cb.bufsize }, 0) := by
  refine ⟨cb.buffer.take (cb.head * k) ++ (x.drop 0).take k ++ cb.buffer.drop (cb.head * k + k), ?_, ?_⟩
  · simp; omega
  · unfold putc memcpy
    rw [hf, if_pos (show (!false) = true from rfl), if_pos ⟨h, by omega⟩, Res.ok_bind]
    have hf' : ∀ b : List Byte, isFull { cb with buffer := b } = false := fun _ => hf
    simp only [advance, hf']
    rfl

/-- **C158**, where it fails: a buffer for `n` elements of `k` ≥ 2 bytes, initialised with its size in bytes: after `n` successful calls of
`circular_buf_putc` the next one writes outside the buffer (except for `n` = 1 and `k` = 2, where it is refused). -/
theorem C158_wrong (n k : Nat) (hn : 0 < n) (hk : 2 ≤ k) (hnk : n ≠ 1 ∨ k ≠ 2) (buffer : List Byte) (hb : buffer.length = n * k)
    (xs : List (List Byte)) (hxs : ∀ x ∈ xs, x.length = k) (hl : xs.length = n) (y : List Byte) :
    ∃ cb, init buffer buffer.length = some cb ∧
      (∃ cb', run k cb (xs.map .putc) = .ok (cb', List.replicate n ⟨0, none⟩)) ∧
      run k cb ((xs ++ [y]).map .putc) = .ub := by
  have hlt : n + 1 < n * k := by
    rcases Nat.lt_or_ge 2 k with h | h
    · have : n * 3 ≤ n * k := Nat.mul_le_mul_left n h
      omega
    · have : k = 2 := by omega
      subst this
      omega
  have key : ∀ (xs : List (List Byte)) (cb : Cbuf Byte), (∀ x ∈ xs, x.length = k) → cb.buffer.length = n * k → cb.bufsize = n * k →
      cb.tail = 0 → cb.head + xs.length = n → ∃ cb', run k cb (xs.map .putc) = .ok (cb', List.replicate xs.length ⟨0, none⟩) ∧
        run k cb ((xs ++ [y]).map .putc) = .ub := by
    intro xs
    induction xs with
    | nil =>
      intro cb _ h1 h2 h3 h4
      refine ⟨cb, rfl, ?_⟩
      have hh : cb.head = n := by simpa using h4
      have hf : isFull cb = false := by
        simp only [isFull, h2, h3, hh, Nat.mod_eq_of_lt hlt]
        simp
      simp only [List.nil_append, List.map_cons, run, step, putc, hf]
      rw [if_pos (show (!false) = true from rfl), memcpy, if_neg (by rw [h1, hh]; omega)]
      rfl
    | cons x xs ih =>
      intro cb hx h1 h2 h3 h4
      rw [List.length_cons] at h4
      have hm : (cb.head + 1) % cb.bufsize = cb.head + 1 := by rw [h2]; exact Nat.mod_eq_of_lt (by omega)
      have hf : isFull cb = false := by
        simp only [isFull, hm, h3]
        simp
      have hfit : cb.head * k + k ≤ n * k := by
        have : (cb.head + 1) * k ≤ n * k := Nat.mul_le_mul_right k (by omega)
        rw [Nat.succ_mul] at this
        exact this
      obtain ⟨b, hb1, hb2⟩ := putc_ok (hx x (by simp)) hf (by rw [h1]; exact hfit)
      rw [hm] at hb2
      obtain ⟨cb', g1, g2⟩ := ih { cb with buffer := b, head := cb.head + 1 } (fun z hz => hx z (by simp [hz])) (hb1.trans h1) h2 h3
        (show cb.head + 1 + xs.length = n by omega)
      refine ⟨cb', ?_, ?_⟩
      · simp only [List.map_cons, run, step, hb2, Res.ok_bind, g1, List.length_cons, List.replicate_succ]
      · simp only [List.map_cons, List.cons_append, run, step, hb2, Res.ok_bind, g2, Res.ub_bind]
  obtain ⟨cb', g1, g2⟩ := key xs ⟨buffer, n * k, 0, 0⟩ hxs hb rfl rfl (by simpa using hl)
  have h0 : n * k ≠ 0 := by omega
  exact ⟨_, by rw [hb, init, if_neg h0], ⟨cb', hl ▸ g1⟩, g2⟩

/-- Elements of two bytes in a buffer of three: what is put is got, also around the end. With the size in bytes the fourth element is
written behind the buffer. -/
example : run 2 ⟨List.replicate 6 0, 3, 0, 0⟩ [.putc [1, 2], .putc [3, 4], .getc, .puts [[5, 6]] 1, .gets (some [[0, 0], [0, 0]]) 1] =
      .ok (⟨[1, 2, 3, 4, 5, 6], 3, 0, 2⟩, [⟨0, none⟩, ⟨0, none⟩, ⟨0, some [1, 2]⟩, ⟨1, none⟩, ⟨1, some [3, 4, 0, 0]⟩]) ∧
    run 2 ⟨List.replicate 6 0, 6, 0, 0⟩ [.putc [1, 2], .putc [3, 4], .putc [5, 6], .putc [7, 8]] = .ub := by decide

end Gel.Cbuf.Bytes
