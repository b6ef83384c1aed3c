import Verif.Cbuf.Model

/-!
# Circular buffer: model with integer widths

`gel/collections/circular_buffer.c` with an `int` of `iw` bits and a `size_t` of `sw ≥ iw` bits, and all the conversions between
them. Out of range conversions to `int` wrap (implementation-defined, as GCC does). One element is one cell, as in `Model`; a
`memcpy` with a negative length or position is undefined.
-/
namespace Gel.Cbuf
variable {α : Type}

/-- Conversion to `size_t`, and of a `size_t` to `int`. -/
def toSz (sw : Nat) (i : Int) : Nat := (wrapU sw i).toNat
def toI (iw : Nat) (x : Nat) : Int := wrapS iw x

/-- `is_circular_buf_full`, circular_buffer.c:100-105. -/
def isFullW (sw : Nat) (cb : Cbuf α) : Bool := toSz sw (cb.head + 1) % cb.bufsize == cb.tail

/-- `circular_buf_size`, circular_buffer.c:107-124: `tail` and `head` are `int`s; line 117 is a difference of `int`s, line 119
is evaluated in `size_t`. -/
def sizeW (iw sw : Nat) (cb : Cbuf α) : Res Nat :=
  let tail := toI iw cb.tail
  let head := toI iw cb.head
  if !isFullW sw cb then
    if head ≥ tail then do
      let d ← chkS iw (head - tail)
      .ok (toSz sw d)
    else .ok (toSz sw (cb.bufsize + head - tail))
  else .ok cb.bufsize

/-- `circular_buf_capacity`, circular_buffer.c:126-131. -/
def capacityW (sw : Nat) (cb : Cbuf α) : Nat := toSz sw ((cb.bufsize : Int) - 1)

/-- `advance_pointer`, circular_buffer.c:13-23; `step` is an `int`, converted for the addition. -/
def advanceW (sw : Nat) (cb : Cbuf α) (step : Int) : Cbuf α :=
  if isFullW sw cb || step == 0 then cb else { cb with head := toSz sw (cb.head + step) % cb.bufsize }

/-- `retreat_pointer`, circular_buffer.c:25-29. -/
def retreatW (sw : Nat) (cb : Cbuf α) (step : Int) : Cbuf α :=
  { cb with tail := toSz sw (cb.tail + step) % cb.bufsize }

/-- `circular_buf_putc`, circular_buffer.c:138-151. -/
def putcW (sw : Nat) (cb : Cbuf α) (x : α) : Res (Cbuf α × Int) :=
  if !isFullW sw cb then do
    let b ← wr cb.buffer cb.head x
    .ok (advanceW sw { cb with buffer := b } 1, 0)
  else .ok (cb, -1)

/-- `circular_buf_getc`, circular_buffer.c:187-200. -/
def getcW (sw : Nat) (cb : Cbuf α) : Res (Cbuf α × Option α × Int) :=
  if isEmpty cb then .ok (cb, none, -1)
  else do
    let x ← rd cb.buffer cb.tail
    .ok (retreatW sw cb 1, some x, 0)

/-- The same with `data == NULL`. -/
def getcNullW (sw : Nat) (cb : Cbuf α) : Res (Cbuf α × Int) :=
  if isEmpty cb then .ok (cb, -1) else .ok (retreatW sw cb 1, 0)

/-- circular_buffer.c:162-170, in `size_t`; the result is converted to the `int` `chunk`. -/
def putChunkW (iw sw bufsize head tail len : Nat) : Int :=
  toI iw (
    if head ≥ tail then
      if tail == 0 then
        if len > toSz sw ((bufsize : Int) - head - 1) then toSz sw ((bufsize : Int) - head - 1) else len
      else
        if len > toSz sw ((bufsize : Int) - head) then toSz sw ((bufsize : Int) - head) else len
    else
      if len > toSz sw ((tail : Int) - head) then toSz sw ((tail : Int) - head - 1) else len)

/-- `memcpy` with positions and a length that may be negative. -/
def memcpyW (dst : List α) (doff : Int) (src : List α) (soff cnt : Int) : Res (List α) :=
  if 0 ≤ doff ∧ 0 ≤ soff ∧ 0 ≤ cnt then memcpy dst doff.toNat src soff.toNat cnt.toNat else .ub

/-- The loop of `circular_buf_puts`, circular_buffer.c:161-177. -/
def putsLoopW (iw sw : Nat) (data : List α) (tail : Nat) :
    (fuel : Nat) → Cbuf α → (head : Nat) → (off : Int) → (len : Nat) → (written : Int) → Res (Cbuf α × Int)
  | 0, _, _, _, _, _ => .diverge
  | fuel + 1, cb, head, off, len, written =>
    if !isFullW sw cb && len > 0 then do
      let chunk := putChunkW iw sw cb.bufsize head tail len
      let b ← memcpyW cb.buffer head data off chunk
      let cb' := advanceW sw { cb with buffer := b } chunk
      let written ← chkS iw (written + chunk)
      putsLoopW iw sw data tail fuel cb' cb'.head (off + chunk) (toSz sw (len - chunk)) written
    else .ok (cb, written)

/-- `circular_buf_puts`, circular_buffer.c:153-180. -/
def putsW (iw sw : Nat) (cb : Cbuf α) (data : List α) (len : Nat) : Res (Cbuf α × Int) :=
  putsLoopW iw sw data cb.tail (len + 1) cb cb.head 0 len 0

/-- circular_buffer.c:42-48: `tail` and `head` are `int`s, `chunk` and `len` `size_t`s. -/
def getChunkW (iw sw bufsize : Nat) (head tail : Int) (len : Nat) : Res Nat := do
  let chunk ← if head > tail then do
      let d ← chkS iw (head - tail)
      .ok (toSz sw d)
    else .ok (toSz sw (bufsize - tail))
  .ok (if chunk > len then len else chunk)

/-- The copy, circular_buffer.c:50-53. -/
def storeChunkW (out : Option (List α)) (off : Nat) (buffer : List α) (tail : Int) (chunk : Nat) : Res (Option (List α)) :=
  match out with
  | none => .ok none
  | some o => do
    let o' ← memcpyW o off buffer tail chunk
    .ok (some o')

/-- The loop of `_circular_buf_get`, circular_buffer.c:41-61. -/
def getLoopW (iw sw : Nat) (consume : Bool) (head : Int) :
    (fuel : Nat) → Cbuf α → Option (List α) → (tail : Int) → (off len : Nat) → (read : Int) →
      Res (Cbuf α × Option (List α) × Int)
  | 0, _, _, _, _, _, _ => .diverge
  | fuel + 1, cb, out, tail, off, len, read =>
    if len > 0 then do
      let chunk ← getChunkW iw sw cb.bufsize head tail len
      let out' ← storeChunkW out off cb.buffer tail chunk
      let read := toI iw (toSz sw (toSz sw read + chunk))
      if consume then
        let cb' := retreatW sw cb (toI iw chunk)
        getLoopW iw sw consume head fuel cb' out' (toI iw cb'.tail) (off + chunk) (len - chunk) read
      else
        getLoopW iw sw consume head fuel cb out' (toI iw (toSz sw (tail + chunk) % cb.bufsize)) (off + chunk) (len - chunk)
          read
    else .ok (cb, out, read)

/-- `_circular_buf_get`, circular_buffer.c:31-64. -/
def getW (iw sw : Nat) (cb : Cbuf α) (out : Option (List α)) (len : Nat) (consume : Bool) :
    Res (Cbuf α × Option (List α) × Int) := do
  let sz ← sizeW iw sw cb
  let len := if len < sz then len else sz
  getLoopW iw sw consume (toI iw cb.head) (len + 1) cb out (toI iw cb.tail) 0 len 0

/-- One API call; `peek`, `gets` and `drop` (circular_buffer.c:202-212) convert their `int` to `size_t`. -/
def stepW (iw sw : Nat) (cb : Cbuf α) : Call α → Res (Cbuf α × Obs α)
  | .putc x => do let (cb, r) ← putcW sw cb x; .ok (cb, ⟨r, none⟩)
  | .getc => do let (cb, x, r) ← getcW sw cb; .ok (cb, ⟨r, x.map ([·])⟩)
  | .getcNull => do let (cb, r) ← getcNullW sw cb; .ok (cb, ⟨r, none⟩)
  | .puts d n => do let (cb, w) ← putsW iw sw cb d n; .ok (cb, ⟨w, none⟩)
  | .gets o n => do let (cb, o, r) ← getW iw sw cb o (toSz sw n) true; .ok (cb, ⟨r, o⟩)
  | .peek o n => do let (cb, o, r) ← getW iw sw cb o (toSz sw n) false; .ok (cb, ⟨r, o⟩)
  | .drop n => do let (cb, _, r) ← getW iw sw cb none (toSz sw n) true; .ok (cb, ⟨r, none⟩)
  | .reset => .ok (reset cb, ⟨0, none⟩)
  | .isEmpty => .ok (cb, ⟨b2i (isEmpty cb), none⟩)
  | .isFull => .ok (cb, ⟨b2i (isFullW sw cb), none⟩)
  | .size => do let n ← sizeW iw sw cb; .ok (cb, ⟨n, none⟩)
  | .capacity => .ok (cb, ⟨capacityW sw cb, none⟩)

/-- A history of calls and its observations. -/
def runW (iw sw : Nat) (cb : Cbuf α) : List (Call α) → Res (Cbuf α × List (Obs α))
  | [] => .ok (cb, [])
  | c :: cs => do
    let (cb, o) ← stepW iw sw cb c
    let (cb, os) ← runW iw sw cb cs
    .ok (cb, o :: os)

end Gel.Cbuf
