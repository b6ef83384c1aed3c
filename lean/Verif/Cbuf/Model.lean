import Verif.C
import Verif.Cbuf.Api

/-!
# Model of `gel/collections/circular_buffer.c`

Assumptions: `bufsize <= INT_MAX`, so the conversions between `int` and `size_t` of positions, chunks and totals are
exact; `size_t` has 64 bits. The element type `GEL_CBUF_TYPE` is an arbitrary type `α`; one element is one cell.
`cbuf->buffer` is never NULL after `circular_buf_init` (which refuses NULL), so its NULL test is not modelled;
a NULL `cbuf` is modelled at the API (`Option`).
-/
namespace Gel.Cbuf

/-- `struct circular_buf_t`, circular_buffer.h:10-16. The buffer is the array of `bufsize` elements given to init. -/
structure Cbuf (α : Type u) where
  buffer : List α
  bufsize : Nat
  head : Nat
  tail : Nat
  deriving Repr, DecidableEq

variable {α : Type u}

/-- `circular_buf_reset`, circular_buffer.c:81-87. -/
def reset (cb : Cbuf α) : Cbuf α := { cb with head := 0, tail := 0 }

/-- `circular_buf_init`, circular_buffer.c:70-79: `none` is a NULL buffer. Returns 0 and the initialised struct,
or 1. -/
def init (buffer : Option (List α)) (size : Nat) : Option (Cbuf α) :=
  match buffer with
  | none => none
  | some b => if size = 0 then none else some (reset ⟨b, size, 0, 0⟩)

/-- `is_circular_buf_empty`, circular_buffer.c:93-98. -/
def isEmpty (cb : Cbuf α) : Bool := cb.head == cb.tail

/-- `is_circular_buf_full`, circular_buffer.c:100-105. -/
def isFull (cb : Cbuf α) : Bool := (cb.head + 1) % cb.bufsize == cb.tail

/-- `circular_buf_size`, circular_buffer.c:107-124. -/
def size (cb : Cbuf α) : Nat :=
  if !isFull cb then
    if cb.head ≥ cb.tail then cb.head - cb.tail else cb.bufsize + cb.head - cb.tail
  else cb.bufsize

/-- `circular_buf_capacity`, circular_buffer.c:126-131. -/
def capacity (cb : Cbuf α) : Nat := cb.bufsize - 1

/-- `advance_pointer`, circular_buffer.c:13-23. The new head is the `head` of the result. -/
def advance (cb : Cbuf α) (step : Nat) : Cbuf α :=
  if isFull cb || step == 0 then cb else { cb with head := (cb.head + step) % cb.bufsize }

/-- `retreat_pointer`, circular_buffer.c:25-29. -/
def retreat (cb : Cbuf α) (step : Nat) : Cbuf α :=
  { cb with tail := (cb.tail + step) % cb.bufsize }

/-- `circular_buf_putc`, circular_buffer.c:138-151. -/
def putc (cb : Cbuf α) (x : α) : Res (Cbuf α × Int) :=
  if !isFull cb then do
    let b ← wr cb.buffer cb.head x
    .ok (advance { cb with buffer := b } 1, 0)
  else .ok (cb, -1)

/-- `circular_buf_getc`, circular_buffer.c:187-200, with `data != NULL`: the element stored through `data`, if any. -/
def getc (cb : Cbuf α) : Res (Cbuf α × Option α × Int) :=
  if isEmpty cb then .ok (cb, none, -1)
  else do
    let x ← rd cb.buffer cb.tail
    .ok (retreat cb 1, some x, 0)

/-- `circular_buf_getc` with `data == NULL` (circular_buffer.c:194): nothing is read. -/
def getcNull (cb : Cbuf α) : Res (Cbuf α × Int) :=
  if isEmpty cb then .ok (cb, -1) else .ok (retreat cb 1, 0)

/-- The chunk computed by one iteration of `circular_buf_puts`, circular_buffer.c:162-170.
`head` and `tail` are the local variables. -/
def putChunk (bufsize head tail len : Nat) : Nat :=
  if head ≥ tail then
    if tail == 0 then
      if len > bufsize - head - 1 then bufsize - head - 1 else len
    else
      if len > bufsize - head then bufsize - head else len
  else
    if len > tail - head then tail - head - 1 else len

/-- The loop of `circular_buf_puts`, circular_buffer.c:161-177. `head` is the local variable, `tail` the value read
before the loop, `off` the amount by which `data` was advanced. The loop state is determined by these, so an
iteration with an empty chunk repeats forever; `fuel` bounds the number of iterations and is chosen larger than `len`
by `puts`. -/
def putsLoop (data : List α) (tail : Nat) :
    (fuel : Nat) → Cbuf α → (head off len written : Nat) → Res (Cbuf α × Nat)
  | 0, _, _, _, _, _ => .diverge
  | fuel + 1, cb, head, off, len, written =>
    if !isFull cb && len > 0 then do
      let chunk := putChunk cb.bufsize head tail len
      let b ← memcpy cb.buffer head data off chunk
      let cb' := advance { cb with buffer := b } chunk
      putsLoop data tail fuel cb' cb'.head (off + chunk) (len - chunk) (written + chunk)
    else .ok (cb, written)

/-- `circular_buf_puts`, circular_buffer.c:153-180. `data` is the caller's array. -/
def puts (cb : Cbuf α) (data : List α) (len : Nat) : Res (Cbuf α × Nat) :=
  putsLoop data cb.tail (len + 1) cb cb.head 0 len 0

/-- The chunk computed by one iteration of `_circular_buf_get`, circular_buffer.c:42-48. -/
def getChunk (bufsize head tail len : Nat) : Nat :=
  let chunk := if head > tail then head - tail else bufsize - tail
  if chunk > len then len else chunk

/-- The copy to the caller's array, circular_buffer.c:50-53 (`none` = NULL). -/
def storeChunk (out : Option (List α)) (off : Nat) (buffer : List α) (tail chunk : Nat) : Res (Option (List α)) :=
  match out with
  | none => .ok none
  | some o => do
    let o' ← memcpy o off buffer tail chunk
    .ok (some o')

/-- The loop of `_circular_buf_get`, circular_buffer.c:41-61. `out` is the caller's array (`none` = NULL) and `off` the
amount by which `data` was advanced. Fuel as in `putsLoop`. -/
def getLoop (consume : Bool) (head : Nat) :
    (fuel : Nat) → Cbuf α → Option (List α) → (tail off len read : Nat) → Res (Cbuf α × Option (List α) × Nat)
  | 0, _, _, _, _, _, _ => .diverge
  | fuel + 1, cb, out, tail, off, len, read =>
    if len > 0 then do
      let chunk := getChunk cb.bufsize head tail len
      let out' ← storeChunk out off cb.buffer tail chunk
      if consume then
        let cb' := retreat cb chunk
        getLoop consume head fuel cb' out' cb'.tail (off + chunk) (len - chunk) (read + chunk)
      else
        getLoop consume head fuel cb out' ((tail + chunk) % cb.bufsize) (off + chunk) (len - chunk) (read + chunk)
    else .ok (cb, out, read)

/-- `_circular_buf_get`, circular_buffer.c:31-64. `len` is a `size_t`. -/
def get (cb : Cbuf α) (out : Option (List α)) (len : Nat) (consume : Bool) : Res (Cbuf α × Option (List α) × Nat) :=
  let sz := size cb
  let len := if len < sz then len else sz
  getLoop consume cb.head (len + 1) cb out cb.tail 0 len 0

/-- `circular_buf_peek`, circular_buffer.c:202-204: the `int` length is converted to `size_t`. -/
def peek (cb : Cbuf α) (out : Option (List α)) (len : Int) := get cb out (asSize len) false

/-- `circular_buf_gets`, circular_buffer.c:206-208. -/
def gets (cb : Cbuf α) (out : Option (List α)) (len : Int) := get cb out (asSize len) true

/-- `circular_buf_drop`, circular_buffer.c:210-212. -/
def drop (cb : Cbuf α) (len : Int) := get cb none (asSize len) true

/-- One API call. -/
def step (cb : Cbuf α) : Call α → Res (Cbuf α × Obs α)
  | .putc x => do let (cb, r) ← putc cb x; .ok (cb, ⟨r, none⟩)
  | .getc => do let (cb, x, r) ← getc cb; .ok (cb, ⟨r, x.map ([·])⟩)
  | .getcNull => do let (cb, r) ← getcNull cb; .ok (cb, ⟨r, none⟩)
  | .puts d n => do let (cb, w) ← puts cb d n; .ok (cb, ⟨w, none⟩)
  | .gets o n => do let (cb, o, r) ← gets cb o n; .ok (cb, ⟨r, o⟩)
  | .peek o n => do let (cb, o, r) ← peek cb o n; .ok (cb, ⟨r, o⟩)
  | .drop n => do let (cb, _, r) ← drop cb n; .ok (cb, ⟨r, none⟩)
  | .reset => .ok (reset cb, ⟨0, none⟩)
  | .isEmpty => .ok (cb, ⟨b2i (isEmpty cb), none⟩)
  | .isFull => .ok (cb, ⟨b2i (isFull cb), none⟩)
  | .size => .ok (cb, ⟨size cb, none⟩)
  | .capacity => .ok (cb, ⟨capacity cb, none⟩)

/-- A history of calls and its observations. -/
def run (cb : Cbuf α) : List (Call α) → Res (Cbuf α × List (Obs α))
  | [] => .ok (cb, [])
  | c :: cs => do
    let (cb, o) ← step cb c
    let (cb, os) ← run cb cs
    .ok (cb, o :: os)

end Gel.Cbuf
