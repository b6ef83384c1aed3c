import Verif.Cbuf.Model

/-!
# Circular buffer with one producer and one consumer thread

Small-step model of `gel/collections/circular_buffer.c` for two threads: the producer calls `circular_buf_putc` and
`circular_buf_puts`, the consumer `circular_buf_getc` and `circular_buf_gets`. Every access to memory written by the
other thread (an element of the buffer, `tail` for the producer, `head` for the consumer) is a step of its own, and so
is every write to `head` and `tail`; steps of the two threads interleave arbitrarily. Sequential consistency is
assumed. `head` is only written by the producer and `tail` only by the consumer, so a thread reading its own variable
is not a separate step.

The labels record calls and returns; they do not influence the execution.
-/
namespace Gel.Cbuf.Conc

open Gel.Cbuf

/-- What an observer of the two threads sees. -/
inductive Lbl (α : Type u) where
  /-- internal step -/
  | tau
  /-- `circular_buf_putc(x)` returns 0 (`true`) or -1 -/
  | putcRet (x : α) (ok : Bool)
  /-- `circular_buf_puts` is called -/
  | putsCall (data : List α)
  /-- `circular_buf_puts` with `len` elements reads the tail, while `free` elements would fit -/
  | snap (len free : Nat)
  /-- `circular_buf_puts` returns the length of `l`, the prefix of its argument reported as written -/
  | putsRet (l : List α)
  /-- `circular_buf_getc` returns an element or -1 -/
  | getcRet (v : Option α)
  /-- `circular_buf_gets` is called -/
  | getsCall (len : Nat)
  /-- `circular_buf_gets` returns these elements -/
  | getsRet (l : List α)

/-- Producer program points. -/
inductive PPc (α : Type u) where
  | idle
  /-- putc, circular_buffer.c:144: about to evaluate `is_circular_buf_full` (reads `tail`) -/
  | check (x : α)
  /-- putc, :145: about to write `buffer[head]` -/
  | write (x : α)
  /-- putc, :146 and :14: about to re-evaluate `is_circular_buf_full` in `advance_pointer` -/
  | adv (x : α)
  /-- putc, :18: about to write `head` -/
  | setHead (x : α)
  /-- puts, :159-160: about to read `tail` into the local variable -/
  | snap (data : List α)
  /-- puts, :161: about to evaluate the loop condition; `t` is the local `tail`, `done` what was written so far and
  `rest` what remains (the local `head` always equals `cbuf->head`) -/
  | loop (t : Nat) (done rest : List α)
  /-- puts, :172: inside `memcpy` of `c` elements, `i` of them copied -/
  | copy (t : Nat) (done rest : List α) (c i : Nat)
  /-- puts, :173 and :14: about to evaluate `is_circular_buf_full` in `advance_pointer` -/
  | badv (t : Nat) (done rest : List α) (c : Nat)
  /-- puts, :18: about to write `head` -/
  | bset (t : Nat) (done rest : List α) (c : Nat)

/-- Consumer program points. -/
inductive CPc (α : Type u) where
  | idle
  /-- getc, circular_buffer.c:191: about to evaluate `is_circular_buf_empty` (reads `head`) -/
  | echeck
  /-- getc, :195: about to read `buffer[tail]` -/
  | rdslot
  /-- getc, :197: about to write `tail` -/
  | setTail (v : α)
  /-- gets, :33 and :114: about to read `head` in `circular_buf_size` -/
  | gsz1 (len : Nat)
  /-- gets, :115: about to evaluate `is_circular_buf_full` in `circular_buf_size`, `h1` is the local `head` -/
  | gsz2 (len h1 : Nat)
  /-- gets, :40: about to read `head` into the local variable; `len` is already limited by the size -/
  | ghead (len : Nat)
  /-- gets, :41: about to evaluate the loop condition; `acc` are the elements already removed -/
  | gloop (h len : Nat) (acc : List α)
  /-- gets, :51: inside `memcpy` of `c` elements, `cp` copied so far -/
  | gcopy (h len : Nat) (acc : List α) (c : Nat) (cp : List α)
  /-- gets, :58 and :26: about to write `tail` -/
  | gset (h len : Nat) (acc cp : List α)

/-- The shared memory and the two program points. -/
structure St (α : Type u) where
  slots : List α
  head : Nat
  tail : Nat
  p : PPc α
  c : CPc α

variable {α : Type u} (n : Nat)

/-- `is_circular_buf_full` on the current values of `head` and `tail`, circular_buffer.c:104. -/
def full (s : St α) : Prop := (s.head + 1) % n = s.tail

instance (s : St α) : Decidable (full n s) := by unfold full; infer_instance

/-- The number of elements that fit, from the current values of `head` and `tail`. -/
def free (s : St α) : Nat := n - 1 - (s.head + n - s.tail) % n

/-- `circular_buf_size` as computed by the consumer from a first reading `h1` of `head` and the full test `f`,
circular_buffer.c:111-123. -/
def sizeOf (h1 tail : Nat) (f : Bool) : Nat :=
  if !f then if h1 ≥ tail then h1 - tail else n + h1 - tail else n

/-- One step of one of the threads on a buffer of size `n`. -/
inductive Step : St α → Lbl α → St α → Prop
  -- producer: putc
  | callPutc (s x) : s.p = .idle → Step s .tau { s with p := .check x }
  | checkFull (s x) : s.p = .check x → full n s → Step s (.putcRet x false) { s with p := .idle }
  | checkOk (s x) : s.p = .check x → ¬full n s → Step s .tau { s with p := .write x }
  | write (s x) : s.p = .write x → Step s .tau { s with slots := s.slots.set s.head x, p := .adv x }
  | advFull (s x) : s.p = .adv x → full n s → Step s (.putcRet x true) { s with p := .idle }
  | advOk (s x) : s.p = .adv x → ¬full n s → Step s .tau { s with p := .setHead x }
  | setHead (s x) : s.p = .setHead x → Step s (.putcRet x true) { s with head := (s.head + 1) % n, p := .idle }
  -- producer: puts
  | callPuts (s data) : s.p = .idle → Step s (.putsCall data) { s with p := .snap data }
  | snap (s data) : s.p = .snap data → Step s (.snap data.length (free n s)) { s with p := .loop s.tail [] data }
  | loopEnd (s t done rest) : s.p = .loop t done rest → (full n s ∨ rest = []) →
      Step s (.putsRet done) { s with p := .idle }
  | loopGo (s t done rest) : s.p = .loop t done rest → ¬full n s → rest ≠ [] →
      Step s .tau { s with p := .copy t done rest (putChunk n s.head t rest.length) 0 }
  | copy (s t done rest c i x) : s.p = .copy t done rest c i → i < c → rest[i]? = some x →
      Step s .tau { s with slots := s.slots.set (s.head + i) x, p := .copy t done rest c (i + 1) }
  | copyEnd (s t done rest c i) : s.p = .copy t done rest c i → c ≤ i → Step s .tau { s with p := .badv t done rest c }
  | badvSkip (s t done rest c) : s.p = .badv t done rest c → (full n s ∨ c = 0) →
      Step s .tau { s with p := .loop t (done ++ rest.take c) (rest.drop c) }
  | badvOk (s t done rest c) : s.p = .badv t done rest c → ¬full n s → c ≠ 0 →
      Step s .tau { s with p := .bset t done rest c }
  | bset (s t done rest c) : s.p = .bset t done rest c →
      Step s .tau { s with head := (s.head + c) % n, p := .loop t (done ++ rest.take c) (rest.drop c) }
  -- consumer: getc
  | callGetc (s) : s.c = .idle → Step s .tau { s with c := .echeck }
  | echeckEmpty (s) : s.c = .echeck → s.head = s.tail → Step s (.getcRet none) { s with c := .idle }
  | echeckOk (s) : s.c = .echeck → s.head ≠ s.tail → Step s .tau { s with c := .rdslot }
  | rdslot (s v) : s.c = .rdslot → s.slots[s.tail]? = some v → Step s .tau { s with c := .setTail v }
  | setTail (s v) : s.c = .setTail v → Step s (.getcRet (some v)) { s with tail := (s.tail + 1) % n, c := .idle }
  -- consumer: gets
  | callGets (s len) : s.c = .idle → Step s (.getsCall len) { s with c := .gsz1 len }
  | gsz1 (s len) : s.c = .gsz1 len → Step s .tau { s with c := .gsz2 len s.head }
  | gsz2 (s len h1) : s.c = .gsz2 len h1 →
      Step s .tau { s with c := .ghead (min len (sizeOf n h1 s.tail (decide (full n s)))) }
  | ghead (s len) : s.c = .ghead len → Step s .tau { s with c := .gloop s.head len [] }
  | gloopEnd (s h acc) : s.c = .gloop h 0 acc → Step s (.getsRet acc) { s with c := .idle }
  | gloopGo (s h len acc) : s.c = .gloop h len acc → 0 < len →
      Step s .tau { s with c := .gcopy h len acc (getChunk n h s.tail len) [] }
  | gcopy (s h len acc c cp v) : s.c = .gcopy h len acc c cp → cp.length < c →
      s.slots[s.tail + cp.length]? = some v → Step s .tau { s with c := .gcopy h len acc c (cp ++ [v]) }
  | gcopyEnd (s h len acc c cp) : s.c = .gcopy h len acc c cp → c ≤ cp.length →
      Step s .tau { s with c := .gset h len acc cp }
  | gset (s h len acc cp) : s.c = .gset h len acc cp →
      Step s .tau { s with tail := (s.tail + cp.length) % n, c := .gloop h (len - cp.length) (acc ++ cp) }

/-- Executions of the two threads from `circular_buf_init` on a buffer of `n` elements, with the labels in order. -/
inductive Exec (buffer : List α) : List (Lbl α) → St α → Prop
  | init : Exec buffer [] ⟨buffer, 0, 0, .idle, .idle⟩
  | step {tr s l s'} : Exec buffer tr s → Step n s l s' → Exec buffer (tr ++ [l]) s'

end Gel.Cbuf.Conc
