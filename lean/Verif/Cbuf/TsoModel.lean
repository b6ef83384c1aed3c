import Verif.Cbuf.Model

/-!
# Circular buffer with one producer and one consumer thread on machines with store buffers

Small-step model of `circular_buf_putc` and `circular_buf_getc` (gel/collections/circular_buffer.c:138-151 and 186-200)
for two threads on different cores. A store goes to the store buffer of its core and reaches the shared memory later; a
load takes the newest store to the same variable from the own store buffer, else the shared memory. Neither the members
of `circular_buf_t` nor the accesses are `volatile` or atomic and the code has no barriers, so nothing in the source
restricts the order further.

`Machine.stores` tells whether stores to different variables may reach the memory in another order than that of the
program, `Machine.loads` whether the element may be loaded before `head`. Both `false`: total store order (x86, SPARC).
Reordering of stores by the compiler has the same effect as `Machine.stores`.
-/
namespace Gel.Cbuf.Tso

variable {α : Type u}

/-- Which reorderings the machine does. -/
structure Machine where
  stores : Bool
  loads : Bool

/-- Total store order. -/
def tso : Machine := ⟨false, false⟩

/-- A store of the producer: to an element of the buffer or to `head`. -/
inductive Store (α : Type u) where
  | slot (i : Nat) (x : α)
  | head (h : Nat)

/-- The same variable. -/
def Store.same : Store α → Store α → Bool
  | .slot i _, .slot j _ => decide (i = j)
  | .head _, .head _ => true
  | _, _ => false

def Store.isSlot : Store α → Bool
  | .slot .. => true
  | .head _ => false

def Store.head? : Store α → Option Nat
  | .slot .. => none
  | .head h => some h

/-- What an observer sees. -/
inductive Lbl (α : Type u) where
  | tau
  /-- `circular_buf_putc(x)` returns 0 (`true`) or -1 -/
  | putcRet (x : α) (ok : Bool)
  /-- `circular_buf_getc` returns an element or -1 -/
  | getcRet (v : Option α)
  /-- a store to `head` reaches the memory before an earlier store to an element of the buffer -/
  | overtake

/-- Producer program points. -/
inductive PPc (α : Type u) where
  | idle
  /-- circular_buffer.c:144: about to evaluate `is_circular_buf_full` (loads `tail`) -/
  | check (x : α)
  /-- :145: about to store to `buffer[head]` -/
  | write (x : α)
  /-- :146 and :14: about to evaluate `is_circular_buf_full` in `advance_pointer` -/
  | adv (x : α)
  /-- :18: about to store to `head` -/
  | setHead (x : α)

/-- Consumer program points. -/
inductive CPc (α : Type u) where
  | idle
  /-- circular_buffer.c:191: about to evaluate `is_circular_buf_empty` (loads `head`) -/
  | echeck
  /-- as before, but the element has been loaded early -/
  | echeckLate (v : α)
  /-- :195: about to load `buffer[tail]` -/
  | rdslot
  /-- :197: about to store to `tail` -/
  | setTail (v : α)

/-- Shared memory, store buffers (oldest store first; the consumer only stores to `tail`) and program points. -/
structure St (α : Type u) where
  slots : List α
  head : Nat
  tail : Nat
  pbuf : List (Store α)
  cbuf : List Nat
  p : PPc α
  c : CPc α

/-- `cbuf->head` as loaded by the producer. -/
def pHead (s : St α) : Nat := (s.pbuf.filterMap Store.head?).getLast?.getD s.head

/-- `cbuf->tail` as loaded by the consumer. -/
def cTail (s : St α) : Nat := s.cbuf.getLast?.getD s.tail

/-- A store of the producer reaches the memory. -/
def apply (s : St α) : Store α → St α
  | .slot i x => { s with slots := s.slots.set i x }
  | .head h => { s with head := h }

/-- Whether the producer finds the buffer full, circular_buffer.c:104. -/
def full (n : Nat) (s : St α) : Prop := (pHead s + 1) % n = s.tail

/-- One step of a thread or of a store buffer, for a buffer of size `n`. -/
inductive Step (m : Machine) (n : Nat) : St α → Lbl α → St α → Prop
  -- producer
  | callPutc (s x) : s.p = .idle → Step m n s .tau { s with p := .check x }
  | checkFull (s x) : s.p = .check x → full n s → Step m n s (.putcRet x false) { s with p := .idle }
  | checkOk (s x) : s.p = .check x → ¬ full n s → Step m n s .tau { s with p := .write x }
  | write (s x) : s.p = .write x → Step m n s .tau { s with pbuf := s.pbuf ++ [.slot (pHead s) x], p := .adv x }
  | advFull (s x) : s.p = .adv x → full n s → Step m n s (.putcRet x true) { s with p := .idle }
  | advOk (s x) : s.p = .adv x → ¬ full n s → Step m n s .tau { s with p := .setHead x }
  | setHead (s x) : s.p = .setHead x →
      Step m n s (.putcRet x true) { s with pbuf := s.pbuf ++ [.head ((pHead s + 1) % n)], p := .idle }
  -- the oldest store of the producer reaches the memory
  | flush (s st b) : s.pbuf = st :: b → Step m n s .tau (apply { s with pbuf := b } st)
  -- a later one reaches it first; stores to the same variable keep their order
  | reorder (s) (a : List (Store α)) (st : Store α) (b) : m.stores = true → a ≠ [] → s.pbuf = a ++ st :: b → (∀ x ∈ a, Store.same x st = false) →
      Step m n s (if st.isSlot = false ∧ a.any Store.isSlot = true then .overtake else .tau) (apply { s with pbuf := a ++ b } st)
  -- consumer
  | callGetc (s) : s.c = .idle → Step m n s .tau { s with c := .echeck }
  | echeckEmpty (s) : s.c = .echeck → s.head = cTail s → Step m n s (.getcRet none) { s with c := .idle }
  | echeckOk (s) : s.c = .echeck → s.head ≠ cTail s → Step m n s .tau { s with c := .rdslot }
  | rdslot (s v) : s.c = .rdslot → s.slots[cTail s]? = some v → Step m n s .tau { s with c := .setTail v }
  -- the element is loaded before `head`
  | early (s v) : m.loads = true → s.c = .echeck → s.slots[cTail s]? = some v → Step m n s .tau { s with c := .echeckLate v }
  | lateEmpty (s v) : s.c = .echeckLate v → s.head = cTail s → Step m n s (.getcRet none) { s with c := .idle }
  | lateOk (s v) : s.c = .echeckLate v → s.head ≠ cTail s → Step m n s .tau { s with c := .setTail v }
  | setTail (s v) : s.c = .setTail v →
      Step m n s (.getcRet (some v)) { s with cbuf := s.cbuf ++ [(cTail s + 1) % n], c := .idle }
  -- the oldest store of the consumer reaches the memory
  | flushTail (s t b) : s.cbuf = t :: b → Step m n s .tau { s with tail := t, cbuf := b }

/-- Executions from `circular_buf_init`, with empty store buffers. -/
inductive Exec (m : Machine) (n : Nat) (buffer : List α) : List (Lbl α) → St α → Prop
  | init : Exec m n buffer [] ⟨buffer, 0, 0, [], [], .idle, .idle⟩
  | step {tr s l s'} : Exec m n buffer tr s → Step m n s l s' → Exec m n buffer (tr ++ [l]) s'

/-! Specification: what went in and out. -/

/-- The elements `circular_buf_putc` accepted. -/
def accepted : List (Lbl α) → List α
  | [] => []
  | .putcRet x true :: tr => x :: accepted tr
  | _ :: tr => accepted tr

/-- The elements `circular_buf_getc` returned. -/
def got : List (Lbl α) → List α
  | [] => []
  | .getcRet (some v) :: tr => v :: got tr
  | _ :: tr => got tr

end Gel.Cbuf.Tso
