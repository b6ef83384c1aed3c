import Verif.Cbuf.ConcSpec
import Verif.Cbuf.ConcLemmas
import Verif.Cbuf.ConcGets
import Verif.Cbuf.TsoModel
import Verif.Cbuf.TsoProps
import Mathlib.Tactic.SplitIfs

/-!
# Circular buffer: property C197, bulk operations on machines with store buffers

`circular_buf_putc` and `circular_buf_puts` in one thread, `circular_buf_getc` and `circular_buf_gets` in another, on a machine with total
store order: a store goes to the store buffer of its core, from where stores reach the memory in program order; a load takes the newest store
to the same variable from the own store buffer, else the memory. The program points are those of `Cbuf/ConcModel`.
-/
namespace Gel.Cbuf.TsoBulk
open Conc (Lbl PPc CPc)
open Tso (Store)

variable {α : Type u}

/-! ## Model -/

/-- Shared memory, store buffers (oldest store first; the consumer only stores to `tail`) and program points. -/
structure St (α : Type u) where
  slots : List α
  head : Nat
  tail : Nat
  pbuf : List (Store α)
  cbuf : List Nat
  p : PPc α
  c : CPc α

/-- `cbuf->head` as loaded by the producer. -/
def pHead (s : St α) : Nat := (s.pbuf.filterMap Store.head?).getLast?.getD s.head

/-- `cbuf->tail` as loaded by the consumer. -/
def cTail (s : St α) : Nat := s.cbuf.getLast?.getD s.tail

/-- A store of the producer reaches the memory. -/
def apply (s : St α) : Store α → St α
  | .slot i x => { s with slots := s.slots.set i x }
  | .head h => { s with head := h }

/-- `is_circular_buf_full` in the producer, circular_buffer.c:104. -/
def pFull (n : Nat) (s : St α) : Prop := (pHead s + 1) % n = s.tail

/-- `is_circular_buf_full` in the consumer, circular_buffer.c:104. -/
def cFull (n : Nat) (s : St α) : Prop := (s.head + 1) % n = cTail s

instance (n : Nat) (s : St α) : Decidable (pFull n s) := by unfold pFull; infer_instance

instance (n : Nat) (s : St α) : Decidable (cFull n s) := by unfold cFull; infer_instance

/-- The number of elements that fit, from what the producer loads. -/
def pFree (n : Nat) (s : St α) : Nat := n - 1 - (pHead s + n - s.tail) % n

/-- One step of a thread or of a store buffer, for a buffer of size `n`. -/
inductive Step (n : Nat) : St α → Lbl α → St α → Prop
  -- producer: putc, circular_buffer.c:138-151
  | callPutc (s x) : s.p = .idle → Step n s .tau { s with p := .check x }
  | checkFull (s x) : s.p = .check x → pFull n s → Step n s (.putcRet x false) { s with p := .idle }
  | checkOk (s x) : s.p = .check x → ¬ pFull n s → Step n s .tau { s with p := .write x }
  | write (s x) : s.p = .write x → Step n s .tau { s with pbuf := s.pbuf ++ [.slot (pHead s) x], p := .adv x }
  | advFull (s x) : s.p = .adv x → pFull n s → Step n s (.putcRet x true) { s with p := .idle }
  | advOk (s x) : s.p = .adv x → ¬ pFull n s → Step n s .tau { s with p := .setHead x }
  | setHead (s x) : s.p = .setHead x →
      Step n s (.putcRet x true) { s with pbuf := s.pbuf ++ [.head ((pHead s + 1) % n)], p := .idle }
  -- producer: puts, circular_buffer.c:153-183
  | callPuts (s data) : s.p = .idle → Step n s (.putsCall data) { s with p := .snap data }
  | snap (s data) : s.p = .snap data → Step n s (.snap data.length (pFree n s)) { s with p := .loop s.tail [] data }
  | loopEnd (s t done rest) : s.p = .loop t done rest → (pFull n s ∨ rest = []) → Step n s (.putsRet done) { s with p := .idle }
  | loopGo (s t done rest) : s.p = .loop t done rest → ¬ pFull n s → rest ≠ [] →
      Step n s .tau { s with p := .copy t done rest (putChunk n (pHead s) t rest.length) 0 }
  | copy (s t done rest c i x) : s.p = .copy t done rest c i → i < c → rest[i]? = some x →
      Step n s .tau { s with pbuf := s.pbuf ++ [.slot (pHead s + i) x], p := .copy t done rest c (i + 1) }
  | copyEnd (s t done rest c i) : s.p = .copy t done rest c i → c ≤ i → Step n s .tau { s with p := .badv t done rest c }
  | badvSkip (s t done rest c) : s.p = .badv t done rest c → (pFull n s ∨ c = 0) →
      Step n s .tau { s with p := .loop t (done ++ rest.take c) (rest.drop c) }
  | badvOk (s t done rest c) : s.p = .badv t done rest c → ¬ pFull n s → c ≠ 0 → Step n s .tau { s with p := .bset t done rest c }
  | bset (s t done rest c) : s.p = .bset t done rest c →
      Step n s .tau { s with pbuf := s.pbuf ++ [.head ((pHead s + c) % n)], p := .loop t (done ++ rest.take c) (rest.drop c) }
  -- the oldest store of the producer reaches the memory
  | flush (s st b) : s.pbuf = st :: b → Step n s .tau (apply { s with pbuf := b } st)
  -- consumer: getc, circular_buffer.c:186-200
  | callGetc (s) : s.c = .idle → Step n s .tau { s with c := .echeck }
  | echeckEmpty (s) : s.c = .echeck → s.head = cTail s → Step n s (.getcRet none) { s with c := .idle }
  | echeckOk (s) : s.c = .echeck → s.head ≠ cTail s → Step n s .tau { s with c := .rdslot }
  | rdslot (s v) : s.c = .rdslot → s.slots[cTail s]? = some v → Step n s .tau { s with c := .setTail v }
  | setTail (s v) : s.c = .setTail v →
      Step n s (.getcRet (some v)) { s with cbuf := s.cbuf ++ [(cTail s + 1) % n], c := .idle }
  -- consumer: gets, circular_buffer.c:31-63
  | callGets (s len) : s.c = .idle → Step n s (.getsCall len) { s with c := .gsz1 len }
  | gsz1 (s len) : s.c = .gsz1 len → Step n s .tau { s with c := .gsz2 len s.head }
  | gsz2 (s len h1) : s.c = .gsz2 len h1 →
      Step n s .tau { s with c := .ghead (min len (Conc.sizeOf n h1 (cTail s) (decide (cFull n s)))) }
  | ghead (s len) : s.c = .ghead len → Step n s .tau { s with c := .gloop s.head len [] }
  | gloopEnd (s h acc) : s.c = .gloop h 0 acc → Step n s (.getsRet acc) { s with c := .idle }
  | gloopGo (s h len acc) : s.c = .gloop h len acc → 0 < len →
      Step n s .tau { s with c := .gcopy h len acc (getChunk n h (cTail s) len) [] }
  | gcopy (s h len acc c cp v) : s.c = .gcopy h len acc c cp → cp.length < c → s.slots[cTail s + cp.length]? = some v →
      Step n s .tau { s with c := .gcopy h len acc c (cp ++ [v]) }
  | gcopyEnd (s h len acc c cp) : s.c = .gcopy h len acc c cp → c ≤ cp.length → Step n s .tau { s with c := .gset h len acc cp }
  | gset (s h len acc cp) : s.c = .gset h len acc cp →
      Step n s .tau { s with cbuf := s.cbuf ++ [(cTail s + cp.length) % n], c := .gloop h (len - cp.length) (acc ++ cp) }
  -- the oldest store of the consumer reaches the memory
  | flushTail (s t b) : s.cbuf = t :: b → Step n s .tau { s with tail := t, cbuf := b }

/-- Executions from `circular_buf_init`, with empty store buffers. -/
inductive Exec (n : Nat) (buffer : List α) : List (Lbl α) → St α → Prop
  | init : Exec n buffer [] ⟨buffer, 0, 0, [], [], .idle, .idle⟩
  | step {tr s l s'} : Exec n buffer tr s → Step n s l s' → Exec n buffer (tr ++ [l]) s'

/-! ## Ghost state -/

/-- The store of element number `k`, or the one that makes `k` the number of elements put. -/
inductive Tag where
  | slot (k : Nat)
  | head (k : Nat)

def Tag.head? : Tag → Option Nat
  | .slot _ => none
  | .head k => some k

def Tag.store (n : Nat) (d : α) (l : List α) : Tag → Store α
  | .slot k => .slot (k % n) (l.getD k d)
  | .head k => .head (k % n)

/-- The memory knows `H` elements to be put and holds `S`; after the stores it will be `P` and `Q`. -/
def Order : Nat → Nat → List Tag → Nat → Nat → Prop
  | H, S, [], P, Q => H = P ∧ S = Q
  | H, S, .slot k :: ts, P, Q => k = S ∧ Order H (S + 1) ts P Q
  | H, S, .head k :: ts, P, Q => H ≤ k ∧ k ≤ S ∧ Order k S ts P Q

/-- The memory knows `T` elements to be taken; after the stores it will be `C`. -/
def Chain : Nat → List Nat → Nat → Prop
  | T, [], C => T = C
  | T, t :: ts, C => T ≤ t ∧ Chain t ts C

/-- Elements whose stores have been issued but not the one of `head`. -/
def pend : PPc α → List α
  | .adv x | .setHead x => [x]
  | .copy _ _ rest _ i => rest.take i
  | .badv _ _ rest c | .bset _ _ rest c => rest.take c
  | _ => []

/-- `m` more elements fit behind `P`, judging from the old tail `t`. -/
def Room (n t P T m : Nat) : Prop := ∃ T0 ≤ T, t = T0 % n ∧ P + m < T0 + n

def Chunk (n P c m : Nat) : Prop := 0 < c ∧ c ≤ m ∧ P % n + c ≤ n

def PInv (n P T : Nat) : PPc α → Prop
  | .idle | .check _ | .snap _ => True
  | .write _ | .adv _ | .setHead _ => P + 1 < T + n
  | .loop t _ rest => Room n t P T rest.length
  | .copy t _ rest c i => Room n t P T rest.length ∧ Chunk n P c rest.length ∧ i ≤ c
  | .badv t _ rest c | .bset t _ rest c => Room n t P T rest.length ∧ Chunk n P c rest.length

def CInv (n : Nat) (as : List α) (C H : Nat) : CPc α → Prop
  | .idle | .echeck => True
  | .rdslot => C < H
  | .setTail v => C < H ∧ as[C]? = some v
  | .gsz1 len => len ≤ n - 1
  | .gsz2 len h1 => len ≤ n - 1 ∧ ∃ k, C ≤ k ∧ k ≤ H ∧ h1 = k % n
  | .ghead len => C + len ≤ H
  | .gloop h len _ => C + len ≤ H ∧ h < n
  | .gcopy h len _ c cp => C + len ≤ H ∧ h < n ∧ 0 < c ∧ c ≤ len ∧ C % n + c ≤ n ∧ cp.length ≤ c ∧ cp <+: as.drop C
  | .gset h len _ cp => C + len ≤ H ∧ h < n ∧ (0 < cp.length ∧ cp.length ≤ len) ∧ cp <+: as.drop C

structure Inv (n : Nat) (d : α) (as gs : List α) (s : St α) (H S T : Nat) (tags : List Tag) (ts : List Nat) : Prop where
  len : s.slots.length = n
  ch : gs.length ≤ H
  hs : H ≤ S
  head : s.head = H % n
  tail : s.tail = T % n
  pbuf : s.pbuf = tags.map (Tag.store n d (as ++ pend s.p))
  order : Order H S tags as.length (as ++ pend s.p).length
  cbuf : s.cbuf = ts.map (· % n)
  chain : Chain T ts gs.length
  room : (as ++ pend s.p).length < T + n
  mem : ∀ k, gs.length ≤ k → k < S → s.slots[k % n]? = (as ++ pend s.p)[k]?
  pre : gs <+: as
  p : PInv n as.length T s.p
  c : CInv n as gs.length H s.c

/-! ## Lemmas about the ghost state -/

theorem Order.le {H S P Q : Nat} {tags : List Tag} (h : Order H S tags P Q) : H ≤ P ∧ S ≤ Q := by
  induction tags generalizing H S with
  | nil => exact ⟨Nat.le_of_eq h.1, Nat.le_of_eq h.2⟩
  | cons t ts ih =>
    cases t with
    | slot k => have := ih h.2; omega
    | head k => have := ih h.2.2; have := h.1; omega

theorem Order.slot_lt {H S P Q k : Nat} {tags : List Tag} (h : Order H S tags P Q) (hk : Tag.slot k ∈ tags) : k < Q := by
  induction tags generalizing H S with
  | nil => cases hk
  | cons t ts ih =>
    cases t with
    | slot j =>
      have hj := h.1
      have := h.2.le
      rcases List.mem_cons.1 hk with e | e
      · cases e; omega
      · exact ih h.2 e
    | head j =>
      rcases List.mem_cons.1 hk with e | e
      · cases e
      · exact ih h.2.2 e

theorem Order.slot {H S P Q : Nat} {tags : List Tag} (h : Order H S tags P Q) : Order H S (tags ++ [.slot Q]) P (Q + 1) := by
  induction tags generalizing H S with
  | nil => obtain ⟨rfl, rfl⟩ := h; exact ⟨rfl, rfl, rfl⟩
  | cons t ts ih =>
    cases t with
    | slot k => exact ⟨h.1, ih h.2⟩
    | head k => exact ⟨h.1, h.2.1, ih h.2.2⟩

theorem Order.pub {H S P Q k : Nat} {tags : List Tag} (h : Order H S tags P Q) (h1 : P ≤ k) (h2 : k ≤ Q) :
    Order H S (tags ++ [.head k]) k Q := by
  induction tags generalizing H S with
  | nil => obtain ⟨rfl, rfl⟩ := h; exact ⟨h1, h2, rfl, rfl⟩
  | cons t ts ih =>
    cases t with
    | slot k => exact ⟨h.1, ih h.2⟩
    | head k => exact ⟨h.1, h.2.1, ih h.2.2⟩

theorem Order.last {H S P Q n : Nat} {tags : List Tag} (h : Order H S tags P Q) (d : α) (l : List α) :
    (((tags.map (Tag.store n d l)).filterMap Store.head?).getLast?).getD (H % n) = P % n := by
  induction tags generalizing H S with
  | nil => rw [h.1]; rfl
  | cons t ts ih =>
    cases t with
    | slot k => rw [List.map_cons, List.filterMap_cons_none rfl]; exact ih h.2
    | head k =>
      rw [List.map_cons, List.filterMap_cons_some (f := Store.head?) (b := k % n) rfl, List.getLast?_cons, Option.getD_some]
      exact ih h.2.2

theorem Chain.le {T C : Nat} {ts : List Nat} (h : Chain T ts C) : T ≤ C := by
  induction ts generalizing T with
  | nil => exact Nat.le_of_eq h
  | cons t ts ih => have := ih h.2; have := h.1; omega

theorem Chain.push {T C D : Nat} {ts : List Nat} (h : Chain T ts C) (hd : C ≤ D) : Chain T (ts ++ [D]) D := by
  induction ts generalizing T with
  | nil => rw [Chain] at h; subst h; exact ⟨hd, rfl⟩
  | cons t ts ih => exact ⟨h.1, ih h.2⟩

theorem Chain.last {T C n : Nat} {ts : List Nat} (h : Chain T ts C) : ((ts.map (· % n)).getLast?).getD (T % n) = C % n := by
  induction ts generalizing T with
  | nil => rw [Chain] at h; rw [h]; rfl
  | cons t ts ih => rw [List.map_cons, List.getLast?_cons, Option.getD_some]; exact ih h.2

theorem store_append (n : Nat) (d : α) (l l' : List α) {tags : List Tag} (h : ∀ k, Tag.slot k ∈ tags → k < l.length) :
    tags.map (Tag.store n d l) = tags.map (Tag.store n d (l ++ l')) := by
  apply List.map_congr_left
  intro t ht
  cases t with
  | slot k => simp only [Tag.store, List.getD_eq_getElem?_getD, List.getElem?_append_left (h k ht)]
  | head k => rfl

section
variable {n : Nat} {d : α} {as gs : List α} {s : St α} {H S T : Nat} {tags : List Tag} {ts : List Nat}

theorem Inv.bounds (h : Inv n d as gs s H S T tags ts) :
    T ≤ gs.length ∧ gs.length ≤ H ∧ H ≤ as.length ∧ H ≤ S ∧ S ≤ as.length + (pend s.p).length ∧
      as.length + (pend s.p).length < T + n ∧ 0 < n := by
  have h1 := h.chain.le
  have h2 := h.order.le
  have h3 := h.room
  have h4 := h.ch
  have h5 := h.hs
  rw [List.length_append] at h2 h3
  omega

theorem Inv.pHead_eq (h : Inv n d as gs s H S T tags ts) : pHead s = as.length % n := by
  rw [pHead, h.pbuf, h.head]
  exact h.order.last d _

theorem Inv.cTail_eq (h : Inv n d as gs s H S T tags ts) : cTail s = gs.length % n := by
  rw [cTail, h.cbuf, h.tail]
  exact h.chain.last

theorem Inv.pFull_iff (h : Inv n d as gs s H S T tags ts) : pFull n s ↔ as.length + 1 = T + n := by
  have b := h.bounds
  rw [pFull, h.pHead_eq, h.tail, Nat.mod_add_mod]
  constructor
  · intro e
    by_contra hc
    have := Tso.mod_inj (n := n) (a := T) (b := as.length + 1) (by omega) (by omega) e.symm
    omega
  · intro e
    rw [e, Nat.add_mod_right]

theorem Inv.cFull_iff (h : Inv n d as gs s H S T tags ts) : cFull n s ↔ H + 1 = gs.length + n := by
  have b := h.bounds
  rw [cFull, h.cTail_eq, h.head, Nat.mod_add_mod]
  constructor
  · intro e
    by_contra hc
    have := Tso.mod_inj (n := n) (a := gs.length) (b := H + 1) (by omega) (by omega) e.symm
    omega
  · intro e
    rw [e, Nat.add_mod_right]

theorem Inv.empty_iff (h : Inv n d as gs s H S T tags ts) : s.head = cTail s ↔ H = gs.length := by
  have b := h.bounds
  rw [h.cTail_eq, h.head]
  constructor
  · intro e
    exact (Tso.mod_inj b.2.1 (by omega) e.symm).symm
  · intro e
    rw [e]

/-- The sum of positions, when it wraps at most once. -/
theorem mod_add_cases {n C e : Nat} (he : e < n) :
    (C % n + e < n ∧ (C + e) % n = C % n + e) ∨ (n ≤ C % n + e ∧ (C + e) % n + n = C % n + e) := by
  have hCl := Nat.mod_lt C (show 0 < n by omega)
  rw [Nat.add_mod C e n, Nat.mod_eq_of_lt he]
  by_cases hc : C % n + e < n
  · exact .inl ⟨hc, Nat.mod_eq_of_lt hc⟩
  · refine .inr ⟨by omega, ?_⟩
    rw [Nat.mod_eq_sub_mod (by omega), Nat.mod_eq_of_lt (a := C % n + e - n) (by omega)]
    omega

/-- The number of elements between two positions less than the size of the buffer apart. -/
theorem mod_sub {n C k : Nat} (h1 : C ≤ k) (h2 : k < C + n) : (k % n + n - C % n) % n = k - C := by
  obtain ⟨e, rfl⟩ := Nat.exists_eq_add_of_le h1
  have he : e % n = e := Nat.mod_eq_of_lt (by omega)
  rw [show C + e - C = e by omega]
  rcases mod_add_cases (n := n) (C := C) (e := e) (by omega) with ⟨h3, h4⟩ | ⟨h3, h4⟩
  · rw [h4, show C % n + e + n - C % n = e + n by omega, Nat.add_mod_right, he]
  · rw [show (C + e) % n + n - C % n = e by omega, he]

theorem Inv.pFree_eq (h : Inv n d as gs s H S T tags ts) : pFree n s = n - 1 - (as.length - T) := by
  have b := h.bounds
  rw [pFree, h.pHead_eq, h.tail, mod_sub (by omega) (by omega)]

theorem CInv.push {pc : CPc α} {C H : Nat} (h : CInv n as C H pc) (hC : H ≤ as.length) (hCH : C ≤ H) (xs : List α) : CInv n (as ++ xs) C H pc := by
  have hd : (as ++ xs).drop C = as.drop C ++ xs := List.drop_append_of_le_length (by omega)
  cases pc with
  | setTail v => exact ⟨h.1, by rw [List.getElem?_append_left (by have := h.1; omega)]; exact h.2⟩
  | gcopy hh len acc c cp =>
    obtain ⟨h1, h2, h3, h4, h5, h6, h7⟩ := h
    exact ⟨h1, h2, h3, h4, h5, h6, by rw [hd]; exact h7.trans (List.prefix_append _ _)⟩
  | gset hh len acc cp =>
    obtain ⟨h1, h2, h3, h4⟩ := h
    exact ⟨h1, h2, h3, by rw [hd]; exact h4.trans (List.prefix_append _ _)⟩
  | _ => exact h

theorem CInv.known {pc : CPc α} {C H H' : Nat} (h : CInv n as C H pc) (hH : H ≤ H') : CInv n as C H' pc := by
  cases pc with
  | idle => trivial
  | echeck => trivial
  | rdslot => exact Nat.lt_of_lt_of_le h hH
  | setTail v => exact ⟨Nat.lt_of_lt_of_le h.1 hH, h.2⟩
  | gsz1 len => exact h
  | gsz2 len h1 =>
    obtain ⟨a, k, b, c, e⟩ := h
    exact ⟨a, k, b, Nat.le_trans c hH, e⟩
  | ghead len => exact Nat.le_trans h hH
  | gloop hh len acc => exact ⟨Nat.le_trans h.1 hH, h.2⟩
  | gcopy hh len acc c cp => exact ⟨Nat.le_trans h.1 hH, h.2⟩
  | gset hh len acc cp => exact ⟨Nat.le_trans h.1 hH, h.2⟩

theorem PInv.later {pc : PPc α} {P T T' : Nat} (h : PInv n P T pc) (hT : T ≤ T') : PInv n P T' pc := by
  have hr : ∀ {t m}, Room n t P T m → Room n t P T' m := fun ⟨T0, a, b⟩ => ⟨T0, Nat.le_trans a hT, b⟩
  cases pc with
  | idle => trivial
  | check x => trivial
  | snap x => trivial
  | write x => simp only [PInv] at h ⊢; omega
  | adv x => simp only [PInv] at h ⊢; omega
  | setHead x => simp only [PInv] at h ⊢; omega
  | loop t dn rest => exact hr h
  | copy t dn rest c i => exact ⟨hr h.1, h.2⟩
  | badv t dn rest c => exact ⟨hr h.1, h.2⟩
  | bset t dn rest c => exact ⟨hr h.1, h.2⟩

/-! ## The kinds of steps -/

/-- The producer goes on without a store. -/
theorem Inv.pquiet (h : Inv n d as gs s H S T tags ts) {p' : PPc α} (hp : pend p' = pend s.p) (hi : PInv n as.length T p') :
    Inv n d as gs { s with p := p' } H S T tags ts :=
  ⟨h.len, h.ch, h.hs, h.head, h.tail, by rw [hp]; exact h.pbuf, by rw [hp]; exact h.order, h.cbuf, h.chain, by rw [hp]; exact h.room,
    by rw [hp]; exact h.mem, h.pre, hi, h.c⟩

/-- The consumer goes on without a store. -/
theorem Inv.cquiet (h : Inv n d as gs s H S T tags ts) {c' : CPc α} (hi : CInv n as gs.length H c') :
    Inv n d as gs { s with c := c' } H S T tags ts :=
  ⟨h.len, h.ch, h.hs, h.head, h.tail, h.pbuf, h.order, h.cbuf, h.chain, h.room, h.mem, h.pre, h.p, hi⟩

/-- The producer stores an element. -/
theorem Inv.pslot (h : Inv n d as gs s H S T tags ts) {p' : PPc α} {x : α} {i : Nat} (hp : pend p' = pend s.p ++ [x])
    (hi : i = (as.length + (pend s.p).length) % n) (hr : as.length + (pend s.p).length + 1 < T + n) (hpi : PInv n as.length T p') :
    Inv n d as gs { s with pbuf := s.pbuf ++ [.slot i x], p := p' } H S T (tags ++ [.slot (as.length + (pend s.p).length)]) ts := by
  have hl : (as ++ pend s.p).length = as.length + (pend s.p).length := List.length_append
  have b := h.bounds
  refine ⟨h.len, h.ch, h.hs, h.head, h.tail, ?_, ?_, h.cbuf, h.chain, ?_, ?_, h.pre, hpi, h.c⟩
  · simp only [hp]
    rw [List.map_append, h.pbuf, ← List.append_assoc, ← store_append n d (as ++ pend s.p) [x] (fun k hk => h.order.slot_lt hk)]
    congr 1
    rw [List.map_singleton, Tag.store, List.getD_eq_getElem?_getD, List.getElem?_append_right (by omega), hl, Nat.sub_self, hi]
    rfl
  · simp only [hp]
    have := h.order.slot
    rw [hl] at this
    rw [← List.append_assoc, List.length_append, hl]
    exact this
  · simp only [hp, List.length_append, List.length_singleton]
    omega
  · intro k h1 h2
    simp only [hp]
    rw [← List.append_assoc, List.getElem?_append_left (by omega)]
    exact h.mem k h1 h2

/-- The producer stores to `head`. -/
theorem Inv.phead (h : Inv n d as gs s H S T tags ts) {p' : PPc α} {i : Nat} (hp : pend p' = [])
    (hi : i = (as.length + (pend s.p).length) % n) (hpi : PInv n (as.length + (pend s.p).length) T p') :
    Inv n d (as ++ pend s.p) gs { s with pbuf := s.pbuf ++ [.head i], p := p' } H S T (tags ++ [.head (as.length + (pend s.p).length)]) ts := by
  have hl : (as ++ pend s.p).length = as.length + (pend s.p).length := List.length_append
  have b := h.bounds
  refine ⟨h.len, h.ch, h.hs, h.head, h.tail, ?_, ?_, h.cbuf, h.chain, ?_, ?_, h.pre.trans (List.prefix_append _ _), ?_,
    h.c.push b.2.2.1 b.2.1 _⟩
  · simp only [hp, List.append_nil]
    rw [List.map_append, h.pbuf, hi]
    rfl
  · simp only [hp, List.append_nil]
    have := h.order.pub (k := as.length + (pend s.p).length) (by omega) (by omega)
    rw [hl] at this ⊢
    exact this
  · simp only [hp, List.append_nil]; exact h.room
  · simp only [hp, List.append_nil]; exact h.mem
  · rw [hl]; exact hpi

/-- The consumer stores to `tail`. -/
theorem Inv.ctail (h : Inv n d as gs s H S T tags ts) {c' : CPc α} {cp : List α} {i : Nat} (hcp : cp <+: as.drop gs.length)
    (hi : i = (gs.length + cp.length) % n) (hH : gs.length + cp.length ≤ H) (hci : CInv n as (gs.length + cp.length) H c') :
    Inv n d as (gs ++ cp) { s with cbuf := s.cbuf ++ [i], c := c' } H S T tags (ts ++ [gs.length + cp.length]) := by
  refine ⟨h.len, by rw [List.length_append]; exact hH, h.hs, h.head, h.tail, h.pbuf, h.order, ?_, ?_, h.room, ?_, ?_, h.p, ?_⟩
  · rw [List.map_append, h.cbuf, hi]; rfl
  · rw [List.length_append]; exact h.chain.push (Nat.le_add_right _ _)
  · intro k h1 h2
    rw [List.length_append] at h1
    exact h.mem k (by omega) h2
  · obtain ⟨r, hr⟩ := h.pre
    obtain ⟨r', hr'⟩ := hcp
    rw [← hr, List.drop_left] at hr'
    exact ⟨r', by rw [← hr, ← hr', List.append_assoc]⟩
  · rw [List.length_append]; exact hci

/-- The oldest store of the producer reaches the memory. -/
theorem Inv.flush (h : Inv n d as gs s H S T tags ts) {st : Store α} {b : List (Store α)} (hb : s.pbuf = st :: b) :
    ∃ H' S' tags', Inv n d as gs (apply { s with pbuf := b } st) H' S' T tags' ts := by
  have bd := h.bounds
  have hpb := h.pbuf
  rw [hb] at hpb
  obtain ⟨t, tg, e1, e2, e3⟩ := List.map_eq_cons_iff.1 hpb.symm
  subst e1
  have ho := h.order
  cases t with
  | slot k =>
    obtain ⟨rfl, ho⟩ := ho
    rw [Tag.store] at e2
    subst e2
    have hle := ho.le
    rw [List.length_append] at hle
    refine ⟨H, k + 1, tg, ?_, h.ch, by omega, h.head, h.tail, e3.symm, ho, h.cbuf, h.chain, h.room, ?_, h.pre, h.p, h.c⟩
    · simp [apply, h.len]
    · intro j h1 h2
      simp only [apply]
      by_cases hjk : j = k
      · subst hjk
        rw [List.getElem?_set_self (by rw [h.len]; exact Nat.mod_lt _ bd.2.2.2.2.2.2), List.getD_eq_getElem?_getD,
          List.getElem?_eq_getElem (by rw [List.length_append]; omega)]
        rfl
      · rw [List.getElem?_set_ne]
        · exact h.mem j h1 (by omega)
        · intro hc
          exact hjk (Tso.mod_inj (n := n) (by omega) (by omega) hc.symm)
  | head k =>
    obtain ⟨h1, h2, ho⟩ := ho
    rw [Tag.store] at e2
    subst e2
    exact ⟨k, S, tg, h.len, Nat.le_trans h.ch h1, h2, rfl, h.tail, e3.symm, ho, h.cbuf, h.chain, h.room, h.mem, h.pre, h.p, h.c.known h1⟩

/-- The oldest store of the consumer reaches the memory. -/
theorem Inv.flushTail (h : Inv n d as gs s H S T tags ts) {t : Nat} {b : List Nat} (hb : s.cbuf = t :: b) :
    ∃ T' ts', Inv n d as gs { s with tail := t, cbuf := b } H S T' tags ts' := by
  have hcb := h.cbuf
  rw [hb] at hcb
  obtain ⟨t', tb, e1, e2, e3⟩ := List.map_eq_cons_iff.1 hcb.symm
  subst e1
  obtain ⟨h1, h2⟩ := h.chain
  exact ⟨t', tb, h.len, h.ch, h.hs, h.head, e2.symm, h.pbuf, h.order, e3.symm, h2, Nat.lt_of_lt_of_le h.room (Nat.add_le_add_right h1 n), h.mem,
    h.pre, h.p.later h1, h.c⟩

/-- What the consumer loads from the memory is the element that comes next. -/
theorem Inv.load (h : Inv n d as gs s H S T tags ts) {j c : Nat} {v : α} (h1 : gs.length + j < H) (hc : gs.length % n + c ≤ n) (hj : j < c)
    (hv : s.slots[cTail s + j]? = some v) : as[gs.length + j]? = some v := by
  have b := h.bounds
  have := h.mem (gs.length + j) (by omega) (by omega)
  rw [List.getElem?_append_left (by omega)] at this
  rw [← this, ← hv, h.cTail_eq, Nat.add_mod, Nat.mod_eq_of_lt (a := j) (by omega), Nat.mod_eq_of_lt (by omega)]

end

theorem chunk_put {n P T T0 t m : Nat} (hr : T0 ≤ T ∧ t = T0 % n ∧ P + m < T0 + n) (hT : T ≤ P) (hm : 0 < m) :
    Chunk n P (putChunk n (P % n) t m) m := by
  obtain ⟨h1, rfl, h3⟩ := hr
  obtain ⟨e, rfl⟩ := Nat.exists_eq_add_of_le (show T0 ≤ P by omega)
  have hn : 0 < n := by omega
  have hl := Nat.mod_lt T0 hn
  have hl' := Nat.mod_lt (T0 + e) hn
  unfold Chunk putChunk
  rcases mod_add_cases (n := n) (C := T0) (e := e) (by omega) with ⟨h5, h4⟩ | ⟨h5, h4⟩ <;> simp only [beq_iff_eq] <;> split_ifs <;> omega

theorem chunk_get {n C H h len : Nat} (hH : C + len ≤ H) (hh : h < n) (hl : 0 < len) :
    0 < getChunk n h (C % n) len ∧ getChunk n h (C % n) len ≤ len ∧ C % n + getChunk n h (C % n) len ≤ n := by
  have := Nat.mod_lt C (show 0 < n by omega)
  unfold getChunk
  simp only
  split_ifs <;> omega

theorem size_le {n C H k h1 : Nat} (f : Bool) (hk : C ≤ k ∧ k ≤ H ∧ h1 = k % n) (hH : H < C + n) (hf : f = true → H + 1 = C + n) (len : Nat)
    (hl : len ≤ n - 1) : C + min len (Conc.sizeOf n h1 (C % n) f) ≤ H := by
  obtain ⟨h2, h3, rfl⟩ := hk
  obtain ⟨e, rfl⟩ := Nat.exists_eq_add_of_le h2
  have hn : 0 < n := by omega
  have hc := Nat.mod_lt C hn
  unfold Conc.sizeOf
  cases f with
  | true => have := hf rfl; simp only [Bool.not_true, Bool.false_eq_true, if_false]; omega
  | false =>
    rcases mod_add_cases (n := n) (C := C) (e := e) (by omega) with ⟨h5, h4⟩ | ⟨h5, h4⟩ <;>
      simp only [Bool.not_false, if_true] <;> split_ifs <;> omega

theorem prefix_snoc {l m : List α} {v : α} (h : l <+: m) (hv : m[l.length]? = some v) : l ++ [v] <+: m := by
  obtain ⟨r, rfl⟩ := h
  rw [List.getElem?_append_right (Nat.le_refl _), Nat.sub_self] at hv
  cases r with
  | nil => cases hv
  | cons y r =>
    simp only [List.getElem?_cons_zero, Option.some.injEq] at hv
    exact ⟨r, by rw [hv]; simp⟩

open Conc (accepted got Polite putting pub cacc accepted_append got_append)

/-- The invariant for the elements put and taken so far. -/
def Good (n : Nat) (d : α) (tr : List (Lbl α)) (s : St α) : Prop :=
  ∃ H S T tags ts, Inv n d (accepted tr ++ pub s.p) (got tr ++ cacc s.c) s H S T tags ts

theorem Good.step {n : Nat} {d : α} {tr : List (Lbl α)} {s s' : St α} {l : Lbl α} (hg : Good n d tr s) (hl : Polite n l) (hs : Step n s l s') :
    Good n d (tr ++ [l]) s' := by
  obtain ⟨H, S, T, tags, ts, hi⟩ := hg
  generalize has : accepted tr ++ pub s.p = as at hi
  generalize hgs : got tr ++ cacc s.c = gs at hi
  have b := hi.bounds
  have hP := hi.p
  have hC := hi.c
  cases hs with
  | callPutc x h =>
    refine ⟨H, S, T, tags, ts, ?_⟩
    have := hi.pquiet (p' := .check x) (by rw [h]; rfl) trivial
    subst has hgs
    simpa [accepted_append, got_append, accepted, got, pub, h] using this
  | checkFull x h hf =>
    refine ⟨H, S, T, tags, ts, ?_⟩
    have := hi.pquiet (p' := .idle) (by rw [h]; rfl) trivial
    subst has hgs
    simpa [accepted_append, got_append, accepted, got, pub, h] using this
  | checkOk x h hf =>
    refine ⟨H, S, T, tags, ts, ?_⟩
    rw [hi.pFull_iff] at hf
    have := hi.pquiet (p' := .write x) (by rw [h]; rfl) (by simp only [PInv]; omega)
    subst has hgs
    simpa [accepted_append, got_append, accepted, got, pub, h] using this
  | write x h =>
    rw [h] at hP
    have hp0 : pend s.p = [] := by rw [h]; rfl
    have := hi.pslot (p' := .adv x) (x := x) (i := pHead s) (by rw [hp0]; rfl) (by rw [hi.pHead_eq, hp0]; rfl)
      (by rw [hp0]; exact hP) hP
    refine ⟨H, S, T, tags ++ [.slot (as.length + (pend s.p).length)], ts, ?_⟩
    subst has hgs
    simpa [accepted_append, got_append, accepted, got, pub, h] using this
  | advFull x h hf =>
    rw [h] at hP
    rw [hi.pFull_iff] at hf
    simp only [PInv] at hP
    omega
  | advOk x h hf =>
    refine ⟨H, S, T, tags, ts, ?_⟩
    rw [h] at hP
    have := hi.pquiet (p' := .setHead x) (by rw [h]; rfl) hP
    subst has hgs
    simpa [accepted_append, got_append, accepted, got, pub, h] using this
  | setHead x h =>
    have hp0 : pend s.p = [x] := by rw [h]; rfl
    have := hi.phead (p' := .idle) (i := (pHead s + 1) % n) rfl (by rw [hi.pHead_eq, hp0, Nat.mod_add_mod]; rfl) trivial
    refine ⟨H, S, T, tags ++ [.head (as.length + (pend s.p).length)], ts, ?_⟩
    subst has hgs
    simpa [accepted_append, got_append, accepted, got, pub, pend, h] using this
  | callPuts data h =>
    refine ⟨H, S, T, tags, ts, ?_⟩
    have := hi.pquiet (p' := .snap data) (by rw [h]; rfl) trivial
    subst has hgs
    simpa [accepted_append, got_append, accepted, got, pub, h] using this
  | snap data h =>
    refine ⟨H, S, T, tags, ts, ?_⟩
    simp only [Polite] at hl
    rw [hi.pFree_eq] at hl
    have := hi.pquiet (p' := .loop s.tail [] data) (by rw [h]; rfl) ⟨T, Nat.le_refl _, hi.tail, by omega⟩
    subst has hgs
    simpa [accepted_append, got_append, accepted, got, pub, h] using this
  | loopEnd t done rest h hend =>
    refine ⟨H, S, T, tags, ts, ?_⟩
    have := hi.pquiet (p' := .idle) (by rw [h]; rfl) trivial
    subst has hgs
    simpa [accepted_append, got_append, accepted, got, pub, h] using this
  | loopGo t done rest h hnf hne =>
    refine ⟨H, S, T, tags, ts, ?_⟩
    rw [h] at hP
    obtain ⟨T0, hr⟩ := hP
    have hch := chunk_put hr (by omega) (List.length_pos_iff.2 hne)
    rw [← hi.pHead_eq] at hch
    have := hi.pquiet (p' := .copy t done rest (putChunk n (pHead s) t rest.length) 0) (by rw [h]; simp [pend])
      ⟨⟨T0, hr⟩, hch, Nat.zero_le _⟩
    subst has hgs
    simpa [accepted_append, got_append, accepted, got, pub, h] using this
  | copy t done rest c i x h hlt hx =>
    rw [h] at hP
    obtain ⟨⟨T0, h1, h2, h3⟩, ⟨h4, h5, h6⟩, h7⟩ := hP
    have hp0 : pend s.p = rest.take i := by rw [h]; rfl
    have hpl : (pend s.p).length = i := by rw [hp0, List.length_take]; omega
    have hp1 : rest.take (i + 1) = rest.take i ++ [x] := by rw [List.take_add_one, hx]; rfl
    have := hi.pslot (p' := .copy t done rest c (i + 1)) (x := x) (i := pHead s + i) (by rw [hp0]; exact hp1)
      (by
        rw [hi.pHead_eq, hpl, Nat.add_mod, Nat.mod_eq_of_lt (a := i) (by omega), Nat.mod_eq_of_lt (a := as.length % n + i) (by omega)])
      (by omega) ⟨⟨T0, h1, h2, h3⟩, ⟨h4, h5, h6⟩, by omega⟩
    refine ⟨H, S, T, tags ++ [.slot (as.length + (pend s.p).length)], ts, ?_⟩
    subst has hgs
    simpa [accepted_append, got_append, accepted, got, pub, h] using this
  | copyEnd t done rest c i h hge =>
    refine ⟨H, S, T, tags, ts, ?_⟩
    rw [h] at hP
    have e : i = c := by have := hP.2.2; omega
    subst e
    have := hi.pquiet (p' := .badv t done rest i) (by rw [h]; rfl) ⟨hP.1, hP.2.1⟩
    subst has hgs
    simpa [accepted_append, got_append, accepted, got, pub, h] using this
  | badvSkip t done rest c h hsk =>
    rw [h] at hP
    obtain ⟨⟨T0, h1, h2, h3⟩, ⟨h4, h5, h6⟩⟩ := hP
    rw [hi.pFull_iff] at hsk
    omega
  | badvOk t done rest c h hnf hne =>
    refine ⟨H, S, T, tags, ts, ?_⟩
    rw [h] at hP
    have := hi.pquiet (p' := .bset t done rest c) (by rw [h]; rfl) hP
    subst has hgs
    simpa [accepted_append, got_append, accepted, got, pub, h] using this
  | bset t done rest c h =>
    rw [h] at hP
    obtain ⟨⟨T0, h1, h2, h3⟩, ⟨h4, h5, h6⟩⟩ := hP
    have hp0 : pend s.p = rest.take c := by rw [h]; rfl
    have hpl : (pend s.p).length = c := by rw [hp0, List.length_take]; omega
    have := hi.phead (p' := .loop t (done ++ rest.take c) (rest.drop c)) (i := (pHead s + c) % n) rfl
      (by rw [hi.pHead_eq, hpl, Nat.mod_add_mod]) ⟨T0, h1, h2, by rw [hpl, List.length_drop]; omega⟩
    refine ⟨H, S, T, tags ++ [.head (as.length + (pend s.p).length)], ts, ?_⟩
    subst has hgs
    simpa [accepted_append, got_append, accepted, got, pub, pend, h] using this
  | flush st b hb =>
    obtain ⟨H', S', tags', h'⟩ := hi.flush hb
    refine ⟨H', S', T, tags', ts, ?_⟩
    subst has hgs
    cases st <;> simpa [accepted_append, got_append, accepted, got, apply] using h'
  | callGetc h =>
    refine ⟨H, S, T, tags, ts, ?_⟩
    have := hi.cquiet (c' := .echeck) trivial
    subst has hgs
    simpa [accepted_append, got_append, accepted, got, cacc, h] using this
  | echeckEmpty h he =>
    refine ⟨H, S, T, tags, ts, ?_⟩
    have := hi.cquiet (c' := .idle) trivial
    subst has hgs
    simpa [accepted_append, got_append, accepted, got, cacc, h] using this
  | echeckOk h he =>
    refine ⟨H, S, T, tags, ts, ?_⟩
    rw [Ne, hi.empty_iff] at he
    have := hi.cquiet (c' := .rdslot) (by simp only [CInv]; omega)
    subst has hgs
    simpa [accepted_append, got_append, accepted, got, cacc, h] using this
  | rdslot v h hv =>
    refine ⟨H, S, T, tags, ts, ?_⟩
    rw [h] at hC
    have hlt := Nat.mod_lt gs.length (show 0 < n by omega)
    have := hi.cquiet (c' := .setTail v) ⟨hC, hi.load (j := 0) (c := 1) hC (by omega) (by omega) hv⟩
    subst has hgs
    simpa [accepted_append, got_append, accepted, got, cacc, h] using this
  | setTail v h =>
    rw [h] at hC
    have := hi.ctail (c' := .idle) (cp := [v]) (i := (cTail s + 1) % n)
      (prefix_snoc (List.nil_prefix) (by rw [List.getElem?_drop]; exact hC.2))
      (by rw [hi.cTail_eq, Nat.mod_add_mod]; rfl) hC.1 trivial
    refine ⟨H, S, T, tags, ts ++ [gs.length + 1], ?_⟩
    subst has hgs
    simpa [accepted_append, got_append, accepted, got, cacc, h] using this
  | callGets len h =>
    refine ⟨H, S, T, tags, ts, ?_⟩
    have := hi.cquiet (c' := .gsz1 len) hl
    subst has hgs
    simpa [accepted_append, got_append, accepted, got, cacc, h] using this
  | gsz1 len h =>
    refine ⟨H, S, T, tags, ts, ?_⟩
    rw [h] at hC
    have := hi.cquiet (c' := .gsz2 len s.head) ⟨hC, H, b.2.1, Nat.le_refl _, hi.head⟩
    subst has hgs
    simpa [accepted_append, got_append, accepted, got, cacc, h] using this
  | gsz2 len h1 h =>
    refine ⟨H, S, T, tags, ts, ?_⟩
    rw [h] at hC
    obtain ⟨hC1, k, hk⟩ := hC
    have := hi.cquiet (c' := .ghead (min len (Conc.sizeOf n h1 (cTail s) (decide (cFull n s)))))
      (by
        rw [hi.cTail_eq]
        exact size_le _ hk (by omega) (fun e => hi.cFull_iff.1 (of_decide_eq_true e)) len hC1)
    subst has hgs
    simpa [accepted_append, got_append, accepted, got, cacc, h] using this
  | ghead len h =>
    refine ⟨H, S, T, tags, ts, ?_⟩
    rw [h] at hC
    have := hi.cquiet (c' := .gloop s.head len []) ⟨hC, by rw [hi.head]; exact Nat.mod_lt _ (by omega)⟩
    subst has hgs
    simpa [accepted_append, got_append, accepted, got, cacc, h] using this
  | gloopEnd hh acc h =>
    refine ⟨H, S, T, tags, ts, ?_⟩
    have := hi.cquiet (c' := .idle) trivial
    subst has hgs
    simpa [accepted_append, got_append, accepted, got, cacc, h] using this
  | gloopGo hh len acc h hpos =>
    refine ⟨H, S, T, tags, ts, ?_⟩
    rw [h] at hC
    have hch := chunk_get hC.1 hC.2 hpos
    rw [← hi.cTail_eq] at hch
    have := hi.cquiet (c' := .gcopy hh len acc (getChunk n hh (cTail s) len) [])
      ⟨hC.1, hC.2, hch.1, hch.2.1, by rw [← hi.cTail_eq]; exact hch.2.2, Nat.zero_le _, List.nil_prefix⟩
    subst has hgs
    simpa [accepted_append, got_append, accepted, got, cacc, h] using this
  | gcopy hh len acc c cp v h hlt hv =>
    refine ⟨H, S, T, tags, ts, ?_⟩
    rw [h] at hC
    obtain ⟨h1, h2, h3, h4, h5, h6, h7⟩ := hC
    have hv' := hi.load (j := cp.length) (c := c) (by omega) h5 hlt hv
    have := hi.cquiet (c' := .gcopy hh len acc c (cp ++ [v]))
      ⟨h1, h2, h3, h4, h5, by simp; omega, prefix_snoc h7 (by rw [List.getElem?_drop]; exact hv')⟩
    subst has hgs
    simpa [accepted_append, got_append, accepted, got, cacc, h] using this
  | gcopyEnd hh len acc c cp h hge =>
    refine ⟨H, S, T, tags, ts, ?_⟩
    rw [h] at hC
    obtain ⟨h1, h2, h3, h4, h5, h6, h7⟩ := hC
    have := hi.cquiet (c' := .gset hh len acc cp) ⟨h1, h2, ⟨by omega, by omega⟩, h7⟩
    subst has hgs
    simpa [accepted_append, got_append, accepted, got, cacc, h] using this
  | gset hh len acc cp h =>
    rw [h] at hC
    obtain ⟨h1, h2, h3, h4⟩ := hC
    have := hi.ctail (c' := .gloop hh (len - cp.length) (acc ++ cp)) (cp := cp) (i := (cTail s + cp.length) % n) h4
      (by rw [hi.cTail_eq, Nat.mod_add_mod]) (by omega) ⟨by omega, h2⟩
    refine ⟨H, S, T, tags, ts ++ [gs.length + cp.length], ?_⟩
    subst has hgs
    simpa [accepted_append, got_append, accepted, got, cacc, h] using this
  | flushTail t b hb =>
    obtain ⟨T', ts', h'⟩ := hi.flushTail hb
    refine ⟨H, S, T', tags, ts', ?_⟩
    subst has hgs
    simpa [accepted_append, got_append, accepted, got] using h'

theorem Good.exec {n : Nat} {buffer : List α} (d : α) (hn : 0 < n) (hb : buffer.length = n) {tr : List (Lbl α)} {s : St α}
    (h : Exec n buffer tr s) (hp : ∀ l ∈ tr, Polite n l) : Good n d tr s := by
  induction h with
  | init =>
    refine ⟨0, 0, 0, [], [], hb, Nat.le_refl _, Nat.le_refl _, by simp, by simp, rfl, ⟨rfl, rfl⟩, rfl, rfl, ?_, ?_, List.nil_prefix, trivial, trivial⟩
    · simp [accepted, pub, pend]; omega
    · intro k _ hk; omega
  | step h hs ih => exact (ih (fun l hl => hp l (List.mem_append_left _ hl))).step (hp _ (List.mem_append_right _ List.mem_cons_self)) hs

/-! ## The property -/

/-- **C197.** Single and bulk operations mixed, on a machine with total store order: for every interleaving of the two threads and their store
buffers, the consumer gets what the producer put, in order, possibly including elements of the bulk put in progress, and at most `n - 1`
elements are in between. -/
theorem C197_bulk_tso (n : Nat) (hn : 0 < n) (buffer : List α) (hb : buffer.length = n) (tr : List (Lbl α)) (s : St α)
    (h : Exec n buffer tr s) (hp : ∀ l ∈ tr, Polite n l) :
    ∃ inflight, inflight <+: putting s.p ∧ got tr <+: accepted tr ++ inflight ∧
      (s.c = .idle → (accepted tr ++ inflight).length ≤ (got tr).length + (n - 1)) := by
  obtain ⟨d, -⟩ := List.exists_mem_of_length_pos (by omega : 0 < buffer.length)
  obtain ⟨H, S, T, tags, ts, hi⟩ := Good.exec d hn hb h hp
  refine ⟨pub s.p, ?_, (List.prefix_append _ _).trans hi.pre, ?_⟩
  · cases s.p <;> simp [pub, putting]
  · intro hc
    have b := hi.bounds
    simp only [hc, cacc, List.append_nil] at b
    omega

/-- A bulk put writes all it was given (`putting` is the argument of the call in progress, see `C197_argument`). -/
theorem C197_all (n : Nat) (hn : 0 < n) (buffer : List α) (hb : buffer.length = n) (tr : List (Lbl α)) (s s' : St α) (l : List α)
    (h : Exec n buffer tr s) (hp : ∀ l ∈ tr, Polite n l) (hs : Step n s (.putsRet l) s') : l = putting s.p := by
  obtain ⟨d, -⟩ := List.exists_mem_of_length_pos (by omega : 0 < buffer.length)
  obtain ⟨H, S, T, tags, ts, hi⟩ := Good.exec d hn hb h hp
  have b := hi.bounds
  have hP := hi.p
  generalize accepted tr ++ pub s.p = as at hi b hP
  cases hs with
  | loopEnd t _ rest h hend =>
    rw [h] at hP
    obtain ⟨T0, h1, h2, h3⟩ := hP
    rw [hi.pFull_iff] at hend
    have : rest.length = 0 := by
      rcases hend with e | e
      · omega
      · rw [e]; rfl
    rw [h, putting, List.length_eq_zero_iff.1 this, List.append_nil]

/-- `putting` is the argument of the bulk put in progress: it is set by the call and kept until the return. -/
theorem C197_argument (n : Nat) (s s' : St α) (l : Lbl α) (hs : Step n s l s') :
    match l with
    | .putsCall data => putting s'.p = data
    | .putsRet _ => True
    | _ => putting s'.p = putting s.p := by
  cases hs with
  | flush st b hb => cases st <;> rfl
  | _ => simp_all [putting]

/-- The elements are stored and loaded inside the buffer. -/
theorem C197_inside (n : Nat) (hn : 0 < n) (buffer : List α) (hb : buffer.length = n) (tr : List (Lbl α)) (s : St α)
    (h : Exec n buffer tr s) (hp : ∀ l ∈ tr, Polite n l) :
    s.slots.length = n ∧ (∀ i x, Store.slot i x ∈ s.pbuf → i < n) ∧
      (∀ t done rest c i, s.p = .copy t done rest c i → i < c → pHead s + i < n ∧ i < rest.length) ∧
      (∀ hh len acc c cp, s.c = .gcopy hh len acc c cp → cp.length < c → cTail s + cp.length < n) ∧ pHead s < n ∧ cTail s < n := by
  obtain ⟨d, -⟩ := List.exists_mem_of_length_pos (by omega : 0 < buffer.length)
  obtain ⟨H, S, T, tags, ts, hi⟩ := Good.exec d hn hb h hp
  have hP := hi.p
  have hC := hi.c
  refine ⟨hi.len, ?_, ?_, ?_, by rw [hi.pHead_eq]; exact Nat.mod_lt _ hn, by rw [hi.cTail_eq]; exact Nat.mod_lt _ hn⟩
  · intro i x hx
    rw [hi.pbuf, List.mem_map] at hx
    obtain ⟨t, -, ht⟩ := hx
    cases t with
    | slot k => rw [Tag.store, Store.slot.injEq] at ht; rw [← ht.1]; exact Nat.mod_lt _ hn
    | head k => cases ht
  · intro t done rest c i e hlt
    rw [hi.pHead_eq]
    generalize accepted tr ++ pub s.p = as at hP
    rw [e] at hP
    obtain ⟨-, ⟨-, h5, h6⟩, -⟩ := hP
    omega
  · intro hh len acc c cp e hlt
    rw [hi.cTail_eq]
    generalize got tr ++ cacc s.c = gs at hC
    rw [e] at hC
    obtain ⟨-, -, -, -, h5, -⟩ := hC
    omega

/-- When both threads are between calls and the store buffers have drained, the memory holds exactly the elements put and not got. -/
theorem C197_settled (n : Nat) (hn : 0 < n) (buffer : List α) (hb : buffer.length = n) (tr : List (Lbl α)) (s : St α)
    (h : Exec n buffer tr s) (hp : ∀ l ∈ tr, Polite n l) (h1 : s.p = .idle) (h2 : s.c = .idle) (h3 : s.pbuf = []) (h4 : s.cbuf = []) :
    (s.head + n - s.tail) % n = (accepted tr).length - (got tr).length ∧
      ∀ i, i < (accepted tr).length - (got tr).length → s.slots[(s.tail + i) % n]? = (accepted tr)[(got tr).length + i]? := by
  obtain ⟨d, -⟩ := List.exists_mem_of_length_pos (by omega : 0 < buffer.length)
  obtain ⟨H, S, T, tags, ts, hi⟩ := Good.exec d hn hb h hp
  simp only [h1, h2, pub, cacc, List.append_nil] at hi
  have b := hi.bounds
  have hpb := hi.pbuf
  have hcb := hi.cbuf
  rw [h3] at hpb
  rw [h4] at hcb
  have e1 := List.map_eq_nil_iff.1 hpb.symm
  have e2 := List.map_eq_nil_iff.1 hcb.symm
  subst e1 e2
  have ho := hi.order
  have hc : T = (got tr).length := hi.chain
  simp only [h1, pend, List.append_nil, List.length_nil] at ho b
  obtain ⟨ho1, ho2⟩ := ho
  refine ⟨?_, fun i hlt => ?_⟩
  · rw [hi.head, hi.tail, mod_sub (by omega) (by omega)]
    omega
  · have := hi.mem ((got tr).length + i) (by omega) (by omega)
    simp only [h1, pend, List.append_nil] at this
    rw [← this, hi.tail, hc, Nat.mod_add_mod]

/-- Store buffers drain. -/
theorem C197_drain (n : Nat) (s : St α) :
    (s.pbuf ≠ [] → ∃ s', Step n s .tau s' ∧ s'.pbuf.length + 1 = s.pbuf.length ∧ s'.p = s.p ∧ s'.c = s.c) ∧
    (s.cbuf ≠ [] → ∃ s', Step n s .tau s' ∧ s'.cbuf.length + 1 = s.cbuf.length ∧ s'.p = s.p ∧ s'.c = s.c) := by
  constructor
  · intro h
    obtain ⟨st, b, hb⟩ := List.exists_cons_of_ne_nil h
    refine ⟨_, .flush s st b hb, ?_⟩
    rw [hb]
    cases st <;> simp [apply]
  · intro h
    obtain ⟨t, b, hb⟩ := List.exists_cons_of_ne_nil h
    refine ⟨_, .flushTail s t b hb, ?_⟩
    rw [hb]
    simp

/-- A bulk put returns after a bounded number of steps of the producer, whatever the consumer and the store buffers do: a measure (at most
five times the number of elements, plus one) decreases with every such step, and there always is one. -/
theorem C197_puts_returns (n : Nat) (hn : 0 < n) (buffer : List α) (hb : buffer.length = n) (tr : List (Lbl α)) (s : St α)
    (h : Exec n buffer tr s) (hp : ∀ l ∈ tr, Polite n l) :
    (∀ l s', Step n s l s' → s'.p ≠ s.p → 0 < Conc.mu s.p → Conc.mu s'.p < Conc.mu s.p) ∧
    (0 < Conc.mu s.p → ∃ l s', Step n s l s' ∧ s'.p ≠ s.p) := by
  obtain ⟨d, -⟩ := List.exists_mem_of_length_pos (by omega : 0 < buffer.length)
  obtain ⟨H, S, T, tags, ts, hi⟩ := Good.exec d hn hb h hp
  have b := hi.bounds
  have hP := hi.p
  generalize accepted tr ++ pub s.p = as at hi b hP
  refine ⟨?_, ?_⟩
  · intro l s' hst hne hmu
    cases hst with
    | callPutc x e | checkFull x e | checkOk x e | write x e | advFull x e | advOk x e | setHead x e | callPuts x e | snap x e =>
      rw [e] at hmu; simp [Conc.mu] at hmu
    | loopEnd t d r e => rw [e]; simp [Conc.mu]
    | loopGo t d r e => rw [e]; simp [Conc.mu]
    | copy t d r c i x e hic hx =>
      rw [e] at hP ⊢
      obtain ⟨-, ⟨h1, h2, h3⟩, h4⟩ := hP
      simp only [Conc.mu]; omega
    | copyEnd t d r c i e hic =>
      rw [e] at hP ⊢
      obtain ⟨-, ⟨h1, h2, h3⟩, h4⟩ := hP
      simp only [Conc.mu]; omega
    | badvSkip t d r c e hsk =>
      rw [e] at hP
      obtain ⟨⟨T0, h0, h0', h0''⟩, ⟨h1, h2, h3⟩⟩ := hP
      rw [hi.pFull_iff] at hsk
      omega
    | badvOk t d r c e =>
      rw [e] at hP ⊢
      obtain ⟨-, ⟨h1, h2, h3⟩⟩ := hP
      simp only [Conc.mu]; omega
    | bset t d r c e =>
      rw [e] at hP ⊢
      obtain ⟨-, ⟨h1, h2, h3⟩⟩ := hP
      simp only [Conc.mu, List.length_drop]; omega
    | flush st b hb => cases st <;> exact absurd rfl hne
    | _ => exact absurd rfl hne
  · intro hmu
    cases hpc : s.p with
    | loop t d r =>
      by_cases hf : pFull n s ∨ r = []
      · exact ⟨_, _, .loopEnd s t d r hpc hf, by simp⟩
      · rw [not_or] at hf
        exact ⟨_, _, .loopGo s t d r hpc hf.1 hf.2, by simp⟩
    | copy t d r c i =>
      rw [hpc] at hP
      obtain ⟨-, ⟨h1, h2, h3⟩, h4⟩ := hP
      rcases Nat.lt_or_ge i c with hic | hic
      · exact ⟨_, _, .copy s t d r c i _ hpc hic (List.getElem?_eq_getElem (by omega)), by simp⟩
      · exact ⟨_, _, .copyEnd s t d r c i hpc hic, by simp⟩
    | badv t d r c =>
      by_cases hf : pFull n s ∨ c = 0
      · exact ⟨_, _, .badvSkip s t d r c hpc hf, by simp⟩
      · rw [not_or] at hf
        exact ⟨_, _, .badvOk s t d r c hpc hf.1 hf.2, by simp⟩
    | bset t d r c => exact ⟨_, _, .bset s t d r c hpc, by simp⟩
    | _ => rw [hpc] at hmu; simp [Conc.mu] at hmu

/-- So does every call of the consumer: the measure is at most `4 * len + 4`. -/
theorem C197_gets_returns (n : Nat) (hn : 0 < n) (buffer : List α) (hb : buffer.length = n) (tr : List (Lbl α)) (s : St α)
    (h : Exec n buffer tr s) (hp : ∀ l ∈ tr, Polite n l) :
    (∀ l s', Step n s l s' → s'.c ≠ s.c → s.c ≠ .idle → Conc.nu s'.c < Conc.nu s.c) ∧
    (s.c ≠ .idle → ∃ l s', Step n s l s' ∧ s'.c ≠ s.c) := by
  have hin := C197_inside n hn buffer hb tr s h hp
  obtain ⟨d, -⟩ := List.exists_mem_of_length_pos (by omega : 0 < buffer.length)
  obtain ⟨H, S, T, tags, ts, hi⟩ := Good.exec d hn hb h hp
  have hC := hi.c
  have hsl := hi.len
  have htl := hin.2.2.2.2.2
  generalize got tr ++ cacc s.c = gs at hi hC
  refine ⟨?_, ?_⟩
  · intro l s' hs hne hni
    cases hs with
    | callGetc e | callGets _ e => exact absurd e hni
    | echeckEmpty e | echeckOk e | rdslot v e | setTail v e => rw [e]; simp [Conc.nu]
    | gsz1 len e => rw [e]; simp [Conc.nu]
    | gsz2 len h1 e => rw [e]; simp only [Conc.nu]; omega
    | ghead len e => rw [e]; simp [Conc.nu]
    | gloopEnd hh acc e => rw [e]; simp [Conc.nu]
    | gloopGo hh len acc e h1 => rw [e]; simp [Conc.nu]
    | gcopy hh len acc c cp v e h1 h2 =>
      rw [e] at hC ⊢
      obtain ⟨c1, c2, c3, c4, c5, c6, c7⟩ := hC
      simp only [Conc.nu, List.length_append, List.length_singleton]
      omega
    | gcopyEnd hh len acc c cp e h1 =>
      rw [e] at hC ⊢
      obtain ⟨c1, c2, c3, c4, c5, c6, c7⟩ := hC
      simp only [Conc.nu]
      omega
    | gset hh len acc cp e =>
      rw [e] at hC ⊢
      obtain ⟨c1, c2, c3, c4⟩ := hC
      simp only [Conc.nu]
      omega
    | flush st b hb => cases st <;> exact absurd rfl hne
    | _ => exact absurd rfl hne
  · intro hni
    cases e : s.c with
    | idle => exact absurd e hni
    | echeck =>
      by_cases hht : s.head = cTail s
      · exact ⟨_, _, .echeckEmpty s e hht, by simp⟩
      · exact ⟨_, _, .echeckOk s e hht, by simp⟩
    | rdslot =>
      obtain ⟨v, hv⟩ : ∃ v, s.slots[cTail s]? = some v := ⟨_, List.getElem?_eq_getElem (by omega)⟩
      exact ⟨_, _, .rdslot s v e hv, by simp⟩
    | setTail v => exact ⟨_, _, .setTail s v e, by simp⟩
    | gsz1 len => exact ⟨_, _, .gsz1 s len e, by simp⟩
    | gsz2 len h1 => exact ⟨_, _, .gsz2 s len h1 e, by simp⟩
    | ghead len => exact ⟨_, _, .ghead s len e, by simp⟩
    | gloop hh len acc =>
      rcases Nat.eq_zero_or_pos len with rfl | h0
      · exact ⟨_, _, .gloopEnd s hh acc e, by simp⟩
      · exact ⟨_, _, .gloopGo s hh len acc e h0, by simp⟩
    | gcopy hh len acc c cp =>
      by_cases h0 : cp.length < c
      · have := hin.2.2.2.1 _ _ _ _ _ e h0
        obtain ⟨v, hv⟩ : ∃ v, s.slots[cTail s + cp.length]? = some v := ⟨_, List.getElem?_eq_getElem (by omega)⟩
        exact ⟨_, _, .gcopy s hh len acc c cp v e h0 hv, by simp⟩
      · exact ⟨_, _, .gcopyEnd s hh len acc c cp e (by omega), by simp⟩
    | gset hh len acc cp => exact ⟨_, _, .gset s hh len acc cp e, by simp⟩

/-! ## What goes wrong without store buffers goes wrong with them -/

/-- The calls and returns in a trace. -/
def visible : List (Lbl α) → List (Lbl α)
  | [] => []
  | .tau :: tr => visible tr
  | l :: tr => l :: visible tr

theorem visible_append (a b : List (Lbl α)) : visible (a ++ b) = visible a ++ visible b := by
  induction a with
  | nil => rfl
  | cons l a ih => cases l <;> simp [visible, ih]

/-- A state of `Cbuf/ConcModel`, with empty store buffers. -/
def lift (s : Conc.St α) : St α := ⟨s.slots, s.head, s.tail, [], [], s.p, s.c⟩

/-- Every execution of the two threads on a sequentially consistent machine is one on this machine (each store reaches the memory at once), so
what is proved to go wrong there (C87) goes wrong here. -/
theorem C197_includes (n : Nat) (buffer : List α) (tr : List (Lbl α)) (s : Conc.St α) (h : Conc.Exec n buffer tr s) :
    ∃ tr', Exec n buffer tr' (lift s) ∧ visible tr' = visible tr := by
  induction h with
  | init => exact ⟨[], .init, rfl⟩
  | step _ hs ih =>
    obtain ⟨tr', h', hv⟩ := ih
    have one : ∀ {l s1}, Step n (lift _) l s1 → Exec n buffer (tr' ++ [l]) s1 := fun hs1 => .step h' hs1
    have two : ∀ {l s1 s2}, Step n (lift _) l s1 → Step n s1 .tau s2 → Exec n buffer (tr' ++ [l] ++ [.tau]) s2 :=
      fun h1 h2 => .step (.step h' h1) h2
    cases hs with
    | write x e =>
      have h2' := two (.write _ x e) (.flush _ _ [] rfl)
      exact ⟨_, h2', by simp [visible_append, visible, hv]⟩
    | setHead x e =>
      have h2' := two (.setHead _ x e) (.flush _ _ [] rfl)
      exact ⟨_, h2', by simp [visible_append, visible, hv]⟩
    | copy t done rest c i x e h1 h2 =>
      have h2' := two (.copy _ t done rest c i x e h1 h2) (.flush _ _ [] rfl)
      exact ⟨_, h2', by simp [visible_append, visible, hv]⟩
    | bset t done rest c e =>
      have h2' := two (.bset _ t done rest c e) (.flush _ _ [] rfl)
      exact ⟨_, h2', by simp [visible_append, visible, hv]⟩
    | setTail v e =>
      exact ⟨_, two (.setTail _ v e) (.flushTail _ _ [] rfl), by simp [visible_append, visible, hv]⟩
    | gset hh len acc cp e =>
      exact ⟨_, two (.gset _ hh len acc cp e) (.flushTail _ _ [] rfl), by simp [visible_append, visible, hv]⟩
    | callPutc x e => exact ⟨_, one (.callPutc _ x e), by simp [visible_append, visible, hv]⟩
    | checkFull x e h1 => exact ⟨_, one (.checkFull _ x e h1), by simp [visible_append, visible, hv]⟩
    | checkOk x e h1 => exact ⟨_, one (.checkOk _ x e h1), by simp [visible_append, visible, hv]⟩
    | advFull x e h1 => exact ⟨_, one (.advFull _ x e h1), by simp [visible_append, visible, hv]⟩
    | advOk x e h1 => exact ⟨_, one (.advOk _ x e h1), by simp [visible_append, visible, hv]⟩
    | callPuts data e => exact ⟨_, one (.callPuts _ data e), by simp [visible_append, visible, hv]⟩
    | snap data e => exact ⟨_, one (.snap _ data e), by simp [visible_append, visible, hv]; rfl⟩
    | loopEnd t done rest e h1 => exact ⟨_, one (.loopEnd _ t done rest e h1), by simp [visible_append, visible, hv]⟩
    | loopGo t done rest e h1 h2 => exact ⟨_, one (.loopGo _ t done rest e h1 h2), by simp [visible_append, visible, hv]⟩
    | copyEnd t done rest c i e h1 => exact ⟨_, one (.copyEnd _ t done rest c i e h1), by simp [visible_append, visible, hv]⟩
    | badvSkip t done rest c e h1 => exact ⟨_, one (.badvSkip _ t done rest c e h1), by simp [visible_append, visible, hv]⟩
    | badvOk t done rest c e h1 h2 => exact ⟨_, one (.badvOk _ t done rest c e h1 h2), by simp [visible_append, visible, hv]⟩
    | callGetc e => exact ⟨_, one (.callGetc _ e), by simp [visible_append, visible, hv]⟩
    | echeckEmpty e h1 => exact ⟨_, one (.echeckEmpty _ e h1), by simp [visible_append, visible, hv]⟩
    | echeckOk e h1 => exact ⟨_, one (.echeckOk _ e h1), by simp [visible_append, visible, hv]⟩
    | rdslot v e h1 => exact ⟨_, one (.rdslot _ v e h1), by simp [visible_append, visible, hv]⟩
    | callGets len e => exact ⟨_, one (.callGets _ len e), by simp [visible_append, visible, hv]⟩
    | gsz1 len e => exact ⟨_, one (.gsz1 _ len e), by simp [visible_append, visible, hv]⟩
    | gsz2 len h1 e => exact ⟨_, one (.gsz2 _ len h1 e), by simp [visible_append, visible, hv]⟩
    | ghead len e => exact ⟨_, one (.ghead _ len e), by simp [visible_append, visible, hv]⟩
    | gloopEnd hh acc e => exact ⟨_, one (.gloopEnd _ hh acc e), by simp [visible_append, visible, hv]⟩
    | gloopGo hh len acc e h1 => exact ⟨_, one (.gloopGo _ hh len acc e h1), by simp [visible_append, visible, hv]⟩
    | gcopy hh len acc c cp v e h1 h2 => exact ⟨_, one (.gcopy _ hh len acc c cp v e h1 h2), by simp [visible_append, visible, hv]⟩
    | gcopyEnd hh len acc c cp e h1 => exact ⟨_, one (.gcopyEnd _ hh len acc c cp e h1), by simp [visible_append, visible, hv]⟩

/-! ## Examples -/

/-- A bulk put of two elements has returned although nothing has reached the memory; the consumer is told that the buffer is empty. -/
example : ∃ tr s, Exec 3 [0, 0, 0] tr s ∧ accepted tr = [7, 8] ∧ got tr = ([] : List Nat) ∧ Lbl.getcRet none ∈ tr ∧
    s.pbuf = [.slot 0 7, .slot 1 8, .head 2] ∧ (∀ l ∈ tr, Polite 3 l) := by
  have h1 : Exec 3 [0, 0, 0] [] ⟨[0, 0, 0], 0, 0, [], [], .idle, .idle⟩ := .init
  have h2 := Exec.step h1 (.callPuts _ [7, 8] rfl)
  have h3 := Exec.step h2 (.snap _ [7, 8] rfl)
  have h4 := Exec.step h3 (.loopGo _ 0 [] [7, 8] rfl (by decide) (by simp))
  have h5 := Exec.step h4 (.copy _ 0 [] [7, 8] 2 0 7 rfl (by decide) rfl)
  have h6 := Exec.step h5 (.copy _ 0 [] [7, 8] 2 1 8 rfl (by decide) rfl)
  have h7 := Exec.step h6 (.copyEnd _ 0 [] [7, 8] 2 2 rfl (by decide))
  have h8 := Exec.step h7 (.badvOk _ 0 [] [7, 8] 2 rfl (by decide) (by simp))
  have h9 := Exec.step h8 (.bset _ 0 [] [7, 8] 2 rfl)
  have h10 := Exec.step h9 (.loopEnd _ 0 [7, 8] [] rfl (.inr rfl))
  have h11 := Exec.step h10 (.callGetc _ rfl)
  have h12 := Exec.step h11 (.echeckEmpty _ rfl rfl)
  refine ⟨_, _, h12, rfl, rfl, by simp, rfl, ?_⟩
  simp [Polite, pFree, pHead]

/-- Once the stores have arrived, a bulk get takes both. -/
example : ∃ tr s, Exec 3 [0, 0, 0] tr s ∧ accepted tr = [7, 8] ∧ got tr = [7, 8] ∧ s.cbuf = [2] ∧ s.tail = 0 ∧ s.slots = [7, 8, 0] := by
  have h1 : Exec 3 [0, 0, 0] [] ⟨[0, 0, 0], 0, 0, [], [], .idle, .idle⟩ := .init
  have h2 := Exec.step h1 (.callPuts _ [7, 8] rfl)
  have h3 := Exec.step h2 (.snap _ [7, 8] rfl)
  have h4 := Exec.step h3 (.loopGo _ 0 [] [7, 8] rfl (by decide) (by simp))
  have h5 := Exec.step h4 (.copy _ 0 [] [7, 8] 2 0 7 rfl (by decide) rfl)
  have h6 := Exec.step h5 (.copy _ 0 [] [7, 8] 2 1 8 rfl (by decide) rfl)
  have h7 := Exec.step h6 (.copyEnd _ 0 [] [7, 8] 2 2 rfl (by decide))
  have h8 := Exec.step h7 (.badvOk _ 0 [] [7, 8] 2 rfl (by decide) (by simp))
  have h9 := Exec.step h8 (.bset _ 0 [] [7, 8] 2 rfl)
  have h10 := Exec.step h9 (.loopEnd _ 0 [7, 8] [] rfl (.inr rfl))
  have h11 := Exec.step h10 (.flush _ (.slot 0 7) _ rfl)
  have h12 := Exec.step h11 (.flush _ (.slot 1 8) _ rfl)
  have h13 := Exec.step h12 (.flush _ (.head 2) _ rfl)
  have h14 := Exec.step h13 (.callGets _ 2 rfl)
  have h15 := Exec.step h14 (.gsz1 _ 2 rfl)
  have h16 := Exec.step h15 (.gsz2 _ 2 2 rfl)
  have h17 := Exec.step h16 (.ghead _ 2 rfl)
  have h18 := Exec.step h17 (.gloopGo _ 2 2 [] rfl (by decide))
  have h19 := Exec.step h18 (.gcopy _ 2 2 [] 2 [] 7 rfl (by decide) rfl)
  have h20 := Exec.step h19 (.gcopy _ 2 2 [] 2 [7] 8 rfl (by decide) rfl)
  have h21 := Exec.step h20 (.gcopyEnd _ 2 2 [] 2 [7, 8] rfl (by decide))
  have h22 := Exec.step h21 (.gset _ 2 2 [] [7, 8] rfl)
  have h23 := Exec.step h22 (.gloopEnd _ 2 [7, 8] rfl)
  exact ⟨_, _, h23, rfl, rfl, rfl, rfl, rfl⟩

end Gel.Cbuf.TsoBulk
