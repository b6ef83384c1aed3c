import Verif.Cbuf.ConcGets
import Verif.Cbuf.TsoProps

/-!
# Circular buffer: single-element calls are wait-free (C115)
-/
namespace Gel.Cbuf.Conc

open Gel.Cbuf

variable {α : Type u} (n : Nat)

/-- The argument of the running `circular_buf_putc`, and how many steps the producer still makes at most. -/
def putcLeft : PPc α → Option (α × Nat)
  | .check x => some (x, 4)
  | .write x => some (x, 3)
  | .adv x => some (x, 2)
  | .setHead x => some (x, 1)
  | _ => none

/-- A `circular_buf_putc` is left after at most four steps of the producer, whatever the consumer does: no step of the
consumer changes where the producer is, the producer always has a next step, and every one either returns or leaves fewer. -/
theorem C115_putc (s : St α) (x : α) (k : Nat) (h : putcLeft s.p = some (x, k)) :
    (∃ l s', Step n s l s' ∧ s'.p ≠ s.p) ∧
    ∀ l s', Step n s l s' → s'.p = s.p ∨
      (s'.p = .idle ∧ ∃ ok, l = .putcRet x ok) ∨ (l = .tau ∧ ∃ k', putcLeft s'.p = some (x, k') ∧ k' < k) := by
  constructor
  · cases hp : s.p with
    | check y =>
      by_cases hf : full n s
      · exact ⟨_, _, .checkFull s y hp hf, by simp⟩
      · exact ⟨_, _, .checkOk s y hp hf, by simp⟩
    | write y => exact ⟨_, _, .write s y hp, by simp⟩
    | adv y =>
      by_cases hf : full n s
      · exact ⟨_, _, .advFull s y hp hf, by simp⟩
      · exact ⟨_, _, .advOk s y hp hf, by simp⟩
    | setHead y => exact ⟨_, _, .setHead s y hp, by simp⟩
    | _ => rw [hp] at h; simp [putcLeft] at h
  · intro l s' hs
    cases hs with
    | callPutc y e | callPuts d e | snap d e | loopEnd t d r e | loopGo t d r e | copy t d r c i y e | copyEnd t d r c i e
    | badvSkip t d r c e | badvOk t d r c e | bset t d r c e => rw [e] at h; simp [putcLeft] at h
    | checkFull y e | advFull y e | setHead y e =>
      rw [e] at h
      simp only [putcLeft, Option.some.injEq, Prod.mk.injEq] at h
      exact Or.inr (Or.inl ⟨rfl, _, by rw [h.1]⟩)
    | checkOk y e | write y e | advOk y e =>
      rw [e] at h
      simp only [putcLeft, Option.some.injEq, Prod.mk.injEq] at h
      exact Or.inr (Or.inr ⟨rfl, _, by simp only [putcLeft, h.1]; rfl, by omega⟩)
    | _ => exact Or.inl rfl

/-- How many steps of the consumer a running `circular_buf_getc` still needs at most. -/
def getcLeft : CPc α → Option Nat
  | .echeck => some 3
  | .rdslot => some 2
  | .setTail _ => some 1
  | _ => none

/-- The same for `circular_buf_getc`, with at most three steps. -/
theorem C115_getc (buffer : List α) (hn : 0 < n) (hb : buffer.length = n) {tr : List (Lbl α)} {s : St α}
    (he : Exec n buffer tr s) (hp : ∀ l ∈ tr, Polite n l) (k : Nat) (h : getcLeft s.c = some k) :
    (∃ l s', Step n s l s' ∧ s'.c ≠ s.c) ∧
    ∀ l s', Step n s l s' → s'.c = s.c ∨
      (s'.c = .idle ∧ ∃ v, l = .getcRet v) ∨ (l = .tau ∧ ∃ k', getcLeft s'.c = some k' ∧ k' < k) := by
  constructor
  · refine (C108_gets_wait_free buffer hn hb he hp).2.1 fun e => ?_
    rw [e] at h
    cases h
  · intro l s' hs
    cases hs with
    | callGetc e | callGets len e | gsz1 len e | gsz2 len h1 e | ghead len e | gloopEnd hh acc e | gloopGo hh len acc e
    | gcopy hh len acc c cp v e | gcopyEnd hh len acc c cp e | gset hh len acc cp e => rw [e] at h; simp [getcLeft] at h
    | echeckEmpty e | setTail v e => exact Or.inr (Or.inl ⟨rfl, _, rfl⟩)
    | echeckOk e | rdslot v e =>
      rw [e] at h
      simp only [getcLeft, Option.some.injEq] at h
      exact Or.inr (Or.inr ⟨rfl, _, rfl, by omega⟩)
    | _ => exact Or.inl rfl

end Gel.Cbuf.Conc

namespace Gel.Cbuf.Tso

variable {α : Type u}

/-- The argument of the running `circular_buf_putc`, and how many steps the producer still makes at most. -/
def putcLeft : PPc α → Option (α × Nat)
  | .check x => some (x, 4)
  | .write x => some (x, 3)
  | .adv x => some (x, 2)
  | .setHead x => some (x, 1)
  | .idle => none

theorem apply_p (s : St α) (st : Store α) : (apply s st).p = s.p ∧ (apply s st).c = s.c ∧ (apply s st).slots.length = s.slots.length := by
  cases st <;> simp [apply]

/-- With store buffers and whatever reordering: `circular_buf_putc` takes at most four steps of the producer; it never waits
for a store to arrive. -/
theorem C115_putc (m : Machine) (n : Nat) (s : St α) (x : α) (k : Nat) (h : putcLeft s.p = some (x, k)) :
    (∃ l s', Step m n s l s' ∧ s'.p ≠ s.p) ∧
    ∀ l s', Step m n s l s' → s'.p = s.p ∨
      (s'.p = .idle ∧ ∃ ok, l = .putcRet x ok) ∨ (l = .tau ∧ ∃ k', putcLeft s'.p = some (x, k') ∧ k' < k) := by
  constructor
  · cases hp : s.p with
    | check y =>
      by_cases hf : full n s
      · exact ⟨_, _, .checkFull s y hp hf, by simp⟩
      · exact ⟨_, _, .checkOk s y hp hf, by simp⟩
    | write y => exact ⟨_, _, .write s y hp, by simp⟩
    | adv y =>
      by_cases hf : full n s
      · exact ⟨_, _, .advFull s y hp hf, by simp⟩
      · exact ⟨_, _, .advOk s y hp hf, by simp⟩
    | setHead y => exact ⟨_, _, .setHead s y hp, by simp⟩
    | idle => rw [hp] at h; simp [putcLeft] at h
  · intro l s' hs
    cases hs with
    | callPutc y e => rw [e] at h; simp [putcLeft] at h
    | checkFull y e | advFull y e | setHead y e =>
      rw [e] at h
      simp only [putcLeft, Option.some.injEq, Prod.mk.injEq] at h
      exact Or.inr (Or.inl ⟨rfl, _, by rw [h.1]⟩)
    | checkOk y e | write y e | advOk y e =>
      rw [e] at h
      simp only [putcLeft, Option.some.injEq, Prod.mk.injEq] at h
      exact Or.inr (Or.inr ⟨rfl, _, by simp only [putcLeft, h.1]; rfl, by omega⟩)
    | flush st b e => exact Or.inl (apply_p _ _).1
    | reorder a st b => exact Or.inl (apply_p _ _).1
    | _ => exact Or.inl rfl

/-- How many steps of the consumer a running `circular_buf_getc` still needs at most. -/
def getcLeft : CPc α → Option Nat
  | .echeck => some 3
  | .rdslot => some 2
  | .echeckLate _ => some 2
  | .setTail _ => some 1
  | .idle => none

theorem Exec.tail_lt {m : Machine} {n : Nat} {buffer : List α} (hn : 0 < n) (hb : buffer.length = n) {tr : List (Lbl α)} {s : St α}
    (he : Exec m n buffer tr s) : s.slots.length = n ∧ s.tail < n ∧ ∀ t ∈ s.cbuf, t < n := by
  induction he with
  | init => exact ⟨hb, hn, by simp⟩
  | step _ hs ih =>
    obtain ⟨h1, h2, h3⟩ := ih
    cases hs with
    | flush st b e =>
      cases st with
      | slot i x => exact ⟨by simpa [apply] using h1, h2, h3⟩
      | head i => exact ⟨h1, h2, h3⟩
    | reorder a st b =>
      cases st with
      | slot i x => exact ⟨by simpa [apply] using h1, h2, h3⟩
      | head i => exact ⟨h1, h2, h3⟩
    | setTail v e =>
      refine ⟨h1, h2, fun t ht => ?_⟩
      rcases List.mem_append.1 ht with ht | ht
      · exact h3 t ht
      · rw [List.mem_singleton.1 ht]
        exact Nat.mod_lt _ hn
    | flushTail t b e =>
      rw [e] at h3
      exact ⟨h1, h3 t (by simp), fun u hu => h3 u (by simp [hu])⟩
    | _ => exact ⟨h1, h2, h3⟩

/-- The same for `circular_buf_getc`, with at most three steps. -/
theorem C115_getc (m : Machine) (n : Nat) (hn : 0 < n) (buffer : List α) (hb : buffer.length = n) (tr : List (Lbl α)) (s : St α)
    (he : Exec m n buffer tr s) (k : Nat) (h : getcLeft s.c = some k) :
    (∃ l s', Step m n s l s' ∧ s'.c ≠ s.c) ∧
    ∀ l s', Step m n s l s' → s'.c = s.c ∨
      (s'.c = .idle ∧ ∃ v, l = .getcRet v) ∨ (l = .tau ∧ ∃ k', getcLeft s'.c = some k' ∧ k' < k) := by
  constructor
  · obtain ⟨h1, h2, h3⟩ := he.tail_lt hn hb
    have hlt : cTail s < s.slots.length := by
      rw [cTail, h1]
      cases hl : s.cbuf.getLast? with
      | none => exact h2
      | some t => exact h3 t (List.mem_of_getLast? hl)
    cases hc : s.c with
    | idle => rw [hc] at h; cases h
    | echeck =>
      by_cases hht : s.head = cTail s
      · exact ⟨_, _, .echeckEmpty s hc hht, by simp⟩
      · exact ⟨_, _, .echeckOk s hc hht, by simp⟩
    | echeckLate v =>
      by_cases hht : s.head = cTail s
      · exact ⟨_, _, .lateEmpty s v hc hht, by simp⟩
      · exact ⟨_, _, .lateOk s v hc hht, by simp⟩
    | rdslot => exact ⟨_, _, .rdslot s _ hc (List.getElem?_eq_getElem hlt), by simp⟩
    | setTail v => exact ⟨_, _, .setTail s v hc, by simp⟩
  · intro l s' hs
    cases hs with
    | callGetc e => rw [e] at h; simp [getcLeft] at h
    | echeckEmpty e | lateEmpty v e | setTail v e => exact Or.inr (Or.inl ⟨rfl, _, rfl⟩)
    | echeckOk e | rdslot v e | early v _ e | lateOk v e =>
      rw [e] at h
      simp only [getcLeft, Option.some.injEq] at h
      exact Or.inr (Or.inr ⟨rfl, _, rfl, by omega⟩)
    | flush st b e => exact Or.inl (apply_p _ _).2.1
    | reorder a st b => exact Or.inl (apply_p _ _).2.1
    | _ => exact Or.inl rfl

/-- A full buffer of two places: the put is refused after two steps although a removal is on its way. -/
example : ∃ s' s'', Step tso 2 (⟨[7, 8], 1, 0, [], [1], .idle, .idle⟩ : St Nat) .tau s' ∧ Step tso 2 s' (.putcRet 9 false) s'' ∧
    putcLeft s'.p = some (9, 4) :=
  ⟨_, _, .callPutc _ 9 rfl, .checkFull _ 9 rfl rfl, rfl⟩

end Gel.Cbuf.Tso
