import Verif.Cbuf.ConcProps

/-!
# Circular buffer with two threads: data races, property C186

By C11 5.1.2.4p25 a program in which two threads access the same object at the same time, one of them writing, has no defined
meaning unless the accesses are atomic. None of the accesses in circular_buffer.c is.
-/
namespace Gel.Cbuf.Conc

variable {α : Type u} {n : Nat}

namespace Spec

inductive Loc where
  | slot (i : Nat)
  | head
  | tail
  deriving DecidableEq

/-- The access the producer is about to make to what the consumer also uses, and whether it writes. -/
def pAccess (s : St α) : Option (Loc × Bool) :=
  match s.p with
  | .check _ | .adv _ | .snap _ | .loop .. | .badv .. => some (.tail, false)
  | .write _ => some (.slot s.head, true)
  | .setHead _ | .bset .. => some (.head, true)
  | .copy _ _ _ c i => if i < c then some (.slot (s.head + i), true) else none
  | .idle => none

/-- The same for the consumer. -/
def cAccess (s : St α) : Option (Loc × Bool) :=
  match s.c with
  | .echeck | .gsz1 _ | .gsz2 .. | .ghead _ => some (.head, false)
  | .rdslot => some (.slot s.tail, false)
  | .setTail _ | .gset .. => some (.tail, true)
  | .gcopy _ _ _ c cp => if cp.length < c then some (.slot (s.tail + cp.length), false) else none
  | .idle | .gloop .. => none

/-- Both threads are about to access `l`, at least one of them writing. -/
def Race (s : St α) (l : Loc) : Prop :=
  ∃ w v, pAccess s = some (l, w) ∧ cAccess s = some (l, v) ∧ (w = true ∨ v = true)

end Spec
open Spec

/-- **C186, partial.** No data race on an element of the buffer, as long as bulk puts ask for no more than fits and bulk gets for no
more than the capacity; all races are the producer writing `head` while the consumer reads it, or the consumer writing `tail` while
the producer reads it. Missing: that there are none (`C186_head_wrong`, `C186_tail_wrong`). -/
theorem C186_slots_partial (buffer : List α) (hn : 0 < n) (hb : buffer.length = n) {tr : List (Lbl α)} {s : St α}
    (h : Exec n buffer tr s) (hp : ∀ l ∈ tr, Polite n l) (l : Loc) (hr : Race s l) :
    (l = .head ∧ pAccess s = some (.head, true) ∧ cAccess s = some (.head, false)) ∨
    (l = .tail ∧ pAccess s = some (.tail, false) ∧ cAccess s = some (.tail, true)) := by
  obtain ⟨w, v, e1, e2, hw⟩ := hr
  cases l with
  | head =>
    have hv : v = false := by
      simp only [cAccess] at e2
      split at e2 <;> simp at e2 <;> first | exact e2 | exact e2.symm | exact e2.2.symm
    subst hv
    have hw' : w = true := by simpa using hw
    subst hw'
    exact Or.inl ⟨rfl, e1, e2⟩
  | tail =>
    have hv : w = false := by
      simp only [pAccess] at e1
      split at e1 <;> simp at e1 <;> first | exact e1 | exact e1.symm | exact e1.2.symm
    subst hv
    have hw' : v = true := by simpa using hw
    subst hw'
    exact Or.inr ⟨rfl, e1, e2⟩
  | slot i =>
    exfalso
    refine (C06_race_free buffer hn hb h hp i i ?_ ?_).2.2 rfl
    · simp only [pAccess] at e1
      split at e1 <;> simp at e1
      · rename_i x e; exact Or.inl ⟨x, e, e1.1.symm⟩
      · rename_i t d r c k e; exact Or.inr ⟨t, d, r, c, k, e, e1.1, e1.2.1.symm⟩
    · simp only [cAccess] at e2
      split at e2 <;> simp at e2
      · rename_i e; exact Or.inl ⟨e, e2.1.symm⟩
      · rename_i hh len acc c cp e; exact Or.inr ⟨hh, len, acc, c, cp, e, e2.1, e2.2.1.symm⟩

/-- **C186 is false of the code** at every put that stores an element: if the consumer is idle when the producer is about to write
`head`, and calls `circular_buf_getc`, there is a race on `head`. -/
theorem C186_head_wrong (s : St α) (hp : pAccess s = some (.head, true)) (hc : s.c = .idle) :
    ∃ s', Step n s .tau s' ∧ Race s' .head := by
  refine ⟨_, .callGetc s hc, true, false, ?_, rfl, Or.inl rfl⟩
  exact hp

/-- The same for every get that takes an element and `tail`. -/
theorem C186_tail_wrong (s : St α) (x : α) (hc : cAccess s = some (.tail, true)) (hp : s.p = .idle) :
    ∃ s', Step n s .tau s' ∧ Race s' .tail := by
  refine ⟨_, .callPutc s x hp, false, true, rfl, ?_, Or.inr rfl⟩
  exact hc

/-- The steps that copy the rest of a chunk. -/
theorem copy_steps (n : Nat) (t : Nat) (done rest : List α) (c : Nat) (hc : c ≤ rest.length) (k : Nat) :
    ∀ (i : Nat) (s : St α), c - i = k → i ≤ c → s.p = .copy t done rest c i →
    ∃ sl, sl.length = s.slots.length ∧ Steps n s (List.replicate k .tau) { s with slots := sl, p := .copy t done rest c c } := by
  induction k with
  | zero =>
    intro i s hk hi hp
    have : i = c := by omega
    subst this
    refine ⟨s.slots, rfl, ?_⟩
    obtain ⟨a, b, c', p, d⟩ := s
    simp only at hp
    subst hp
    exact .nil _
  | succ k ih =>
    intro i s hk hi hp
    have hlt : i < rest.length := by omega
    obtain ⟨sl, h1, h2⟩ := ih (i + 1) { s with slots := s.slots.set (s.head + i) rest[i], p := .copy t done rest c (i + 1) }
      (by omega) (by omega) rfl
    refine ⟨sl, by simpa using h1, ?_⟩
    exact .cons (.copy s t done rest c i rest[i] hp (by omega) (List.getElem?_eq_getElem hlt)) h2

/-- **C186 is false of the code** also for the elements if a bulk put is one too long: with the free room in one piece before `tail`
and the consumer about to take an element, a bulk put of one element more than fits, followed by another put, writes the element
that the consumer is reading. -/
theorem C186_slots_wrong (s : St α) (data : List α) (y : α) (hp : s.p = .idle) (hc : s.c = .rdslot) (h1 : s.head + 1 < s.tail)
    (h2 : s.tail < n) (hd : data.length = s.tail - s.head) :
    data.length = free n s + 1 ∧
    ∃ tr s', Steps n s (.putsCall data :: .snap data.length (free n s) :: tr) s' ∧ accepted tr = data ∧
      Race s' (.slot s.tail) := by
  have hfree : data.length = free n s + 1 := by
    rw [free, Nat.mod_eq_of_lt (by omega)]
    omega
  refine ⟨hfree, ?_⟩
  obtain ⟨sl0, hd0, tl, p, c⟩ := s
  simp only at hp hc h1 h2 hd
  subst hp hc
  have hne : data ≠ [] := by intro e; simp [e] at hd; omega
  have hchunk : putChunk n hd0 tl data.length = data.length := by
    simp only [putChunk]
    rw [if_neg (show ¬ hd0 ≥ tl by omega), if_neg (by omega)]
  have hnf : ∀ sl p, ¬ full n (⟨sl, hd0, tl, p, .rdslot⟩ : St α) := by
    intro sl p
    simp only [full]
    rw [Nat.mod_eq_of_lt (by omega)]
    omega
  obtain ⟨sl, hl, hcopy⟩ := copy_steps n tl [] data data.length (Nat.le_refl _) data.length 0
    (⟨sl0, hd0, tl, .copy tl [] data data.length 0, .rdslot⟩ : St α) (by omega) (by omega) rfl
  have hsum : (hd0 + data.length) % n = tl := by rw [Nat.mod_eq_of_lt (by omega)]; omega
  have hnf2 : ∀ p, ¬ full n (⟨sl, tl, tl, p, .rdslot⟩ : St α) := by
    intro p
    simp only [full]
    by_cases e : tl + 1 = n
    · rw [e, Nat.mod_self]; omega
    · rw [Nat.mod_eq_of_lt (by omega)]; omega
  have rest : Steps n (⟨sl, hd0, tl, .copy tl [] data data.length data.length, .rdslot⟩ : St α)
      [.tau, .tau, .tau, .putsRet data, .tau, .tau] ⟨sl, tl, tl, .write y, .rdslot⟩ := by
    have hset := Step.bset (n := n) (⟨sl, hd0, tl, .bset tl [] data data.length, .rdslot⟩ : St α) tl [] data data.length rfl
    simp only [hsum, List.take_length, List.drop_length, List.nil_append] at hset
    exact .cons (.copyEnd _ tl [] data data.length data.length rfl (Nat.le_refl _))
      (.cons (.badvOk _ tl [] data data.length rfl (hnf _ _) (by omega))
      (.cons hset (.cons (.loopEnd _ tl data [] rfl (Or.inr rfl)) (.cons (.callPutc _ y rfl) (.cons (.checkOk _ y rfl (hnf2 _))
      (.nil _))))))
  have hgo := Step.loopGo (n := n) (⟨sl0, hd0, tl, .loop tl [] data, .rdslot⟩ : St α) tl [] data rfl (hnf _ _) hne
  rw [hchunk] at hgo
  refine ⟨.tau :: (List.replicate data.length .tau ++ [.tau, .tau, .tau, .putsRet data, .tau, .tau]),
    ⟨sl, tl, tl, .write y, .rdslot⟩, ?_, ?_, true, false, rfl, rfl, Or.inl rfl⟩
  · exact .cons (.callPuts _ data rfl) (.cons (.snap _ data rfl) (.cons hgo (hcopy.append rest)))
  · have : ∀ k, accepted (List.replicate k (Lbl.tau : Lbl α)) = [] := by
      intro k
      induction k with
      | zero => rfl
      | succ k ih => simpa [List.replicate_succ, accepted] using ih
    simp [accepted, accepted_append, this]

/-- Such a state is reached: three elements are put, two are taken, the third is about to be taken. -/
theorem race_example : ∃ tr : List (Lbl Nat), (∀ l ∈ tr, Polite 3 l) ∧ Exec 3 [0, 0, 0] tr ⟨[3, 2, 5], 0, 2, .idle, .rdslot⟩ := by
  refine ⟨_, ?_, Exec.steps .init (.cons (.callPutc _ 3 rfl) (.cons (.checkOk _ 3 rfl (by decide))
    (.cons (.write _ 3 rfl) (.cons (.advOk _ 3 rfl (by decide)) (.cons (.setHead _ 3 rfl)
    (.cons (.callPutc _ 2 rfl) (.cons (.checkOk _ 2 rfl (by decide)) (.cons (.write _ 2 rfl) (.cons (.advOk _ 2 rfl (by decide))
    (.cons (.setHead _ 2 rfl) (.cons (.callGetc _ rfl) (.cons (.echeckOk _ rfl (by decide)) (.cons (.rdslot _ 3 rfl rfl)
    (.cons (.setTail _ 3 rfl) (.cons (.callGetc _ rfl) (.cons (.echeckOk _ rfl (by decide)) (.cons (.rdslot _ 2 rfl rfl)
    (.cons (.setTail _ 2 rfl) (.cons (.callPutc _ 5 rfl) (.cons (.checkOk _ 5 rfl (by decide)) (.cons (.write _ 5 rfl)
    (.cons (.advOk _ 5 rfl (by decide)) (.cons (.setHead _ 5 rfl) (.cons (.callGetc _ rfl) (.cons (.echeckOk _ rfl (by decide))
    (.nil _))))))))))))))))))))))))))⟩
  intro l hl
  simp only [List.nil_append, List.mem_cons, List.not_mem_nil, or_false] at hl
  rcases hl with rfl | rfl | rfl | rfl | rfl | rfl | rfl | rfl | rfl | rfl | rfl | rfl | rfl | rfl | rfl | rfl | rfl | rfl | rfl | rfl |
    rfl | rfl | rfl | rfl | rfl <;> trivial

example : ∃ tr s', Steps 3 (⟨[3, 2, 5], 0, 2, .idle, .rdslot⟩ : St Nat) (.putsCall [7, 8] :: .snap 2 1 :: tr) s' ∧
    accepted tr = [7, 8] ∧ Race s' (.slot 2) := by
  obtain ⟨-, tr, s', h⟩ := C186_slots_wrong (n := 3) (⟨[3, 2, 5], 0, 2, .idle, .rdslot⟩ : St Nat) [7, 8] 9 rfl rfl (by decide) (by decide)
    rfl
  exact ⟨tr, s', h⟩

/-- A producer about to write `head`. -/
example : pAccess (⟨[3, 0, 0], 0, 0, .setHead 3, .idle⟩ : St Nat) = some (.head, true) := rfl

end Gel.Cbuf.Conc
