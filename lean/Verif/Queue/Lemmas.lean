import Verif.Queue.Model
import Verif.Queue.Spec
import Mathlib.Tactic.SplitIfs
import Mathlib.Data.Nat.ModEq
import Mathlib.Data.Nat.Log

/-!
# Macro queue: lemmas
-/
namespace Gel.Queue

variable {α : Type u}

/-- The queue holds `l`, after `d` elements have left it. -/
structure Rep (cap : Nat) (q : Queue α) (l : List α) (d : Nat) : Prop where
  read : q.readIdx = d % 2 ^ 16
  write : q.writeIdx = (d + l.length) % 2 ^ 16
  len : q.items.length = cap
  fits : l.length ≤ cap
  get : ∀ i, i < l.length → q.items[(d + i) % cap]? = l[i]?

theorem Rep.elementsIn {cap : Nat} {q : Queue α} {l : List α} {d : Nat} (h : Rep cap q l d) (hc : cap ≤ 32768) :
    elementsIn q = l.length := by
  unfold Queue.elementsIn
  rw [h.read, h.write]
  have := h.fits
  omega

theorem mod_two_pow_mod {k a : Nat} (hk : k ≤ 16) : (a % 2 ^ 16) % 2 ^ k = a % 2 ^ k :=
  Nat.mod_mod_of_dvd _ (Nat.pow_dvd_pow 2 hk)

theorem mask_eq {k : Nat} {q : Queue α} (hk : k ≤ 15) (hl : q.items.length = 2 ^ k) (a : Nat) :
    mask q (a % 2 ^ 16) = a % 2 ^ k := by
  have h1 : 2 ^ k ≤ 2 ^ 15 := Nat.pow_le_pow_right (by decide) hk
  have h2 : a % 2 ^ k < 2 ^ k := Nat.mod_lt _ (Nat.two_pow_pos k)
  rw [mask, hl, Nat.and_two_pow_sub_one_eq_mod, mod_two_pow_mod (by omega), Nat.mod_eq_of_lt]
  omega

theorem init_rep (items : List α) : Rep items.length (init items) [] 0 :=
  ⟨rfl, rfl, rfl, Nat.zero_le _, by simp⟩

theorem mod_ne {cap d i j : Nat} (hi : i < cap) (hj : j < cap) (h : i ≠ j) : (d + i) % cap ≠ (d + j) % cap := by
  intro e
  rcases Nat.lt_or_gt_of_ne h with h | h
  · have := (Nat.modEq_iff_dvd' (show d + i ≤ d + j by omega)).1 e
    have := Nat.le_of_dvd (by omega) this
    omega
  · have := (Nat.modEq_iff_dvd' (show d + j ≤ d + i by omega)).1 e.symm
    have := Nat.le_of_dvd (by omega) this
    omega

theorem enqueue_rep {k : Nat} (hk : k ≤ 15) {q : Queue α} {l : List α} {d : Nat} (h : Rep (2 ^ k) q l d) (x : α) :
    if l.length < 2 ^ k then ∃ q', enqueue q x = .ok (q', 0) ∧ Rep (2 ^ k) q' (l ++ [x]) d
    else enqueue q x = .ok (q, 1) := by
  have h1 : 2 ^ k ≤ 2 ^ 15 := Nat.pow_le_pow_right (by decide) hk
  have h2 := Nat.two_pow_pos k
  have he := h.elementsIn (by omega)
  have hf := h.fits
  split_ifs with hlt
  · have hm := mask_eq hk h.len (d + l.length)
    rw [← h.write] at hm
    have hb : (d + l.length) % 2 ^ k < 2 ^ k := Nat.mod_lt _ h2
    refine ⟨{ q with writeIdx := (q.writeIdx + 1) % 2 ^ 16, items := q.items.set ((d + l.length) % 2 ^ k) x }, ?_, ?_⟩
    · rw [enqueue, if_neg (by rw [he, h.len]; omega), hm, wr, if_pos (by rw [h.len]; exact hb)]
      rfl
    · refine ⟨h.read, ?_, by simpa using h.len, by simp; omega, ?_⟩
      · show (q.writeIdx + 1) % 2 ^ 16 = _
        rw [h.write]; simp; omega
      · intro i hi
        rw [List.length_append, List.length_singleton] at hi
        show (q.items.set ((d + l.length) % 2 ^ k) x)[(d + i) % 2 ^ k]? = _
        rw [List.getElem?_set]
        rcases Nat.lt_or_ge i l.length with h' | h'
        · rw [if_neg (mod_ne hlt (by omega) (by omega)), h.get i h', List.getElem?_append_left h']
        · have : i = l.length := by omega
          subst this
          rw [if_pos rfl, if_pos (by rw [h.len]; exact hb)]
          simp
  · rw [enqueue, if_pos]
    rw [he, h.len]; omega

theorem dequeue_rep {k : Nat} (hk : k ≤ 15) {q : Queue α} {x : α} {l : List α} {d : Nat}
    (h : Rep (2 ^ k) q (x :: l) d) :
    dequeue q = .ok ((drop q).1, 0, some x) ∧ (drop q).2 = 0 ∧ Rep (2 ^ k) (drop q).1 l (d + 1) := by
  have h1 : 2 ^ k ≤ 2 ^ 15 := Nat.pow_le_pow_right (by decide) hk
  have h2 := Nat.two_pow_pos k
  have he := h.elementsIn (by omega)
  have hf := h.fits
  rw [List.length_cons] at he hf
  have hm := mask_eq hk h.len d
  rw [← h.read] at hm
  have hg := h.get 0 (by simp)
  rw [Nat.add_zero, List.getElem?_cons_zero] at hg
  have hne : ¬ elementsIn q = 0 := by omega
  refine ⟨?_, ?_, ?_⟩
  · rw [dequeue, if_neg hne, hm, rd, hg]
    simp [drop, hne]
  · simp [drop, hne]
  · simp only [drop, hne, if_false]
    refine ⟨?_, ?_, h.len, by omega, ?_⟩
    · show (q.readIdx + 1) % 2 ^ 16 = _
      rw [h.read]; omega
    · show q.writeIdx = _
      rw [h.write, List.length_cons]
      congr 1; omega
    · intro i hi
      have := h.get (i + 1) (by simp; omega)
      rw [List.getElem?_cons_succ] at this
      rw [← this]
      congr 2; omega

theorem empty_rep {k : Nat} (hk : k ≤ 15) {q : Queue α} {d : Nat} (h : Rep (2 ^ k) q [] d) :
    dequeue q = .ok (q, 1, none) ∧ drop q = (q, 1) := by
  have h1 : 2 ^ k ≤ 2 ^ 15 := Nat.pow_le_pow_right (by decide) hk
  have he := h.elementsIn (by omega)
  simp at he
  simp [dequeue, drop, he]

theorem Rep.isEmpty {cap : Nat} {q : Queue α} {l : List α} {d : Nat} (h : Rep cap q l d) (hc : cap ≤ 32768) :
    isEmpty q = decide (l.length = 0) := by
  unfold Queue.isEmpty
  rw [h.read, h.write, Bool.beq_eq_decide_eq]
  have := h.fits
  rw [decide_eq_decide]
  omega

/-- The exact result of `NAME_count`. -/
theorem Rep.count {cap : Nat} {q : Queue α} {l : List α} {d : Nat} (h : Rep cap q l d) (hc : cap ≤ 32768) :
    count q = if (d + l.length) / 65536 = d / 65536 then l.length else 2 ^ 64 - 65536 + l.length := by
  unfold Queue.count asSize
  rw [h.read, h.write]
  have := h.fits
  split_ifs <;> omega

/-- One call, except `count`, against the specification. -/
theorem step_rep {k : Nat} (hk : k ≤ 15) {q : Queue α} {l : List α} {d : Nat} (h : Rep (2 ^ k) q l d) (c : Call α)
    (hc : c ≠ .count) :
    ∃ q', step q c = .ok (q', (Spec.step (2 ^ k) l c).2) ∧
      Rep (2 ^ k) q' (Spec.step (2 ^ k) l c).1 (d + Spec.dequeued [c] [(Spec.step (2 ^ k) l c).2]) := by
  have h1 : 2 ^ k ≤ 2 ^ 15 := Nat.pow_le_pow_right (by decide) hk
  cases c with
  | enqueue x =>
    have := enqueue_rep hk h x
    split_ifs at this with hlt
    · obtain ⟨q', e, r⟩ := this
      exact ⟨q', by simp [step, e, Spec.step, hlt], by simpa [Spec.step, hlt, Spec.dequeued] using r⟩
    · exact ⟨q, by simp [step, this, Spec.step, hlt], by simpa [Spec.step, hlt, Spec.dequeued] using h⟩
  | dequeue =>
    cases l with
    | nil =>
      obtain ⟨e, -⟩ := empty_rep hk h
      exact ⟨q, by simp [step, e, Spec.step], by simpa [Spec.step, Spec.dequeued] using h⟩
    | cons x l =>
      obtain ⟨e, -, r⟩ := dequeue_rep hk h
      exact ⟨(drop q).1, by simp [step, e, Spec.step], by simpa [Spec.step, Spec.dequeued] using r⟩
  | drop =>
    cases l with
    | nil =>
      obtain ⟨-, e⟩ := empty_rep hk h
      exact ⟨q, by simp [step, e, Spec.step], by simpa [Spec.step, Spec.dequeued] using h⟩
    | cons x l =>
      obtain ⟨-, e, r⟩ := dequeue_rep hk h
      exact ⟨(drop q).1, by simp [step, e, Spec.step], by simpa [Spec.step, Spec.dequeued] using r⟩
  | count => exact absurd rfl hc
  | isEmpty =>
    refine ⟨q, ?_, by simpa [Spec.step, Spec.dequeued] using h⟩
    simp only [step, Spec.step, h.isEmpty (by omega)]
    split_ifs with h' <;> simp [h']
  | isFull =>
    refine ⟨q, ?_, by simpa [Spec.step, Spec.dequeued] using h⟩
    simp only [step, Spec.step, isFull, h.elementsIn (show 2 ^ k ≤ 32768 by omega), h.len]
    split_ifs with h' <;> simp [h']

theorem spec_balance (cap : Nat) (l : List α) (c : Call α) :
    (Spec.step cap l c).1.length + Spec.dequeued [c] [(Spec.step cap l c).2] =
      l.length + Spec.enqueued [c] [(Spec.step cap l c).2] := by
  cases c <;> simp only [Spec.step] <;> (try split_ifs) <;> (try cases l) <;>
    simp [Spec.dequeued, Spec.enqueued]

theorem dequeued_cons (c : Call α) (o : Obs α) (cs : List (Call α)) (os : List (Obs α)) :
    Spec.dequeued (c :: cs) (o :: os) = Spec.dequeued [c] [o] + Spec.dequeued cs os := by
  cases c <;> simp [Spec.dequeued]

theorem enqueued_cons (c : Call α) (o : Obs α) (cs : List (Call α)) (os : List (Obs α)) :
    Spec.enqueued (c :: cs) (o :: os) = Spec.enqueued [c] [o] + Spec.enqueued cs os := by
  cases c <;> simp [Spec.enqueued]

theorem run_rep {k : Nat} (hk : k ≤ 15) {q : Queue α} {l : List α} {d : Nat} (h : Rep (2 ^ k) q l d)
    (cs : List (Call α)) (hc : .count ∉ cs) :
    ∃ q', run q cs = .ok (q', (Spec.run (2 ^ k) l cs).2) ∧
      Rep (2 ^ k) q' (Spec.run (2 ^ k) l cs).1 (d + Spec.dequeued cs (Spec.run (2 ^ k) l cs).2) ∧
      (Spec.run (2 ^ k) l cs).1.length + Spec.dequeued cs (Spec.run (2 ^ k) l cs).2 =
        l.length + Spec.enqueued cs (Spec.run (2 ^ k) l cs).2 := by
  induction cs generalizing q l d with
  | nil => exact ⟨q, rfl, by simpa [Spec.run, Spec.dequeued] using h, by simp [Spec.run, Spec.dequeued, Spec.enqueued]⟩
  | cons c cs ih =>
    obtain ⟨q1, e1, r1⟩ := step_rep hk h c (by intro e; exact hc (by simp [e]))
    have hb := spec_balance (2 ^ k) l c
    obtain ⟨q2, e2, r2, b2⟩ := ih r1 (by intro h; exact hc (List.mem_cons_of_mem _ h))
    refine ⟨q2, ?_, ?_, ?_⟩
    · simp [run, e1, e2, Spec.run]
    · simp only [Spec.run]
      rw [dequeued_cons, ← Nat.add_assoc]
      exact r2
    · simp only [Spec.run]
      rw [dequeued_cons, enqueued_cons]
      omega

theorem run_append (q : Queue α) (cs ds : List (Call α)) :
    run q (cs ++ ds) = (run q cs >>= fun r => run r.1 ds >>= fun r' => pure (r'.1, r.2 ++ r'.2)) := by
  induction cs generalizing q with
  | nil =>
    simp only [List.nil_append, run, Res.ok_bind]
    cases run q ds <;> simp
  | cons c cs ih =>
    simp only [List.cons_append, run]
    cases step q c <;> simp [ih]

/-- A capacity that is not a power of two makes two positions share slot 0. -/
theorem collide {n : Nat} (h0 : 0 < n) (hn : ∀ k, n ≠ 2 ^ k) : ∃ j, 2 ^ j < n ∧ 2 ^ j &&& (n - 1) = 0 := by
  have hlt : n < 2 ^ (Nat.log 2 n + 1) := Nat.lt_pow_succ_log_self (by decide) n
  have hle : 2 ^ Nat.log 2 n ≤ n := Nat.pow_log_le_self 2 (by omega)
  have hne := hn (Nat.log 2 n)
  generalize Nat.log 2 n = L at *
  by_contra hcon
  simp only [not_exists, not_and] at hcon
  have hall : n - 1 = 2 ^ (L + 1) - 1 := by
    apply Nat.eq_of_testBit_eq
    intro i
    rw [Nat.testBit_two_pow_sub_one]
    by_cases hi : i < L + 1
    · simp only [hi, decide_true]
      have h1 : 2 ^ i ≤ 2 ^ L := Nat.pow_le_pow_right (by decide) (by omega)
      have h2 := hcon i (by omega)
      by_contra h3
      simp only [Bool.not_eq_true] at h3
      refine h2 (Nat.eq_of_testBit_eq fun m => ?_)
      rw [Nat.testBit_and, Nat.testBit_two_pow]
      by_cases hm : i = m
      · subst hm; simp [h3]
      · simp [hm]
    · simp only [hi, decide_false]
      apply Nat.testBit_lt_two_pow
      have : 2 ^ (L + 1) ≤ 2 ^ i := Nat.pow_le_pow_right (by decide) (by omega)
      omega
  have := hn (L + 1)
  omega

/-- `k` enqueues of different elements into a queue of a capacity that is at most 65535. -/
theorem enqueue_seq (f : Nat → α) (items : List α) (h0 : 0 < items.length) (hc : items.length < 65536) :
    ∀ k, k ≤ items.length → ∃ its, its.length = items.length ∧
      run (init items) ((List.range k).map fun i => .enqueue (f i)) =
        .ok (⟨0, k % 2 ^ 16, its⟩, (List.range k).map fun _ => ⟨0, none⟩) ∧
      ∀ i, i < k → i &&& (items.length - 1) = 0 → ∃ m, i ≤ m ∧ m < k ∧ its[0]? = some (f m) := by
  intro k
  induction k with
  | zero => intro _; exact ⟨items, rfl, rfl, by simp⟩
  | succ k ih =>
    intro hk
    obtain ⟨its, h1, h2, h3⟩ := ih (by omega)
    have hk16 : k % 2 ^ 16 = k := Nat.mod_eq_of_lt (by omega)
    have hm : k &&& (items.length - 1) ≤ items.length - 1 := Nat.and_le_right
    have hm' : mask (⟨0, k % 2 ^ 16, its⟩ : Queue α) (k % 2 ^ 16) = k &&& (items.length - 1) := by
      simp only [mask, h1, hk16]
      exact Nat.mod_eq_of_lt (by omega)
    have hel : elementsIn (⟨0, k % 2 ^ 16, its⟩ : Queue α) = k := by
      simp only [elementsIn, hk16]; omega
    refine ⟨its.set (k &&& (items.length - 1)) (f k), by simpa using h1, ?_, ?_⟩
    · rw [List.range_succ, List.map_append, List.map_append, run_append, h2]
      simp only [Res.ok_bind, List.map_cons, List.map_nil, run, step, enqueue, hel, h1]
      rw [if_neg (by omega), hm', wr, if_pos (by omega)]
      simp only [Res.ok_bind, Res.pure_eq, hk16]
    · intro i hi h0'
      by_cases hkz : k &&& (items.length - 1) = 0
      · refine ⟨k, by omega, by omega, ?_⟩
        rw [hkz, List.getElem?_set, if_pos rfl, if_pos (by omega)]
      · have hik : i < k := by
          rcases Nat.lt_or_ge i k with h | h
          · exact h
          · exact absurd (by rw [← h0']; congr 1; omega) hkz
        obtain ⟨m, m1, m2, m3⟩ := h3 i hik h0'
        exact ⟨m, m1, by omega, by rw [List.getElem?_set, if_neg hkz, m3]⟩

end Gel.Queue
