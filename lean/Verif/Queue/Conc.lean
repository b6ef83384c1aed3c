import Verif.Queue.Lemmas

/-!
# Macro queue between an interrupt (or thread) that enqueues and one that dequeues (C104)

The calls are split at their accesses to the shared queue. Accesses are sequentially consistent. `elements_in` reads both
indices; the own one is changed by no one else, so the reads are one step. The same holds for the increments.
-/
namespace Gel.Queue.Conc

variable {α : Type u}

/-- Where the producer is within `NAME_enqueue`, queue.h:43-54: not inside; after the check; after the increment of
`write_idx`, before the item is stored at `i`. -/
inductive Prod (α : Type u) where
  | idle
  | checked (x : α)
  | pending (i : Nat) (x : α)
  deriving DecidableEq, Repr

/-- Where the consumer is within `NAME_dequeue`, queue.h:56-69: not inside; after the check; after the increment of
`read_idx`, before the item is read at `i`. -/
inductive Cons where
  | idle
  | checked
  | pending (i : Nat)
  deriving DecidableEq, Repr

/-- The queue, both sides, and the history: the items accepted and those delivered. -/
structure St (α : Type u) where
  q : Queue α
  p : Prod α
  c : Cons
  acc : List α
  out : List α
  deriving DecidableEq, Repr

def start (items : List α) : St α := ⟨init items, .idle, .idle, [], []⟩

inductive Act (α : Type u) where
  | prod (x : α)
  | cons
  deriving DecidableEq, Repr

/-- The next step of the producer; `x` is the item if it begins a call. -/
def prodStep (s : St α) (x : α) : Res (St α) :=
  match s.p with
  | .idle => if elementsIn s.q = s.q.items.length then .ok s else .ok { s with p := .checked x }
  | .checked y => .ok { s with q := { s.q with writeIdx := (s.q.writeIdx + 1) % 2 ^ 16 },
                               p := .pending (mask s.q s.q.writeIdx) y, acc := s.acc ++ [y] }
  | .pending i y => do
    let items ← wr s.q.items i y
    pure { s with q := { s.q with items := items }, p := .idle }

/-- The next step of the consumer. -/
def consStep (s : St α) : Res (St α) :=
  match s.c with
  | .idle => if elementsIn s.q = 0 then .ok s else .ok { s with c := .checked }
  | .checked => .ok { s with q := { s.q with readIdx := (s.q.readIdx + 1) % 2 ^ 16 },
                             c := .pending (mask s.q s.q.readIdx) }
  | .pending i => do
    let x ← rd s.q.items i
    pure { s with c := .idle, out := s.out ++ [x] }

def step (s : St α) : Act α → Res (St α)
  | .prod x => prodStep s x
  | .cons => consStep s

def run (s : St α) : List (Act α) → Res (St α)
  | [] => .ok s
  | a :: as => do
    let s ← step s a
    run s as

/-- No call to `NAME_enqueue` begins while a dequeue is between its increment and its read and one place is free, and no
call to `NAME_dequeue` begins while an enqueue is between its increment and its store and one item is counted. -/
def Careful (s : St α) : Act α → Prop
  | .prod _ => s.p = .idle → (∃ i, s.c = .pending i) → elementsIn s.q + 1 ≠ s.q.items.length
  | .cons => s.c = .idle → (∃ i x, s.p = .pending i x) → elementsIn s.q ≠ 1

def CarefulRun (s : St α) : List (Act α) → Prop
  | [] => True
  | a :: as => Careful s a ∧ ∀ s', step s a = .ok s' → CarefulRun s' as

/-- `L` items have been read, `R` claimed by the consumer, `S` are stored, `W` claimed by the producer. -/
structure Inv (k : Nat) (s : St α) (L R S W : Nat) : Prop where
  read : s.q.readIdx = R % 2 ^ 16
  write : s.q.writeIdx = W % 2 ^ 16
  len : s.q.items.length = 2 ^ k
  acc : s.acc.length = W
  out : s.out = s.acc.take L
  le : R ≤ S
  fits : W ≤ L + 2 ^ k
  data : ∀ j, L ≤ j → j < S → s.q.items[j % 2 ^ k]? = s.acc[j]?
  prod : match s.p with
    | .idle => S = W
    | .checked _ => S = W ∧ W < L + 2 ^ k
    | .pending i x => W = S + 1 ∧ i = S % 2 ^ k ∧ s.acc[S]? = some x
  cons : match s.c with
    | .idle => L = R
    | .checked => L = R ∧ R < S
    | .pending i => R = L + 1 ∧ i = L % 2 ^ k

theorem Inv.bounds {k : Nat} {s : St α} {L R S W : Nat} (h : Inv k s L R S W) : L ≤ R ∧ R ≤ S ∧ S ≤ W := by
  have h1 := h.prod
  have h2 := h.cons
  have h3 := h.le
  refine ⟨?_, h3, ?_⟩
  · split at h2 <;> omega
  · split at h1 <;> omega

theorem Inv.elementsIn {k : Nat} (hk : k ≤ 15) {s : St α} {L R S W : Nat} (h : Inv k s L R S W) :
    elementsIn s.q = W - R := by
  obtain ⟨h1, h2, h3⟩ := h.bounds
  have h4 := h.fits
  have h5 : 2 ^ k ≤ 2 ^ 15 := Nat.pow_le_pow_right (by decide) hk
  rw [Queue.elementsIn, h.read, h.write]
  omega

theorem mod_ne' {cap i j : Nat} (h1 : i < j) (h2 : j < i + cap) : i % cap ≠ j % cap := by
  intro e
  have := (Nat.modEq_iff_dvd' (show i ≤ j by omega)).1 e
  have := Nat.le_of_dvd (by omega) this
  omega

theorem Inv.step {k : Nat} (hk : k ≤ 15) {s : St α} {L R S W : Nat} (h : Inv k s L R S W) (a : Act α) (hc : Careful s a) :
    ∃ s' L' R' S' W', step s a = .ok s' ∧ Inv k s' L' R' S' W' := by
  obtain ⟨b1, b2, b3⟩ := h.bounds
  have he := h.elementsIn hk
  have h0 := Nat.two_pow_pos k
  obtain ⟨q, p, c, acc, out⟩ := s
  have hf := h.fits
  have hp := h.prod
  have hcs := h.cons
  have hl := h.len
  simp only at he hp hcs hl
  cases a with
  | prod x =>
    cases p with
    | idle =>
      simp only at hp
      by_cases hfull : Queue.elementsIn q = q.items.length
      · refine ⟨_, L, R, S, W, ?_, h⟩
        simp [Conc.step, prodStep, hfull]
      · refine ⟨⟨q, .checked x, c, acc, out⟩, L, R, S, W, ?_, ?_⟩
        · simp [Conc.step, prodStep, hfull]
        · refine ⟨h.read, h.write, h.len, h.acc, h.out, h.le, h.fits, h.data, ⟨hp, ?_⟩, h.cons⟩
          rw [he, hl] at hfull
          cases c with
          | idle => simp only at hcs; omega
          | checked => simp only at hcs; omega
          | pending i =>
            simp only at hcs
            have := hc rfl ⟨i, rfl⟩
            simp only [he, hl] at this
            omega
    | checked y =>
      simp only at hp
      refine ⟨_, L, R, S, W + 1, rfl, ?_⟩
      have hm : mask q q.writeIdx = W % 2 ^ k := by
        have hw := h.write
        simp only at hw
        rw [hw]
        exact mask_eq hk h.len W
      have hacc := h.acc
      simp only at hacc
      refine ⟨h.read, ?_, h.len, ?_, ?_, h.le, ?_, ?_, ?_, h.cons⟩
      · have hw := h.write
        simp only at hw ⊢
        rw [hw]
        omega
      · simp [hacc]
      · have ho := h.out
        simp only at ho ⊢
        rw [List.take_append_of_le_length (by omega)]
        exact ho
      · omega
      · intro j h1 h2
        simp only
        rw [List.getElem?_append_left (by omega)]
        exact h.data j h1 h2
      · simp only
        refine ⟨by omega, ?_, ?_⟩
        · rw [hm, hp.1]
        · rw [hp.1, List.getElem?_append_right (by omega)]
          simp [hacc]
    | pending i y =>
      simp only at hp
      obtain ⟨hp1, hp2, hp3⟩ := hp
      have hi : i < q.items.length := by
        rw [hl, hp2]
        exact Nat.mod_lt _ h0
      refine ⟨⟨{ q with items := q.items.set i y }, .idle, c, acc, out⟩, L, R, W, W, ?_, ?_⟩
      · simp [Conc.step, prodStep, wr, hi]
      · refine ⟨h.read, h.write, by simpa using h.len, h.acc, h.out, by omega, h.fits, ?_, rfl, ?_⟩
        · intro j h1 h2
          simp only
          rw [List.getElem?_set]
          by_cases hj : j = S
          · rw [if_pos (by rw [hp2, hj]), if_pos hi, hj]
            exact hp3.symm
          · rw [if_neg]
            · exact h.data j h1 (by omega)
            · rw [hp2]
              exact (mod_ne' (show j < S by omega) (by omega)).symm
        · simp only
          cases c with
          | idle => exact hcs
          | checked => simp only at hcs ⊢; omega
          | pending i => exact hcs
  | cons =>
    cases c with
    | idle =>
      simp only at hcs
      by_cases hemp : Queue.elementsIn q = 0
      · refine ⟨_, L, R, S, W, ?_, h⟩
        simp [Conc.step, consStep, hemp]
      · refine ⟨⟨q, p, .checked, acc, out⟩, L, R, S, W, ?_, ?_⟩
        · simp [Conc.step, consStep, hemp]
        · refine ⟨h.read, h.write, h.len, h.acc, h.out, h.le, h.fits, h.data, h.prod, ⟨hcs, ?_⟩⟩
          rw [he] at hemp
          cases p with
          | idle => simp only at hp; omega
          | checked y => simp only at hp; omega
          | pending i y =>
            simp only at hp
            have := hc rfl ⟨i, y, rfl⟩
            simp only [he] at this
            omega
    | checked =>
      simp only at hcs
      refine ⟨_, L, R + 1, S, W, rfl, ?_⟩
      have hm : mask q q.readIdx = R % 2 ^ k := by
        have hr := h.read
        simp only at hr
        rw [hr]
        exact mask_eq hk h.len R
      refine ⟨?_, h.write, h.len, h.acc, h.out, by omega, h.fits, h.data, h.prod, ?_⟩
      · have hr := h.read
        simp only at hr ⊢
        rw [hr]
        omega
      · simp only
        refine ⟨by omega, ?_⟩
        rw [hm, hcs.1]
    | pending i =>
      simp only at hcs
      obtain ⟨hc1, hc2⟩ := hcs
      subst hc1
      have hacc := h.acc
      simp only at hacc
      have hd := h.data L (Nat.le_refl _) (by omega)
      simp only at hd
      rw [List.getElem?_eq_getElem (show L < acc.length by omega)] at hd
      refine ⟨⟨q, p, .idle, acc, out ++ [acc[L]'(by omega)]⟩, L + 1, L + 1, S, W, ?_, ?_⟩
      · simp [Conc.step, consStep, rd, hc2, hd]
      · refine ⟨h.read, h.write, h.len, h.acc, ?_, h.le, by omega, ?_, ?_, rfl⟩
        · have ho := h.out
          simp only at ho ⊢
          rw [ho, List.take_succ_eq_append_getElem]
        · intro j h1 h2
          exact h.data j (by omega) h2
        · simp only
          cases p with
          | idle => exact hp
          | checked y => simp only at hp ⊢; omega
          | pending i y => exact hp

theorem Inv.run {k : Nat} (hk : k ≤ 15) : ∀ (as : List (Act α)) {s : St α} {L R S W : Nat}, Inv k s L R S W →
    CarefulRun s as → ∃ s' L' R' S' W', run s as = .ok s' ∧ Inv k s' L' R' S' W'
  | [], s, L, R, S, W, h, _ => ⟨s, L, R, S, W, rfl, h⟩
  | a :: as, s, L, R, S, W, h, hc => by
    obtain ⟨s1, L1, R1, S1, W1, h1, h2⟩ := h.step hk a hc.1
    obtain ⟨s2, L2, R2, S2, W2, h3, h4⟩ := Inv.run hk as h2 (hc.2 s1 h1)
    refine ⟨s2, L2, R2, S2, W2, ?_, h4⟩
    rw [Conc.run, h1]
    exact h3

theorem inv_start {k : Nat} (items : List α) (hi : items.length = 2 ^ k) : Inv k (start items) 0 0 0 0 :=
  ⟨rfl, rfl, hi, rfl, rfl, Nat.le_refl _, Nat.zero_le _, by omega, rfl, rfl⟩

/-- **C104, partial**: in every interleaving in which no call begins at an unlucky moment (`Careful`), the items delivered are
the first ones accepted, in order, and at most the capacity is behind. Missing: the other interleavings, for which it is
false (`C104_stale_wrong`, `C104_overwritten_wrong`). -/
theorem C104_partial {k : Nat} (hk : k ≤ 15) (items : List α) (hi : items.length = 2 ^ k) (as : List (Act α))
    (hc : CarefulRun (start items) as) :
    ∃ s, run (start items) as = .ok s ∧ s.out <+: s.acc ∧ s.acc.length ≤ s.out.length + 2 ^ k := by
  obtain ⟨s, L, R, S, W, h1, h2⟩ := Inv.run hk as (inv_start items hi) hc
  refine ⟨s, h1, ?_, ?_⟩
  · rw [h2.out]
    exact List.take_prefix _ _
  · obtain ⟨b1, b2, b3⟩ := h2.bounds
    rw [h2.out, h2.acc, List.length_take, h2.acc, Nat.min_eq_left (by omega)]
    exact h2.fits

/-- **C104 is false of the code**: if a dequeue runs between the increment and the store of an enqueue into an empty queue, it
delivers the previous content of the array, and the item is lost. For every capacity, content and item. -/
theorem C104_stale_wrong {k : Nat} (items : List α) (hi : items.length = 2 ^ k) (x old : α)
    (ho : items[0]? = some old) :
    ∃ s, run (start items) [.prod x, .prod x, .cons, .cons, .cons, .prod x, .cons] = .ok s ∧
      s.acc = [x] ∧ s.out = [old] ∧ s.p = .idle ∧ s.c = .idle ∧ elementsIn s.q = 0 ∧ s.q.items = items.set 0 x := by
  have h0 := Nat.two_pow_pos k
  have hne : items.length ≠ 0 := by omega
  have hpos : 0 < items.length := by omega
  have e1 : elementsIn (init items) = 0 := by simp [elementsIn, init]
  have m0 : ∀ q : Queue α, q.items = items → mask q 0 = 0 := by
    intro q hq
    rw [mask]
    simp
  refine ⟨⟨⟨1, 1, items.set 0 x⟩, .idle, .idle, [x], [old]⟩, ?_, rfl, rfl, rfl, rfl, rfl, rfl⟩
  have m1 : mask (⟨0, 0, items⟩ : Queue α) 0 = 0 := m0 _ rfl
  have m2 : mask (⟨0, 1, items⟩ : Queue α) 0 = 0 := m0 _ rfl
  have e2 : elementsIn (⟨0, 1, items⟩ : Queue α) = 1 := rfl
  have e3 : ∀ l : List α, elementsIn (⟨1, 1, l⟩ : Queue α) = 0 := fun _ => rfl
  have e0 : ¬ elementsIn (⟨0, 0, items⟩ : Queue α) = items.length := by
    intro h
    exact hne h.symm
  simp [run, step, prodStep, consStep, start, init, e0, m1, m2, e2, e3, rd, wr, ho, hpos]
  rw [List.getElem?_eq_getElem hpos] at ho
  exact Option.some.inj ho

/-- An enqueue that is not interrupted. -/
theorem run_enqueue (q q' : Queue α) (acc out : List α) (x : α) (h : enqueue q x = .ok (q', 0)) :
    run ⟨q, .idle, .idle, acc, out⟩ [.prod x, .prod x, .prod x] = .ok ⟨q', .idle, .idle, acc ++ [x], out⟩ := by
  rw [enqueue] at h
  split at h
  · cases h
  next hf =>
    obtain ⟨items, h1, h2⟩ := Res.bind_eq_ok.1 h
    have h3 := Res.ok.inj h2
    simp only [Prod.mk.injEq, and_true] at h3
    subst h3
    simp [run, step, prodStep, hf, h1]

theorem run_append (s : St α) (as bs : List (Act α)) : run s (as ++ bs) = (run s as >>= fun s => run s bs) := by
  induction as generalizing s with
  | nil => rfl
  | cons a as ih =>
    simp only [List.cons_append, run, bind_assoc, ih]

theorem run_fill {k : Nat} (hk : k ≤ 15) : ∀ (l l0 : List α) (q : Queue α) (acc out : List α), Rep (2 ^ k) q l0 0 →
    l0.length + l.length ≤ 2 ^ k →
    ∃ q', run ⟨q, .idle, .idle, acc, out⟩ (l.flatMap fun x => [.prod x, .prod x, .prod x]) =
      .ok ⟨q', .idle, .idle, acc ++ l, out⟩ ∧ Rep (2 ^ k) q' (l0 ++ l) 0
  | [], l0, q, acc, out, h, _ => ⟨q, by simp [run], by simpa using h⟩
  | x :: l, l0, q, acc, out, h, hle => by
    rw [List.length_cons] at hle
    have h1 := enqueue_rep hk h x
    rw [if_pos (by omega)] at h1
    obtain ⟨q1, h2, h3⟩ := h1
    obtain ⟨q2, h4, h5⟩ := run_fill hk l (l0 ++ [x]) q1 (acc ++ [x]) out h3 (by simp; omega)
    refine ⟨q2, ?_, by simpa using h5⟩
    rw [List.flatMap_cons, run_append, run_enqueue q q1 acc out x h2, Res.ok_bind, h4]
    simp

/-- **C104 is false of the code**: if an enqueue runs between the increment and the read of a dequeue from a full queue, the
dequeue delivers the newest item instead of the oldest one, which is lost. For every capacity and items. -/
theorem C104_overwritten_wrong {k : Nat} (hk : k ≤ 15) (items l : List α) (hi : items.length = 2 ^ k)
    (hl : l.length = 2 ^ k) (y : α) :
    ∃ s, run (start items) (l.flatMap (fun x => [.prod x, .prod x, .prod x]) ++
        [.cons, .cons, .prod y, .prod y, .prod y, .cons]) = .ok s ∧ s.acc = l ++ [y] ∧ s.out = [y] ∧
      s.p = .idle ∧ s.c = .idle ∧ s.q.items = l.set 0 y := by
  obtain ⟨q, h1, h2⟩ := run_fill hk l [] (init items) [] [] (hi ▸ init_rep items) (by simp [hl])
  rw [List.nil_append] at h2
  have h5 : 2 ^ k ≤ 2 ^ 15 := Nat.pow_le_pow_right (by decide) hk
  have h0 := Nat.two_pow_pos k
  obtain ⟨r, w, its⟩ := q
  have hr := h2.read
  have hw := h2.write
  have hlen := h2.len
  simp only [Nat.zero_mod, Nat.zero_add, hl] at hr hw hlen
  rw [Nat.mod_eq_of_lt (by omega)] at hw
  subst hr hw
  have hits : its = l := by
    apply List.ext_getElem?
    intro i
    by_cases hlt : i < 2 ^ k
    · have := h2.get i (by omega)
      rwa [Nat.zero_add, Nat.mod_eq_of_lt hlt] at this
    · rw [List.getElem?_eq_none (by omega), List.getElem?_eq_none (by omega)]
  subst hits
  have e1 : elementsIn (⟨0, 2 ^ k, its⟩ : Queue α) ≠ 0 := by rw [elementsIn]; simp only; omega
  have e2 : elementsIn (⟨1, 2 ^ k, its⟩ : Queue α) ≠ its.length := by rw [elementsIn]; simp only; omega
  have m1 : mask (⟨0, 2 ^ k, its⟩ : Queue α) 0 = 0 := by simp [mask]
  have m2 : mask (⟨1, 2 ^ k, its⟩ : Queue α) (2 ^ k) = 0 := by
    have := mask_eq (q := (⟨1, 2 ^ k, its⟩ : Queue α)) hk hl (2 ^ k)
    rwa [Nat.mod_eq_of_lt (by omega), Nat.mod_self] at this
  have hpos : 0 < its.length := by omega
  refine ⟨⟨⟨1, (2 ^ k + 1) % 2 ^ 16, its.set 0 y⟩, .idle, .idle, its ++ [y], [y]⟩, ?_, rfl, rfl, rfl, rfl, rfl⟩
  rw [run_append, start, h1, Res.ok_bind]
  simp [run, step, prodStep, consStep, e1, e2, m1, m2, rd, wr, hpos]

/-! ## All interleavings -/

/-- What may be delivered as item `j`: the item itself; the one that is stored in its place later; or what was in its place before. -/
def Spec.Near (cap : Nat) (items acc : List α) (j : Nat) (x : α) : Prop :=
  acc[j]? = some x ∨ acc[j + cap]? = some x ∨ (if j < cap then items[j]? else acc[j - cap]?) = some x

/-- The counters of `Inv`, for all interleavings. -/
structure All (k : Nat) (init : List α) (s : St α) (L R S W : Nat) : Prop where
  read : s.q.readIdx = R % 2 ^ 16
  write : s.q.writeIdx = W % 2 ^ 16
  len : s.q.items.length = 2 ^ k
  acc : s.acc.length = W
  out : s.out.length = L
  le : R ≤ W
  fits : W ≤ R + 2 ^ k
  data : ∀ j, j < S → S ≤ j + 2 ^ k → s.q.items[j % 2 ^ k]? = s.acc[j]?
  old : ∀ j, S ≤ j → j < 2 ^ k → s.q.items[j]? = init[j]?
  near : ∀ j x, s.out[j]? = some x → Spec.Near (2 ^ k) init s.acc j x
  prod : match s.p with
    | .idle => S = W
    | .checked _ => S = W ∧ W < R + 2 ^ k
    | .pending i x => W = S + 1 ∧ i = S % 2 ^ k ∧ s.acc[S]? = some x
  cons : match s.c with
    | .idle => L = R
    | .checked => L = R ∧ R < W
    | .pending i => R = L + 1 ∧ i = L % 2 ^ k

theorem All.elementsIn {k : Nat} (hk : k ≤ 15) {init : List α} {s : St α} {L R S W : Nat} (h : All k init s L R S W) :
    elementsIn s.q = W - R := by
  have h4 := h.fits
  have h3 := h.le
  have h5 : 2 ^ k ≤ 2 ^ 15 := Nat.pow_le_pow_right (by decide) hk
  rw [Queue.elementsIn, h.read, h.write]
  omega

theorem All.step {k : Nat} (hk : k ≤ 15) {init : List α} (hinit : init.length = 2 ^ k) {s : St α} {L R S W : Nat}
    (h : All k init s L R S W) (a : Act α) : ∃ s' L' R' S' W', step s a = .ok s' ∧ All k init s' L' R' S' W' := by
  have he := h.elementsIn hk
  have h0 := Nat.two_pow_pos k
  obtain ⟨q, p, c, acc, out⟩ := s
  have hf := h.fits
  have hp := h.prod
  have hcs := h.cons
  have hl := h.len
  have hle := h.le
  have hacc := h.acc
  have hout := h.out
  simp only at he hp hcs hl hacc hout
  cases a with
  | prod x =>
    cases p with
    | idle =>
      simp only at hp
      by_cases hfull : Queue.elementsIn q = q.items.length
      · exact ⟨_, L, R, S, W, by simp [Conc.step, prodStep, hfull], h⟩
      · refine ⟨⟨q, .checked x, c, acc, out⟩, L, R, S, W, by simp [Conc.step, prodStep, hfull], ?_⟩
        exact ⟨h.read, h.write, h.len, h.acc, h.out, h.le, h.fits, h.data, h.old, h.near, ⟨hp, by rw [he, hl] at hfull; omega⟩, h.cons⟩
    | checked y =>
      simp only at hp
      have hm : mask q q.writeIdx = W % 2 ^ k := by
        have hw := h.write
        simp only at hw
        rw [hw]
        exact mask_eq hk h.len W
      refine ⟨_, L, R, S, W + 1, rfl, h.read, ?_, h.len, by simp [hacc], h.out, by omega, by omega, ?_, h.old, ?_, ?_, ?_⟩
      · have hw := h.write
        simp only at hw ⊢
        rw [hw]
        omega
      · intro j h1 h2
        simp only
        rw [List.getElem?_append_left (by omega)]
        exact h.data j h1 h2
      · intro j z hz
        have hjL : j < L := by
          have := (List.getElem?_eq_some_iff.1 hz).1
          simp only at this
          omega
        have hLW : L ≤ W := by
          revert hcs; cases c <;> simp only <;> intro hcs <;> omega
        rcases h.near j z hz with hn | hn | hn
        · exact .inl (by simp only; rw [List.getElem?_append_left (by omega)]; exact hn)
        · refine .inr (.inl ?_)
          have := (List.getElem?_eq_some_iff.1 hn).1
          simp only at this ⊢
          rw [List.getElem?_append_left this]; exact hn
        · refine .inr (.inr ?_)
          simp only at hn ⊢
          by_cases hjc : j < 2 ^ k
          · rw [if_pos hjc] at hn ⊢; exact hn
          · rw [if_neg hjc] at hn ⊢
            rw [List.getElem?_append_left (by omega)]; exact hn
      · simp only
        refine ⟨by omega, by rw [hm, hp.1], ?_⟩
        rw [hp.1, List.getElem?_append_right (by omega)]
        simp [hacc]
      · simp only
        cases c with
        | idle => exact hcs
        | checked => simp only at hcs ⊢; omega
        | pending i => exact hcs
    | pending i y =>
      simp only at hp
      obtain ⟨hp1, hp2, hp3⟩ := hp
      have hi : i < q.items.length := by
        rw [hl, hp2]
        exact Nat.mod_lt _ h0
      refine ⟨⟨{ q with items := q.items.set i y }, .idle, c, acc, out⟩, L, R, W, W, by simp [Conc.step, prodStep, wr, hi],
        h.read, h.write, by simpa using h.len, h.acc, h.out, h.le, h.fits, ?_, ?_, h.near, rfl, h.cons⟩
      · intro j h1 h2
        simp only
        rw [List.getElem?_set]
        by_cases hj : j = S
        · rw [if_pos (by rw [hp2, hj]), if_pos hi, hj]
          exact hp3.symm
        · rw [if_neg]
          · exact h.data j (by omega) (by omega)
          · rw [hp2]
            exact (mod_ne' (show j < S by omega) (by omega)).symm
      · intro j h1 h2
        simp only
        rw [List.getElem?_set_ne]
        · exact h.old j (by omega) h2
        · rw [hp2, Nat.mod_eq_of_lt (show S < 2 ^ k by omega)]; omega
  | cons =>
    cases c with
    | idle =>
      simp only at hcs
      by_cases hemp : Queue.elementsIn q = 0
      · exact ⟨_, L, R, S, W, by simp [Conc.step, consStep, hemp], h⟩
      · refine ⟨⟨q, p, .checked, acc, out⟩, L, R, S, W, by simp [Conc.step, consStep, hemp], ?_⟩
        exact ⟨h.read, h.write, h.len, h.acc, h.out, h.le, h.fits, h.data, h.old, h.near, h.prod, ⟨hcs, by rw [he] at hemp; omega⟩⟩
    | checked =>
      simp only at hcs
      have hm : mask q q.readIdx = R % 2 ^ k := by
        have hr := h.read
        simp only at hr
        rw [hr]
        exact mask_eq hk h.len R
      refine ⟨_, L, R + 1, S, W, rfl, ?_, h.write, h.len, h.acc, h.out, by omega, by omega, h.data, h.old, h.near, ?_, ?_⟩
      · have hr := h.read
        simp only at hr ⊢
        rw [hr]
        omega
      · simp only
        cases p with
        | idle => exact hp
        | checked y => simp only at hp ⊢; omega
        | pending i y => exact hp
      · simp only
        exact ⟨by omega, by rw [hm, hcs.1]⟩
    | pending i =>
      simp only at hcs
      obtain ⟨hc1, hc2⟩ := hcs
      have hi : i < q.items.length := by rw [hl, hc2]; exact Nat.mod_lt _ h0
      have hS : S ≤ W ∧ W ≤ S + 1 := by
        revert hp; cases p <;> simp only <;> intro hp <;> omega
      have hnear : Spec.Near (2 ^ k) init acc L (q.items[i]) := by
        have hg : q.items[i]? = some q.items[i] := List.getElem?_eq_getElem hi
        by_cases h1 : S ≤ L
        · refine .inr (.inr ?_)
          by_cases h2 : L < 2 ^ k
          · rw [if_pos h2, ← h.old L h1 h2]
            simp only
            rw [← hg, hc2, Nat.mod_eq_of_lt h2]
          · rw [if_neg h2, ← h.data (L - 2 ^ k) (by omega) (by omega)]
            simp only
            rw [← hg, hc2, ← Nat.mod_eq_sub_mod (by omega)]
        · by_cases h2 : S ≤ L + 2 ^ k
          · refine .inl ?_
            rw [← h.data L (by omega) h2]
            simp only
            rw [← hg, hc2]
          · refine .inr (.inl ?_)
            rw [← h.data (L + 2 ^ k) (by omega) (by omega)]
            simp only
            rw [← hg, hc2, Nat.add_mod_right]
      refine ⟨⟨q, p, .idle, acc, out ++ [q.items[i]]⟩, L + 1, R, S, W, ?_, h.read, h.write, h.len, h.acc, by simp [hout], h.le, h.fits,
        h.data, h.old, ?_, h.prod, hc1.symm⟩
      · simp [Conc.step, consStep, rd, hi]
      · intro j z hz
        simp only at hz ⊢
        by_cases hj : j < out.length
        · rw [List.getElem?_append_left hj] at hz
          exact h.near j z hz
        · rw [List.getElem?_append_right (by omega)] at hz
          by_cases hj2 : j - out.length = 0
          · rw [hj2] at hz
            simp only [List.getElem?_cons_zero, Option.some.injEq] at hz
            rw [show j = L by omega, ← hz]
            exact hnear
          · rw [List.getElem?_eq_none (by simp; omega)] at hz
            cases hz

theorem All.run {k : Nat} (hk : k ≤ 15) {init : List α} (hinit : init.length = 2 ^ k) : ∀ (as : List (Act α)) {s : St α}
    {L R S W : Nat}, All k init s L R S W → ∃ s' L' R' S' W', run s as = .ok s' ∧ All k init s' L' R' S' W'
  | [], s, L, R, S, W, h => ⟨s, L, R, S, W, rfl, h⟩
  | a :: as, s, L, R, S, W, h => by
    obtain ⟨s1, L1, R1, S1, W1, h1, h2⟩ := h.step hk hinit a
    obtain ⟨s2, L2, R2, S2, W2, h3, h4⟩ := All.run hk hinit as h2
    refine ⟨s2, L2, R2, S2, W2, ?_, h4⟩
    rw [Conc.run, h1]
    exact h3

/-- **C104, every interleaving**: nothing is accessed outside the array; no more items are delivered than accepted, at most the
capacity and one are behind, and exactly the elements counted once both calls have returned; and the `j`-th item delivered is the
`j`-th accepted, or the one that takes its place a round later, or what was in its place a round before: an unlucky moment damages
one item and shifts none. -/
theorem C104_each {k : Nat} (hk : k ≤ 15) (items : List α) (hi : items.length = 2 ^ k) (as : List (Act α)) :
    ∃ s, run (start items) as = .ok s ∧ s.out.length ≤ s.acc.length ∧ s.acc.length ≤ s.out.length + 2 ^ k + 1 ∧
      (s.p = .idle → s.c = .idle → s.acc.length = s.out.length + elementsIn s.q) ∧
      ∀ j x, s.out[j]? = some x → Spec.Near (2 ^ k) items s.acc j x := by
  obtain ⟨s, L, R, S, W, h1, h2⟩ := All.run hk hi as (s := start items) (L := 0) (R := 0) (S := 0) (W := 0)
    ⟨rfl, rfl, hi, rfl, rfl, Nat.le_refl _, Nat.zero_le _, fun j h => by omega, fun _ _ _ => rfl, fun j x h => by simp [start] at h, rfl, rfl⟩
  have hc := h2.cons
  have hle := h2.le
  have hf := h2.fits
  have hb : L ≤ R ∧ R ≤ L + 1 := by
    split at hc <;> omega
  refine ⟨s, h1, by rw [h2.out, h2.acc]; omega, by rw [h2.out, h2.acc]; omega, ?_, h2.near⟩
  intro _ hci
  rw [hci] at hc
  simp only at hc
  rw [h2.out, h2.acc, h2.elementsIn hk, hc]
  omega

-- capacity 2: a careful interleaving, and the two failures
example : run (start [0, 0]) [.prod 1, .prod 1, .prod 1, .prod 2, .cons, .prod 2, .cons, .prod 2, .cons, .cons, .cons, .cons] =
    .ok ⟨⟨2, 2, [1, 2]⟩, .idle, .idle, [1, 2], [1, 2]⟩ := by decide
example : run (start [7, 7]) [.prod 1, .prod 1, .cons, .cons, .cons, .prod 1, .cons] =
    .ok ⟨⟨1, 1, [1, 7]⟩, .idle, .idle, [1], [7]⟩ := by decide
example : run (start [0, 0]) ([1, 2].flatMap (fun x => [.prod x, .prod x, .prod x]) ++
    [.cons, .cons, .prod 3, .prod 3, .prod 3, .cons]) = .ok ⟨⟨1, 3, [3, 2]⟩, .idle, .idle, [1, 2, 3], [3]⟩ := by decide
example : CarefulRun (start [0, 0]) [.prod 1, .prod 1, .prod 1, .cons, .cons, .prod 2] := by
  simp [CarefulRun, Careful, step, prodStep, consStep, start, init, elementsIn, mask, wr]

end Gel.Queue.Conc
