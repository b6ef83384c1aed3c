import Verif.Queue.Conc

/-!
# Macro queue: the queries while both sides run (C233)

`NAME_count`, `NAME_is_empty` and `NAME_is_full` load both indices; between the two loads the contexts of `Conc` may take steps.
-/
namespace Gel.Queue.Conc

variable {α : Type u}

/-- What a query sees that loads `write_idx` in state `w` and `read_idx` in state `r` (queue.h:39-41, 75-84; the order of the loads is
unspecified). -/
def seen (w r : St α) : Queue α := { w.q with readIdx := r.q.readIdx }

/-- The items dequeued, with that of a dequeue between its increment and its read; and the items accepted and not yet dequeued. -/
def claimed (s : St α) : Nat := s.out.length + match s.c with | .pending _ => 1 | _ => 0
def waiting (s : St α) : Nat := s.acc.length - claimed s

/-- All states on the way satisfy `P`. -/
def Along (P : St α → Prop) : St α → List (Act α) → Prop
  | s, [] => P s
  | s, a :: as => P s ∧ ∃ s', step s a = .ok s' ∧ Along P s' as

/-- The steps of the side that dequeues. -/
def isCons : Act α → Bool
  | .cons => true
  | .prod _ => false

theorem all_start {k : Nat} (items : List α) (hi : items.length = 2 ^ k) : All k items (start items) 0 0 0 0 :=
  ⟨rfl, rfl, hi, rfl, rfl, Nat.le_refl _, Nat.zero_le _, fun j h => by omega, fun _ _ _ => rfl, fun j x h => by simp [start] at h, rfl, rfl⟩

theorem All.waiting {k : Nat} {init : List α} {s : St α} {L R S W : Nat} (h : All k init s L R S W) : waiting s = W - R ∧
    s.acc.length = W ∧ claimed s = R := by
  have hc := h.cons
  have ho := h.out
  have ha := h.acc
  have key : claimed s = R := by
    rw [claimed]
    split at hc <;> simp_all
  exact ⟨by rw [Conc.waiting, key, ha], ha, key⟩

/-- A state reached. -/
def Reached (items : List α) (s : St α) : Prop := ∃ as, run (start items) as = .ok s

theorem Reached.all {k : Nat} (hk : k ≤ 15) {items : List α} (hi : items.length = 2 ^ k) {s : St α} (h : Reached items s) :
    ∃ L R S W, All k items s L R S W := by
  obtain ⟨as, h⟩ := h
  obtain ⟨s', L, R, S, W, h1, h2⟩ := All.run hk hi as (all_start items hi)
  rw [h] at h1
  cases h1
  exact ⟨L, R, S, W, h2⟩

theorem Reached.run {items : List α} {s s' : St α} (h : Reached items s) {as : List (Act α)} (hr : run s as = .ok s') : Reached items s' := by
  obtain ⟨bs, h⟩ := h
  exact ⟨bs ++ as, by rw [run_append, h, Res.ok_bind, hr]⟩

/-- How the counters grow. -/
theorem grow {s s' : St α} {a : Act α} (h : step s a = .ok s') :
    s.acc.length ≤ s'.acc.length ∧ s.out.length ≤ s'.out.length ∧ (isCons a = false → s'.q.readIdx = s.q.readIdx ∧ s'.out = s.out ∧ s'.c = s.c) ∧
    (isCons a = true → s'.q.writeIdx = s.q.writeIdx ∧ s'.acc = s.acc ∧ s'.p = s.p) ∧ s'.q.items.length = s.q.items.length ∧ claimed s ≤ claimed s' := by
  cases a with
  | prod x =>
    simp only [step, prodStep] at h
    split at h
    · split at h <;> (cases h; simp_all [isCons, claimed])
    · cases h; simp_all [isCons, claimed]
    · simp only [Res.bind_eq_ok, wr] at h
      obtain ⟨items, h1, h2⟩ := h
      split at h1
      · cases h1; cases h2; simp_all [isCons, claimed]
      · cases h1
  | cons =>
    simp only [step, consStep] at h
    split at h
    · split at h <;> (cases h; simp_all [isCons, claimed])
    · cases h; simp_all [isCons, claimed]
    · simp only [Res.bind_eq_ok] at h
      obtain ⟨items, h1, h2⟩ := h
      cases h2; simp_all [isCons, claimed]

theorem grows : ∀ (as : List (Act α)) {s s' : St α}, run s as = .ok s' →
    s.acc.length ≤ s'.acc.length ∧ s.out.length ≤ s'.out.length ∧
    ((∀ a ∈ as, isCons a = false) → s'.q.readIdx = s.q.readIdx ∧ s'.out = s.out ∧ s'.c = s.c) ∧
    ((∀ a ∈ as, isCons a = true) → s'.q.writeIdx = s.q.writeIdx ∧ s'.acc = s.acc ∧ s'.p = s.p) ∧ s'.q.items.length = s.q.items.length ∧ claimed s ≤ claimed s'
  | [], s, s', h => by cases h; simp
  | a :: as, s, s', h => by
    rw [run] at h
    simp only [Res.bind_eq_ok] at h
    obtain ⟨s1, h1, h2⟩ := h
    obtain ⟨a1, a2, a3, a4, a5, a6⟩ := grow h1
    obtain ⟨b1, b2, b3, b4, b5, b6⟩ := grows as h2
    refine ⟨by omega, by omega, fun hc => ?_, fun hc => ?_, b5.trans a5, by omega⟩
    · obtain ⟨x1, x2, x3⟩ := a3 (hc a (by simp))
      obtain ⟨y1, y2, y3⟩ := b3 fun z hz => hc z (by simp [hz])
      exact ⟨y1.trans x1, y2.trans x2, y3.trans x3⟩
    · obtain ⟨x1, x2, x3⟩ := a4 (hc a (by simp))
      obtain ⟨y1, y2, y3⟩ := b4 fun z hz => hc z (by simp [hz])
      exact ⟨y1.trans x1, y2.trans x2, y3.trans x3⟩

/-! ## Queries of the two sides -/

/-- What the queries give for the indices of one state. -/
theorem atOnce {k : Nat} (hk : k ≤ 15) {items : List α} (hi : items.length = 2 ^ k) {s : St α} (h : Reached items s) :
    (isEmpty s.q = true ↔ waiting s = 0) ∧ (isFull s.q = true ↔ waiting s = 2 ^ k) ∧ waiting s ≤ 2 ^ k ∧ elementsIn s.q = waiting s ∧
    count s.q = if s.acc.length / 2 ^ 16 = (s.acc.length - waiting s) / 2 ^ 16 then waiting s else 2 ^ 64 - 2 ^ 16 + waiting s := by
  obtain ⟨L, R, S, W, ha⟩ := h.all hk hi
  obtain ⟨w1, w2, w3⟩ := ha.waiting
  have he := ha.elementsIn hk
  have hle := ha.le
  have hf := ha.fits
  have hr := ha.read
  have hw := ha.write
  have h5 : 2 ^ k ≤ 2 ^ 15 := Nat.pow_le_pow_right (by decide) hk
  refine ⟨?_, ?_, by omega, by rw [he, w1], ?_⟩
  · rw [isEmpty, beq_iff_eq, hr, hw, w1]; omega
  · rw [isFull, beq_iff_eq, he, ha.len, w1]
  · rw [count, asSize, hr, hw, w1, w2, show W - (W - R) = R by omega]
    split_ifs <;> omega

/-- **C233** (partial). In the context that dequeues, that is if it takes no step between the loads: the answers are right for the moment at
which `write_idx` is loaded, and then at least as many dequeues succeed as elements were waiting, whatever is enqueued meanwhile.
`NAME_count` is wrong after the index has wrapped (C09). -/
theorem C233_consumer_partial {k : Nat} (hk : k ≤ 15) {items : List α} (hi : items.length = 2 ^ k) {w r : St α} (hw : Reached items w)
    {as : List (Act α)} (hs : (run w as = .ok r ∨ run r as = .ok w) ∧ ∀ a ∈ as, isCons a = false) :
    (isEmpty (seen w r) = true ↔ waiting w = 0) ∧ (isFull (seen w r) = true ↔ waiting w = 2 ^ k) ∧
    (count (seen w r) = if w.acc.length / 2 ^ 16 = (w.acc.length - waiting w) / 2 ^ 16 then waiting w else 2 ^ 64 - 2 ^ 16 + waiting w) ∧
    ∀ bs s, run w bs = .ok s → w.c = .idle → s.c = .idle → s.out.length < w.out.length + waiting w → elementsIn s.q ≠ 0 := by
  have e : seen w r = w.q := by
    have : r.q.readIdx = w.q.readIdx := by
      rcases hs.1 with h | h
      · exact ((grows as h).2.2.1 hs.2).1
      · exact ((grows as h).2.2.1 hs.2).1.symm
    rw [seen, this]
  obtain ⟨h1, h2, h3, -, h4⟩ := atOnce hk hi hw
  rw [e]
  refine ⟨h1, h2, h4, fun bs s hb hci hcs hlt => ?_⟩
  have hg := grows bs hb
  obtain ⟨-, -, -, h5, -⟩ := atOnce hk hi (hw.run hb)
  rw [h5, waiting, claimed, hcs]
  rw [waiting, claimed, hci] at hlt
  simp only at hlt ⊢
  omega

/-- **C233** (partial). In the context that enqueues the same with the moment at which `read_idx` is loaded, and at least as many enqueues
succeed as there were places. Missing: other contexts, for which it is false (`C233_empty_wrong`, `C233_full_wrong`, `C233_count_wrong`). -/
theorem C233_producer_partial {k : Nat} (hk : k ≤ 15) {items : List α} (hi : items.length = 2 ^ k) {w r : St α} (hr : Reached items r)
    {as : List (Act α)} (hs : (run w as = .ok r ∨ run r as = .ok w) ∧ ∀ a ∈ as, isCons a = true) :
    (isEmpty (seen w r) = true ↔ waiting r = 0) ∧ (isFull (seen w r) = true ↔ waiting r = 2 ^ k) ∧
    (count (seen w r) = if r.acc.length / 2 ^ 16 = (r.acc.length - waiting r) / 2 ^ 16 then waiting r else 2 ^ 64 - 2 ^ 16 + waiting r) ∧
    ∀ bs s, run r bs = .ok s → s.acc.length + waiting r < r.acc.length + 2 ^ k → elementsIn s.q ≠ s.q.items.length := by
  have e : isEmpty (seen w r) = isEmpty r.q ∧ isFull (seen w r) = isFull r.q ∧ count (seen w r) = count r.q := by
    have : w.q.writeIdx = r.q.writeIdx ∧ w.q.items.length = r.q.items.length := by
      rcases hs.1 with h | h
      · exact ⟨((grows as h).2.2.2.1 hs.2).1.symm, (grows as h).2.2.2.2.1.symm⟩
      · exact ⟨((grows as h).2.2.2.1 hs.2).1, (grows as h).2.2.2.2.1⟩
    simp only [isEmpty, isFull, count, seen, elementsIn, this.1, this.2, and_self]
  obtain ⟨h1, h2, h3, -, h4⟩ := atOnce hk hi hr
  rw [e.1, e.2.1, e.2.2]
  refine ⟨h1, h2, h4, fun bs s hb hlt => ?_⟩
  have hg := grows bs hb
  obtain ⟨L, R, S, W, ha⟩ := hr.all hk hi
  obtain ⟨L', R', S', W', ha'⟩ := (hr.run hb).all hk hi
  obtain ⟨w1, w2, w3⟩ := ha.waiting
  obtain ⟨w1', w2', w3'⟩ := ha'.waiting
  have hR : R ≤ R' := by rw [← w3, ← w3']; exact hg.2.2.2.2.2
  rw [ha'.elementsIn hk, ha'.len]
  have := ha.le
  have := ha'.le
  omega

/-! ## Other contexts -/

/-- One item is enqueued and one dequeued. -/
def onePass (x : α) : List (Act α) := [.prod x, .prod x, .prod x, .cons, .cons, .cons]

def passing (x : α) : Nat → List (Act α)
  | 0 => []
  | n + 1 => onePass x ++ passing x n

/-- Between `lo` and `lo + 1` items are waiting. -/
def About (lo : Nat) (s : St α) : Prop := lo ≤ waiting s ∧ waiting s ≤ lo + 1

theorem Along.append {P : St α → Prop} {s s' : St α} : ∀ {as bs : List (Act α)}, Along P s as → run s as = .ok s' → Along P s' bs → Along P s (as ++ bs) := by
  intro as
  induction as generalizing s with
  | nil => intro bs _ h2 h3; cases h2; exact h3
  | cons a as ih =>
    intro bs h1 h2 h3
    obtain ⟨hP, s1, e1, h4⟩ := h1
    rw [run, e1, Res.ok_bind] at h2
    exact ⟨hP, s1, e1, ih h4 h2 h3⟩

theorem pass {k : Nat} (hk : k ≤ 15) {init : List α} (hinit : init.length = 2 ^ k) {s : St α} {R W lo : Nat} (h : All k init s R R W W)
    (hp : s.p = .idle) (hc : s.c = .idle) (hlo : W = R + lo) (hlt : lo < 2 ^ k) (x : α) :
    ∃ s', run s (onePass x) = .ok s' ∧ All k init s' (R + 1) (R + 1) (W + 1) (W + 1) ∧ s'.p = .idle ∧ s'.c = .idle ∧
      Along (About lo) s (onePass x) := by
  have h0 := Nat.two_pow_pos k
  have step : ∀ {s : St α} {L R S W : Nat}, All k init s L R S W → ∀ a s', step s a = .ok s' → ∃ L' R' S' W', All k init s' L' R' S' W' := by
    intro s L R S W h a s' hs
    obtain ⟨s1, L', R', S', W', h1, h2⟩ := h.step hk hinit a
    rw [hs] at h1
    cases h1
    exact ⟨L', R', S', W', h2⟩
  obtain ⟨q, p, c, acc, out⟩ := s
  simp only at hp hc
  subst hp hc
  have hl : q.items.length = 2 ^ k := h.len
  have hacc : acc.length = W := h.acc
  have hout : out.length = R := h.out
  have e1 : elementsIn q = W - R := h.elementsIn hk
  have hne : ¬ elementsIn q = q.items.length := by rw [e1, hl]; omega
  have t1 : Conc.step ⟨q, .idle, .idle, acc, out⟩ (.prod x) = .ok ⟨q, .checked x, .idle, acc, out⟩ := by
    simp only [Conc.step, prodStep, hne, if_false]
  obtain ⟨L1, R1, S1, W1, a1⟩ := step h _ _ t1
  have t2 : Conc.step ⟨q, .checked x, .idle, acc, out⟩ (.prod x) =
      .ok ⟨{ q with writeIdx := (q.writeIdx + 1) % 2 ^ 16 }, .pending (mask q q.writeIdx) x, .idle, acc ++ [x], out⟩ := rfl
  obtain ⟨L2, R2, S2, W2, a2⟩ := step a1 _ _ t2
  have hm : mask q q.writeIdx < q.items.length := by
    have hw : q.writeIdx = W % 2 ^ 16 := h.write
    rw [hw, mask_eq hk hl, hl]
    exact Nat.mod_lt _ h0
  have t3 : Conc.step ⟨{ q with writeIdx := (q.writeIdx + 1) % 2 ^ 16 }, .pending (mask q q.writeIdx) x, .idle, acc ++ [x], out⟩ (.prod x) =
      .ok ⟨{ q with writeIdx := (q.writeIdx + 1) % 2 ^ 16, items := q.items.set (mask q q.writeIdx) x }, .idle, .idle, acc ++ [x], out⟩ := by
    simp only [Conc.step, prodStep, wr, hm, if_true, Res.ok_bind, Res.pure_eq]
  obtain ⟨L3, R3, S3, W3, a3⟩ := step a2 _ _ t3
  generalize hq : ({ q with writeIdx := (q.writeIdx + 1) % 2 ^ 16, items := q.items.set (mask q q.writeIdx) x } : Queue α) = q3 at *
  have w3 : W3 = W + 1 ∧ R3 = R := by
    have := a3.waiting
    simp only [claimed, List.length_append, List.length_singleton] at this
    omega
  have e3 : ¬ elementsIn q3 = 0 := by
    have : elementsIn q3 = W3 - R3 := a3.elementsIn hk
    rw [this]; omega
  have t4 : Conc.step ⟨q3, .idle, .idle, acc ++ [x], out⟩ .cons = .ok ⟨q3, .idle, .checked, acc ++ [x], out⟩ := by
    simp only [Conc.step, consStep, e3, if_false]
  obtain ⟨L4, R4, S4, W4, a4⟩ := step a3 _ _ t4
  have t5 : Conc.step ⟨q3, .idle, .checked, acc ++ [x], out⟩ .cons =
      .ok ⟨{ q3 with readIdx := (q3.readIdx + 1) % 2 ^ 16 }, .idle, .pending (mask q3 q3.readIdx), acc ++ [x], out⟩ := rfl
  obtain ⟨L5, R5, S5, W5, a5⟩ := step a4 _ _ t5
  have l3 : q3.items.length = 2 ^ k := a3.len
  have hm3 : mask q3 q3.readIdx < q3.items.length := by
    have hr : q3.readIdx = R3 % 2 ^ 16 := a3.read
    rw [hr, mask_eq hk l3, l3]
    exact Nat.mod_lt _ h0
  have t6 : Conc.step ⟨{ q3 with readIdx := (q3.readIdx + 1) % 2 ^ 16 }, .idle, .pending (mask q3 q3.readIdx), acc ++ [x], out⟩ .cons =
      .ok ⟨{ q3 with readIdx := (q3.readIdx + 1) % 2 ^ 16 }, .idle, .idle, acc ++ [x], out ++ [q3.items[mask q3 q3.readIdx]]⟩ := by
    simp only [Conc.step, consStep, rd, List.getElem?_eq_getElem hm3, Res.ok_bind, Res.pure_eq]
  obtain ⟨L6, R6, S6, W6, a6⟩ := step a5 _ _ t6
  refine ⟨⟨{ q3 with readIdx := (q3.readIdx + 1) % 2 ^ 16 }, .idle, .idle, acc ++ [x], out ++ [q3.items[mask q3 q3.readIdx]]⟩, ?_, ?_, rfl, rfl, ?_⟩
  · simp only [onePass, run, t1, t2, t3, t4, t5, t6, Res.ok_bind]
  · have := a6.waiting
    simp only [claimed, List.length_append, List.length_singleton] at this
    have h1 : L6 = R6 := a6.cons
    have h2 : S6 = W6 := a6.prod
    rw [show R + 1 = R6 by omega, show W + 1 = W6 by omega]
    rw [h1, h2] at a6
    exact a6
  · have ab : ∀ (q : Queue α) p c (acc' out' : List α), acc'.length - (out'.length + match c with | .pending _ => 1 | _ => 0) = lo ∨
        acc'.length - (out'.length + match c with | .pending _ => 1 | _ => 0) = lo + 1 → About lo (⟨q, p, c, acc', out'⟩ : St α) := by
      intro q p c acc' out' hh
      simp only [About, waiting, claimed]
      omega
    refine ⟨ab _ _ _ _ _ (.inl ?_), _, t1, ab _ _ _ _ _ (.inl ?_), _, t2, ab _ _ _ _ _ (.inr ?_), _, t3, ab _ _ _ _ _ (.inr ?_), _, t4,
      ab _ _ _ _ _ (.inr ?_), _, t5, ab _ _ _ _ _ (.inl ?_), _, t6, ab _ _ _ _ _ (.inl ?_)⟩ <;>
      simp only [List.length_append, List.length_singleton] <;> omega

theorem passes {k : Nat} (hk : k ≤ 15) {init : List α} (hinit : init.length = 2 ^ k) {lo : Nat} (hlt : lo < 2 ^ k) (x : α) :
    ∀ (n : Nat) {s : St α} {R W : Nat}, All k init s R R W W → s.p = .idle → s.c = .idle → W = R + lo →
      ∃ s', run s (passing x n) = .ok s' ∧ All k init s' (R + n) (R + n) (W + n) (W + n) ∧ s'.p = .idle ∧ s'.c = .idle ∧
        Along (About lo) s (passing x n)
  | 0, s, R, W, h, hp, hc, hlo => by
    refine ⟨s, rfl, h, hp, hc, ?_⟩
    have := h.waiting
    show About lo s
    rw [About]; omega
  | n + 1, s, R, W, h, hp, hc, hlo => by
    obtain ⟨s1, r1, a1, p1, c1, w1⟩ := pass hk hinit h hp hc hlo hlt x
    obtain ⟨s2, r2, a2, p2, c2, w2⟩ := passes hk hinit hlt x n a1 p1 c1 (by omega)
    refine ⟨s2, by rw [passing, run_append, r1, Res.ok_bind, r2], ?_, p2, c2, w1.append r1 w2⟩
    rw [show R + (n + 1) = R + 1 + n by omega, show W + (n + 1) = W + 1 + n by omega]
    exact a2

/-- One item enqueued. -/
theorem one {k : Nat} (hk : k ≤ 15) (items : List α) (hi : items.length = 2 ^ k) (x : α) :
    ∃ s, Reached items s ∧ All k items s 0 0 1 1 ∧ s.p = .idle ∧ s.c = .idle := by
  have hr : run (start items) [.prod x, .prod x, .prod x] = .ok ⟨⟨0, 1, items.set 0 x⟩, .idle, .idle, [x], []⟩ := by
    have h0 := Nat.two_pow_pos k
    have e : ¬ elementsIn (init items) = (init items).items.length := by simp [elementsIn, init]; omega
    have t1 : Conc.step (start items) (.prod x) = .ok ⟨⟨0, 0, items⟩, .checked x, .idle, [], []⟩ := by
      show (if _ then _ else _) = _
      exact if_neg e
    have hm : mask (⟨0, 0, items⟩ : Queue α) 0 = 0 := by simp [mask]
    have t2 : Conc.step (⟨⟨0, 0, items⟩, .checked x, .idle, [], []⟩ : St α) (.prod x) = .ok ⟨⟨0, 1, items⟩, .pending 0 x, .idle, [x], []⟩ := by
      simp only [Conc.step, prodStep, hm]
      rfl
    have t3 : Conc.step (⟨⟨0, 1, items⟩, .pending 0 x, .idle, [x], []⟩ : St α) (.prod x) = .ok ⟨⟨0, 1, items.set 0 x⟩, .idle, .idle, [x], []⟩ := by
      simp only [Conc.step, prodStep, wr, hi, h0, if_true, Res.ok_bind, Res.pure_eq]
    simp only [run, t1, t2, t3, Res.ok_bind]
  have hR : Reached items ⟨⟨0, 1, items.set 0 x⟩, .idle, .idle, [x], []⟩ := ⟨_, hr⟩
  obtain ⟨L, R, S, W, ha⟩ := hR.all hk hi
  have hw := ha.waiting
  simp only [claimed, List.length_singleton, List.length_nil] at hw
  have h1 : L = R := ha.cons
  have h2 : S = W := ha.prod
  refine ⟨_, hR, ?_, rfl, rfl⟩
  rw [h1, h2, ← hw.2.1, ← hw.2.2] at ha
  exact ha

/-- **C233**, where it fails: another context that loads `write_idx` first is told that the queue is empty although one item or two are
waiting at every moment of the call. -/
theorem C233_empty_wrong {k : Nat} (hk1 : 1 ≤ k) (hk : k ≤ 15) (items : List α) (hi : items.length = 2 ^ k) (x : α) :
    ∃ w r as, Reached items w ∧ run w as = .ok r ∧ Along (About 1) w as ∧ isEmpty (seen w r) = true := by
  obtain ⟨w, h1, h2, h3, h4⟩ := one hk items hi x
  have h5 : 2 ^ 1 ≤ 2 ^ k := Nat.pow_le_pow_right (by decide) hk1
  obtain ⟨r, r1, r2, -, -, r3⟩ := passes hk hi (lo := 1) (by omega) x 1 h2 h3 h4 rfl
  refine ⟨w, r, _, h1, r1, r3, ?_⟩
  rw [isEmpty, seen, beq_iff_eq]
  simp only [h2.write, r2.read]
  decide

/-- **C233**, where it fails: another context that loads `read_idx` first is told that the queue is full although never more than one item
is waiting. -/
theorem C233_full_wrong {k : Nat} (hk : k ≤ 15) (items : List α) (hi : items.length = 2 ^ k) (x : α) :
    ∃ w r as, Reached items r ∧ run r as = .ok w ∧ Along (About 0) r as ∧ isFull (seen w r) = true := by
  obtain ⟨w, r1, r2, -, -, r3⟩ := passes hk hi (lo := 0) (Nat.two_pow_pos k) x (2 ^ k) (all_start items hi) rfl rfl rfl
  refine ⟨w, start items, _, ⟨[], rfl⟩, r1, r3, ?_⟩
  have h5 : 2 ^ k ≤ 2 ^ 15 := Nat.pow_le_pow_right (by decide) hk
  rw [isFull, seen, beq_iff_eq, elementsIn]
  simp only [(all_start items hi).read, r2.write, r2.len]
  omega

/-- **C233**, where it fails: another context that loads `write_idx` first is told a count of 2^64 - 1 although never more than one item is
waiting. -/
theorem C233_count_wrong {k : Nat} (hk : k ≤ 15) (items : List α) (hi : items.length = 2 ^ k) (x : α) :
    ∃ w r as, Reached items w ∧ run w as = .ok r ∧ Along (About 0) w as ∧ count (seen w r) = 2 ^ 64 - 1 := by
  obtain ⟨r, r1, r2, -, -, r3⟩ := passes hk hi (lo := 0) (Nat.two_pow_pos k) x 1 (all_start items hi) rfl rfl rfl
  refine ⟨start items, r, _, ⟨[], rfl⟩, r1, r3, ?_⟩
  rw [count, seen, asSize]
  simp only [(all_start items hi).write, r2.read]
  decide

/-! ## Examples: capacity 2 -/

-- in the context that dequeues: one item when `write_idx` is loaded, two at the end of the call
example : let w : St Nat := ⟨⟨0, 1, [5, 0]⟩, .idle, .idle, [5], []⟩
    let r : St Nat := ⟨⟨0, 2, [5, 6]⟩, .idle, .idle, [5, 6], []⟩
    run w [.prod 6, .prod 6, .prod 6] = .ok r ∧ isEmpty (seen w r) = false ∧ count (seen w r) = 1 ∧ waiting w = 1 ∧ waiting r = 2 := by
  decide
-- another context: an item passes between the loads
example : let w : St Nat := ⟨⟨0, 1, [5, 0]⟩, .idle, .idle, [5], []⟩
    let r : St Nat := ⟨⟨1, 2, [5, 6]⟩, .idle, .idle, [5, 6], [5]⟩
    run w (onePass 6) = .ok r ∧ isEmpty (seen w r) = true ∧ waiting w = 1 ∧ waiting r = 1 := by
  decide

end Gel.Queue.Conc
