import Verif.Queue.Props

/-!
# Macro queue: two that enqueue, or two that dequeue, one of them an interrupt handler (C221)

`NAME_enqueue` and `NAME_dequeue` as sequences of accesses to the queue, with a handler before each of them that runs to its end; the
handler does `H t` at the `t`-th point of the call. An enqueue interrupted by a dequeue, or the other way round, is C104. Every mention
of an index is a load of its own, as in code that is not optimised; an item is copied in one step.
-/
namespace Gel.Queue

variable {α : Type u}

/-- `p_queue->write_idx - p_queue->read_idx` converted to 16 bits, queue.h:44 and :57: the operands may be evaluated in any order; `first`
says that `write_idx` is loaded first. -/
def elementsInI (first : Bool) (H : Nat → Queue α → Queue α) (q : Queue α) : Nat × Queue α :=
  let q₀ := H 0 q
  let q₁ := H 1 q₀
  (if first then (((q₀.writeIdx : Int) - q₁.readIdx) % 2 ^ 16).toNat else (((q₁.writeIdx : Int) - q₀.readIdx) % 2 ^ 16).toNat, q₁)

/-- `NAME_enqueue`, queue.h:43-54. -/
def enqueueI (first : Bool) (H : Nat → Queue α → Queue α) (q : Queue α) (x : α) : Res (Queue α × Nat) :=
  let (n, q) := elementsInI first H q
  if n = q.items.length then .ok (q, 1)
  else
    let q := H 2 q
    let w := q.writeIdx
    let q := H 3 q
    let q := H 4 { q with writeIdx := (w + 1) % 2 ^ 16 }
    do
      let items ← wr q.items (mask q w) x
      pure ({ q with items := items }, 0)

/-- `NAME_dequeue` with a non-NULL pointer, queue.h:56-69. -/
def dequeueI (first : Bool) (H : Nat → Queue α → Queue α) (q : Queue α) : Res (Queue α × Nat × Option α) :=
  let (n, q) := elementsInI first H q
  if n = 0 then .ok (q, 1, none)
  else
    let q := H 2 q
    let r := q.readIdx
    let q := H 3 q
    let q := H 4 { q with readIdx := (r + 1) % 2 ^ 16 }
    do
      let x ← rd q.items (mask q r)
      pure (q, 0, some x)

/-- A handler at the point `k` only. -/
def onceAt (k : Nat) (f : Queue α → Queue α) (t : Nat) (q : Queue α) : Queue α := if t = k then f q else q

/-- A handler that enqueues `y`. -/
def enqueuer (y : α) (q : Queue α) : Queue α :=
  match enqueue q y with
  | .ok (q', _) => q'
  | _ => q

/-- A handler that dequeues. -/
def dequeuer (q : Queue α) : Queue α :=
  match dequeue q with
  | .ok (q', _) => q'
  | _ => q

/-- **C221.** Without handlers the calls are those of the first model. -/
theorem C221_quiet (first : Bool) (q : Queue α) :
    (∀ x, enqueueI first (fun _ q => q) q x = enqueue q x) ∧ dequeueI first (fun _ q => q) q = dequeue q := by
  constructor
  · intro x
    cases first <;> simp [enqueueI, elementsInI, enqueue, elementsIn, mask] <;> rfl
  · cases first <;> simp only [dequeueI, elementsInI, dequeue, elementsIn] <;> rfl

/-! ## Queues that hold too much -/

/-- The indices and the items are those of a queue that holds `l`, after `d` items have left it; there may be more than fit. -/
structure Loose (cap : Nat) (q : Queue α) (l : List α) (d : Nat) : Prop where
  read : q.readIdx = d % 2 ^ 16
  write : q.writeIdx = (d + l.length) % 2 ^ 16
  len : q.items.length = cap
  get : ∀ i, i < l.length → q.items[(d + i) % cap]? = l[i]?

theorem Rep.loose {cap : Nat} {q : Queue α} {l : List α} {d : Nat} (h : Rep cap q l d) : Loose cap q l d := ⟨h.read, h.write, h.len, h.get⟩

theorem Loose.elementsIn {cap : Nat} {q : Queue α} {l : List α} {d : Nat} (h : Loose cap q l d) (hl : l.length < 65536) :
    elementsIn q = l.length := by
  unfold Queue.elementsIn
  rw [h.read, h.write]
  omega

theorem dequeue_loose {k : Nat} (hk : k ≤ 15) {q : Queue α} {x : α} {l : List α} {d : Nat} (h : Loose (2 ^ k) q (x :: l) d)
    (hl : (x :: l).length < 65536) :
    dequeue q = .ok ((drop q).1, 0, some x) ∧ (drop q).2 = 0 ∧ Loose (2 ^ k) (drop q).1 l (d + 1) := by
  have h1 : 2 ^ k ≤ 2 ^ 15 := Nat.pow_le_pow_right (by decide) hk
  have h2 := Nat.two_pow_pos k
  have he := h.elementsIn hl
  rw [List.length_cons] at he
  have hm := mask_eq hk h.len d
  rw [← h.read] at hm
  have hg := h.get 0 (by simp)
  rw [Nat.add_zero, List.getElem?_cons_zero] at hg
  have hne : ¬ elementsIn q = 0 := by omega
  refine ⟨?_, ?_, ?_⟩
  · rw [dequeue, if_neg hne, hm, rd, hg]
    simp [drop, hne]
  · simp [drop, hne]
  · simp only [drop, hne, if_false]
    refine ⟨?_, ?_, h.len, ?_⟩
    · show (q.readIdx + 1) % 2 ^ 16 = _
      rw [h.read]; omega
    · show q.writeIdx = _
      rw [h.write, List.length_cons]
      congr 1; omega
    · intro i hi
      have := h.get (i + 1) (by simp; omega)
      rw [List.getElem?_cons_succ] at this
      rw [← this]
      congr 2; omega

/-- What such a queue delivers: all of `l`. -/
theorem drain_loose {k : Nat} (hk : k ≤ 15) : ∀ (l : List α) {q : Queue α} {d : Nat}, Loose (2 ^ k) q l d → l.length < 65536 →
    ∃ q', run q (List.replicate l.length .dequeue) = .ok (q', l.map fun x => ⟨0, some x⟩) ∧ Loose (2 ^ k) q' [] (d + l.length)
  | [], q, _, h, _ => ⟨q, rfl, h⟩
  | x :: l, _, d, h, hl => by
    obtain ⟨h1, -, h2⟩ := dequeue_loose hk h hl
    obtain ⟨q', h3, h4⟩ := drain_loose hk l h2 (by simp at hl; omega)
    refine ⟨q', ?_, by rw [List.length_cons, show d + (l.length + 1) = d + 1 + l.length by omega]; exact h4⟩
    rw [List.length_cons, List.replicate_succ, run, step, h1]
    simp [h3]

/-- Any indices are those of such a queue. -/
theorem loose_any {cap : Nat} (hc : 0 < cap) (q : Queue α) (hl : q.items.length = cap) (d m : Nat) (hr : q.readIdx = d % 2 ^ 16)
    (hw : q.writeIdx = (d + m) % 2 ^ 16) : ∃ l, l.length = m ∧ Loose cap q l d := by
  refine ⟨(List.range m).map fun i => q.items[(d + i) % cap]'(by rw [hl]; exact Nat.mod_lt _ hc), by simp, hr, by simpa using hw, hl, ?_⟩
  intro i hi
  simp only [List.length_map, List.length_range] at hi
  simp [hi]

/-! ## Two that enqueue -/

/-- What is in the queue, and what the interrupted call returns, if it held `l`, the main program enqueues `x` and the handler `y` at the
point `t`. -/
def enqueueBoth (cap : Nat) (l : List α) (x y : α) (first : Bool) (t : Nat) : List α × Nat :=
  if l.length = cap then (l, 1)
  else
    let two : Bool := decide (l.length + 1 < cap)
    let t := if first = false ∧ t = 1 then 0 else t
    match t with
    | 0 => if two then (l ++ [y, x], 0) else (l ++ [y], 1)
    | 1 | 2 => (if two then l ++ [y, x] else x :: ((l ++ [y]).tail ++ [x]), 0)
    | 3 => (l ++ [x], 0)
    | _ => (if two then l ++ [x, y] else l ++ [x], 0)

theorem enq0 (first : Bool) (f : Queue α → Queue α) (q : Queue α) (x : α) (t : Nat) (htt : t = 0 ∨ (t = 1 ∧ first = false))
    (hr : (f q).readIdx = q.readIdx) : enqueueI first (onceAt t f) q x = enqueue (f q) x := by
  rw [← (C221_quiet first (f q)).1]
  rcases htt with rfl | ⟨rfl, rfl⟩
  · simp [enqueueI, elementsInI, onceAt]
  · simp [enqueueI, elementsInI, onceAt, hr]

theorem enq12 (first : Bool) (f : Queue α → Queue α) (q : Queue α) (x : α) (t : Nat) (htt : t = 2 ∨ (t = 1 ∧ first = true))
    (hr : (f q).readIdx = q.readIdx) (hi : (f q).items.length = q.items.length) (hn : ¬ elementsIn q = q.items.length) :
    enqueueI first (onceAt t f) q x = (do
      let items ← wr (f q).items (mask (f q) (f q).writeIdx) x
      pure ({ f q with writeIdx := ((f q).writeIdx + 1) % 2 ^ 16, items := items }, 0)) := by
  rw [elementsIn] at hn
  rcases htt with rfl | ⟨rfl, rfl⟩
  · cases first <;> simp [enqueueI, elementsInI, onceAt, mask] at hn ⊢ <;>
    first | rw [if_neg hn] | exact fun h => absurd h hn
  · simp [enqueueI, elementsInI, onceAt, mask, hr, hi] at hn ⊢
    first | rw [if_neg hn] | exact fun h => absurd h hn

theorem enq3 (first : Bool) (f : Queue α → Queue α) (q : Queue α) (x : α) (hn : ¬ elementsIn q = q.items.length) :
    enqueueI first (onceAt 3 f) q x = (do
      let items ← wr (f q).items (mask (f q) q.writeIdx) x
      pure ({ f q with writeIdx := (q.writeIdx + 1) % 2 ^ 16, items := items }, 0)) := by
  rw [elementsIn] at hn
  cases first <;> simp [enqueueI, elementsInI, onceAt, mask] at hn ⊢ <;>
    first | rw [if_neg hn] | exact fun h => absurd h hn

theorem enq4 (first : Bool) (f : Queue α → Queue α) (q : Queue α) (x : α) (hn : ¬ elementsIn q = q.items.length) :
    enqueueI first (onceAt 4 f) q x = (do
      let q' := f { q with writeIdx := (q.writeIdx + 1) % 2 ^ 16 }
      let items ← wr q'.items (mask q' q.writeIdx) x
      pure ({ q' with items := items }, 0)) := by
  rw [elementsIn] at hn
  cases first <;> simp [enqueueI, elementsInI, onceAt] at hn ⊢ <;>
    first | rw [if_neg hn] | exact fun h => absurd h hn

/-- The queue with `y` enqueued. -/
def withY (cap d n : Nat) (q : Queue α) (y : α) : Queue α :=
  { q with writeIdx := (q.writeIdx + 1) % 2 ^ 16, items := q.items.set ((d + n) % cap) y }

theorem withY_rep {k : Nat} {q : Queue α} {l : List α} {d : Nat} (h : Rep (2 ^ k) q l d) (hlt : l.length < 2 ^ k) (y : α) :
    Rep (2 ^ k) (withY (2 ^ k) d l.length q y) (l ++ [y]) d := by
  have hb : (d + l.length) % 2 ^ k < 2 ^ k := Nat.mod_lt _ (Nat.two_pow_pos k)
  refine ⟨h.read, ?_, by simpa [withY] using h.len, by simp; omega, ?_⟩
  · show (q.writeIdx + 1) % 2 ^ 16 = _
    rw [h.write]; simp; omega
  · intro i hi
    rw [List.length_append, List.length_singleton] at hi
    show (q.items.set ((d + l.length) % 2 ^ k) y)[(d + i) % 2 ^ k]? = _
    rw [List.getElem?_set]
    rcases Nat.lt_or_ge i l.length with h' | h'
    · rw [if_neg (mod_ne hlt (by omega) (by omega)), h.get i h', List.getElem?_append_left h']
    · have : i = l.length := by omega
      subst this
      rw [if_pos rfl, if_pos (by rw [h.len]; exact hb)]
      simp

theorem enqueuer_room {k : Nat} (hk : k ≤ 15) {q : Queue α} {l : List α} {d : Nat} (h : Rep (2 ^ k) q l d) (hlt : l.length < 2 ^ k) (y : α) :
    enqueuer y q = withY (2 ^ k) d l.length q y := by
  have h1 : 2 ^ k ≤ 2 ^ 15 := Nat.pow_le_pow_right (by decide) hk
  have he := h.elementsIn (by omega)
  have hm := mask_eq hk h.len (d + l.length)
  rw [← h.write] at hm
  have hb : (d + l.length) % 2 ^ k < 2 ^ k := Nat.mod_lt _ (Nat.two_pow_pos k)
  rw [enqueuer, enqueue, if_neg (by rw [he, h.len]; omega), hm, wr, if_pos (by rw [h.len]; exact hb)]
  rfl

theorem enqueuer_full {k : Nat} (hk : k ≤ 15) {q : Queue α} {l : List α} {d : Nat} (h : Rep (2 ^ k) q l d) (hlt : l.length = 2 ^ k) (y : α) :
    enqueuer y q = q := by
  have := enqueue_rep hk h y
  rw [if_neg (by omega)] at this
  rw [enqueuer, this]

/-- **C221.** Two that enqueue: what becomes of every call of `NAME_enqueue` interrupted by another one, at every point. -/
theorem C221_enqueue_exact {k : Nat} (hk : k ≤ 15) {q : Queue α} {l : List α} {d : Nat} (h : Rep (2 ^ k) q l d) (x y : α) (first : Bool)
    (t : Nat) (ht : t < 5) :
    ∃ q', enqueueI first (onceAt t (enqueuer y)) q x = .ok (q', (enqueueBoth (2 ^ k) l x y first t).2) ∧
      Loose (2 ^ k) q' (enqueueBoth (2 ^ k) l x y first t).1 d := by
  have h1 : 2 ^ k ≤ 2 ^ 15 := Nat.pow_le_pow_right (by decide) hk
  have h2 := Nat.two_pow_pos k
  have he := h.elementsIn (by omega)
  have hfits := h.fits
  by_cases hf : l.length = 2 ^ k
  · have hy := enqueuer_full hk h hf y
    have hH : ∀ j, onceAt t (enqueuer y) j q = q := fun j => by rw [onceAt]; split_ifs <;> simp [hy]
    have he' : elementsIn q = q.items.length := by rw [he, h.len, hf]
    refine ⟨q, ?_, by simpa [enqueueBoth, hf] using h.loose⟩
    rw [elementsIn] at he'
    have hB : (enqueueBoth (2 ^ k) l x y first t).2 = 1 := by simp [enqueueBoth, hf]
    rw [hB, enqueueI]
    simp only [elementsInI, hH, he', ite_self, if_true]
  · have hlt : l.length < 2 ^ k := by omega
    have hn : ¬ elementsIn q = q.items.length := by rw [he, h.len]; exact hf
    have hy := enqueuer_room hk h hlt y
    have hY := withY_rep h hlt y
    have hX := withY_rep h hlt x
    have hm := mask_eq hk h.len (d + l.length)
    rw [← h.write] at hm
    have hmY := mask_eq hk hY.len (d + (l ++ [y]).length)
    rw [← hY.write] at hmY
    have hb : (d + l.length) % 2 ^ k < 2 ^ k := Nat.mod_lt _ h2
    have fin : ∀ s m r, Loose (2 ^ k) s m d → enqueueI first (onceAt t (enqueuer y)) q x = .ok (s, r) →
        enqueueBoth (2 ^ k) l x y first t = (m, r) →
        ∃ q', enqueueI first (onceAt t (enqueuer y)) q x = .ok (q', (enqueueBoth (2 ^ k) l x y first t).2) ∧
          Loose (2 ^ k) q' (enqueueBoth (2 ^ k) l x y first t).1 d := by
      intro s m r h3 h4 h5
      exact ⟨s, by rw [h5]; exact h4, by rw [h5]; exact h3⟩
    have key : (t = 0 ∨ (t = 1 ∧ first = false)) ∨ (t = 2 ∨ (t = 1 ∧ first = true)) ∨ t = 3 ∨ t = 4 := by
      cases first <;> simp <;> omega
    have hlen : (l ++ [y]).length = l.length + 1 := by simp
    rcases key with key | key | rfl | rfl
    · have hq := enqueue_rep hk hY x
      rw [hlen] at hq
      by_cases two : l.length + 1 < 2 ^ k
      · rw [if_pos two] at hq
        obtain ⟨q', hq1, hq2⟩ := hq
        refine fin q' (l ++ [y, x]) 0 (by simpa using hq2.loose) (by rw [enq0 first _ _ _ t key (by rw [hy]; rfl), hy, hq1]) ?_
        rcases key with rfl | ⟨rfl, rfl⟩ <;> simp [enqueueBoth, hf, two]
      · rw [if_neg two] at hq
        refine fin _ (l ++ [y]) 1 hY.loose (by rw [enq0 first _ _ _ t key (by rw [hy]; rfl), hy, hq]) ?_
        rcases key with rfl | ⟨rfl, rfl⟩ <;> simp [enqueueBoth, hf, two]
    · have hE := enq12 first (enqueuer y) q x t key (by rw [hy]; rfl) (by rw [hy]; simp [withY]) hn
      have hlY : (d + (l ++ [y]).length) % 2 ^ k < (withY (2 ^ k) d l.length q y).items.length := by
        rw [hY.len]; exact Nat.mod_lt _ h2
      rw [hy, hmY, wr, if_pos hlY] at hE
      by_cases two : l.length + 1 < 2 ^ k
      · refine fin _ (l ++ [y, x]) 0 ?_ hE ?_
        · have := withY_rep hY (by rw [hlen]; exact two) x
          simpa [withY] using this.loose
        · rcases key with rfl | ⟨rfl, rfl⟩ <;> simp [enqueueBoth, hf, two]
      · have hcap : l.length + 1 = 2 ^ k := by omega
        refine fin _ (x :: ((l ++ [y]).tail ++ [x])) 0 ?_ hE ?_
        · have hlt2 : (x :: ((l ++ [y]).tail ++ [x])).length = 2 ^ k + 1 := by simp [hcap]; omega
          refine ⟨hY.read, ?_, by simpa using hY.len, ?_⟩
          · show ((withY (2 ^ k) d l.length q y).writeIdx + 1) % 2 ^ 16 = _
            rw [hY.write, hlt2, hlen, hcap]
            omega
          · intro i hi
            rw [hlt2] at hi
            show ((withY (2 ^ k) d l.length q y).items.set ((d + (l ++ [y]).length) % 2 ^ k) x)[(d + i) % 2 ^ k]? = _
            have h0 : (d + (l ++ [y]).length) % 2 ^ k = d % 2 ^ k := by rw [hlen, hcap, Nat.add_mod_right]
            rw [h0] at hlY ⊢
            rw [List.getElem?_set]
            rcases Nat.eq_zero_or_pos i with rfl | hi0
            · rw [Nat.add_zero, if_pos rfl, if_pos hlY]
              rfl
            · rcases Nat.lt_or_ge i (2 ^ k) with hi1 | hi1
              · rw [if_neg (by simpa using mod_ne (d := d) (i := 0) (j := i) h2 hi1 (by omega)), hY.get i (by rw [hlen]; omega)]
                obtain ⟨j, rfl⟩ : ∃ j, i = j + 1 := ⟨i - 1, by omega⟩
                rw [List.getElem?_cons_succ, List.getElem?_append_left (l₁ := (l ++ [y]).tail) (by simp; omega), List.getElem?_tail]
              · have : i = 2 ^ k := by omega
                subst this
                rw [Nat.add_mod_right, if_pos rfl, if_pos hlY]
                rw [← hcap, List.getElem?_cons_succ, List.getElem?_append_right (by simp)]
                simp
        · rcases key with rfl | ⟨rfl, rfl⟩ <;> simp [enqueueBoth, hf, two]
    · have hE := enq3 first (enqueuer y) q x hn
      have hm' : mask (withY (2 ^ k) d l.length q y) q.writeIdx = (d + l.length) % 2 ^ k := by
        rw [← hm]; simp [mask, withY]
      rw [hy, hm', wr, if_pos (by rw [hY.len]; exact hb)] at hE
      refine fin _ (l ++ [x]) 0 hX.loose (hE.trans ?_) (by simp [enqueueBoth, hf])
      simp [withY]
    · have hE := enq4 first (enqueuer y) q x hn
      obtain ⟨g, hg⟩ : ∃ g, q.items.set ((d + l.length) % 2 ^ k) g = q.items := ⟨_, List.set_getElem_self (by rw [h.len]; exact hb)⟩
      have hq2 : Rep (2 ^ k) { q with writeIdx := (q.writeIdx + 1) % 2 ^ 16 } (l ++ [g]) d := by
        have := withY_rep h hlt g
        rwa [withY, hg] at this
      have hlen' : (l ++ [g]).length = l.length + 1 := by simp
      by_cases two : l.length + 1 < 2 ^ k
      · rw [enqueuer_room hk hq2 (by rw [hlen']; exact two)] at hE
        have hm' : ∀ n, mask (withY (2 ^ k) d n { q with writeIdx := (q.writeIdx + 1) % 2 ^ 16 } y) q.writeIdx = (d + l.length) % 2 ^ k := by
          intro n; rw [← hm]; simp [mask, withY]
        have hl' : ∀ n, (withY (2 ^ k) d n { q with writeIdx := (q.writeIdx + 1) % 2 ^ 16 } y).items.length = 2 ^ k := by
          intro n; simp [withY, h.len]
        simp only [hm', wr, hl', hb, if_true, Res.ok_bind] at hE
        have hXY := withY_rep hX (by simpa using two) y
        refine fin _ (l ++ [x, y]) 0 (by simpa using hXY.loose) (hE.trans ?_) (by simp [enqueueBoth, hf, two])
        simp only [withY, Res.pure_eq, hlen', List.length_append, List.length_singleton]
        rw [List.set_comm _ _ (mod_ne (d := d) (i := l.length + 1) (j := l.length) two hlt (by omega))]
      · rw [enqueuer_full hk hq2 (by rw [hlen']; omega)] at hE
        have hm' : mask { q with writeIdx := (q.writeIdx + 1) % 2 ^ 16 } q.writeIdx = (d + l.length) % 2 ^ k := by
          rw [← hm]; simp [mask]
        simp only [hm', wr, h.len, hb, if_true, Res.ok_bind] at hE
        refine fin _ (l ++ [x]) 0 hX.loose hE (by simp [enqueueBoth, hf, two])

/-- **C221.** The handler finds what was in the queue before the call, or, before the store of the item, one item more. -/
theorem C221_enqueue_seen {k : Nat} (hk : k ≤ 15) {q : Queue α} {l : List α} {d : Nat} (h : Rep (2 ^ k) q l d) (x : α) (first : Bool)
    (t : Nat) (ht : t < 5) (f : Queue α → Queue α) :
    ∃ s, enqueueI first (onceAt t f) q x = enqueueI first (onceAt t fun _ => f s) q x ∧
      (t < 4 ∨ l.length = 2 ^ k → Rep (2 ^ k) s l d) ∧ (t = 4 → l.length < 2 ^ k → ∃ g, Rep (2 ^ k) s (l ++ [g]) d) := by
  by_cases h4 : t < 4
  · refine ⟨q, ?_, fun _ => h, by omega⟩
    have : t = 0 ∨ t = 1 ∨ t = 2 ∨ t = 3 := by omega
    rcases this with rfl | rfl | rfl | rfl <;> cases first <;> simp [enqueueI, elementsInI, onceAt]
  · have : t = 4 := by omega
    subst this
    by_cases hf : l.length = 2 ^ k
    · have h1 : 2 ^ k ≤ 2 ^ 15 := Nat.pow_le_pow_right (by decide) hk
      have he : elementsIn q = q.items.length := by rw [h.elementsIn (by omega), h.len, hf]
      rw [elementsIn] at he
      refine ⟨q, ?_, fun _ => h, by omega⟩
      cases first <;> simp [enqueueI, elementsInI, onceAt] at he ⊢ <;> simp [he]
    · refine ⟨{ q with writeIdx := (q.writeIdx + 1) % 2 ^ 16 }, ?_, by omega, ?_⟩
      · cases first <;> simp [enqueueI, elementsInI, onceAt]
      · intro _ hlt
        obtain ⟨g, hg⟩ : ∃ g, q.items.set ((d + l.length) % 2 ^ k) g = q.items :=
          ⟨_, List.set_getElem_self (by rw [h.len]; exact Nat.mod_lt _ (Nat.two_pow_pos k))⟩
        have := withY_rep h hlt g
        rw [withY, hg] at this
        exact ⟨g, this⟩

/-- **C221.** Two that enqueue, as far as the property holds: the handler comes first (before the check, or before the increment when there
was room for two), or last (after the increment); or the queue was full. -/
theorem C221_enqueue_partial {k : Nat} (hk : k ≤ 15) {q : Queue α} {l : List α} {d : Nat} (h : Rep (2 ^ k) q l d) (x y : α) (first : Bool)
    (t : Nat) (ht : t < 5) (hok : t = 0 ∨ t = 4 ∨ (t ≤ 2 ∧ l.length + 1 < 2 ^ k) ∨ l.length = 2 ^ k) :
    ∃ q' o, (∃ r, enqueueI first (onceAt t (enqueuer y)) q x = .ok (q', r) ∧ (o : Obs α).ret = r) ∧
      ((t ≠ 4 ∧ (Loose (2 ^ k) q' (Spec.step (2 ^ k) (Spec.step (2 ^ k) l (.enqueue y)).1 (.enqueue x)).1 d ∧
        o = (Spec.step (2 ^ k) (Spec.step (2 ^ k) l (.enqueue y)).1 (.enqueue x)).2)) ∨
      (t = 4 ∧ (Loose (2 ^ k) q' (Spec.step (2 ^ k) (Spec.step (2 ^ k) l (.enqueue x)).1 (.enqueue y)).1 d ∧
        o = (Spec.step (2 ^ k) l (.enqueue x)).2))) := by
  obtain ⟨q', h1, h2⟩ := C221_enqueue_exact hk h x y first t ht
  refine ⟨q', ⟨(enqueueBoth (2 ^ k) l x y first t).2, none⟩, ⟨_, h1, rfl⟩, ?_⟩
  have hfits := h.fits
  by_cases hf : l.length = 2 ^ k
  · simp only [enqueueBoth, hf, if_true] at h2
    by_cases h4 : t = 4 <;> simp [enqueueBoth, Spec.step, hf, h4, h2]
  · have hlt : l.length < 2 ^ k := by omega
    have ht' : t = 0 ∨ t = 4 ∨ (t = 1 ∧ l.length + 1 < 2 ^ k) ∨ (t = 2 ∧ l.length + 1 < 2 ^ k) := by omega
    rcases ht' with rfl | rfl | ⟨rfl, two⟩ | ⟨rfl, two⟩
    · left
      by_cases two : l.length + 1 < 2 ^ k <;> simp [enqueueBoth, Spec.step, hf, hlt, two] at h2 ⊢ <;> exact h2
    · right
      by_cases two : l.length + 1 < 2 ^ k <;> simp [enqueueBoth, Spec.step, hf, hlt, two] at h2 ⊢ <;> exact h2
    · left
      cases first <;> simp [enqueueBoth, Spec.step, hf, hlt, two] at h2 ⊢ <;> exact h2
    · left
      simp [enqueueBoth, Spec.step, hf, hlt, two] at h2 ⊢
      exact h2

/-- **C221** is false: with the handler between the load and the store of `write_idx` its item is lost, though both calls succeed. -/
theorem C221_lost_wrong {k : Nat} (hk : k ≤ 15) {q : Queue α} {l : List α} {d : Nat} (h : Rep (2 ^ k) q l d) (x y : α) (first : Bool)
    (hr : l.length < 2 ^ k) : ∃ q', enqueueI first (onceAt 3 (enqueuer y)) q x = .ok (q', 0) ∧ Rep (2 ^ k) q' (l ++ [x]) d := by
  obtain ⟨q', h1, h2⟩ := C221_enqueue_exact hk h x y first 3 (by omega)
  have hf : ¬ l.length = 2 ^ k := by omega
  simp only [enqueueBoth, hf] at h1 h2
  replace h2 : Loose (2 ^ k) q' (l ++ [x]) d := by simpa using h2
  exact ⟨q', by simpa using h1, ⟨h2.read, h2.write, h2.len, by simp; omega, h2.get⟩⟩

/-- **C221** is false: with room for one item, and the handler between the check and the increment, one item too many is in the queue: the
oldest is lost, the new one is delivered twice, first of all and last of all, and the queue does not count as full any more. -/
theorem C221_overfull_wrong {k : Nat} (hk : k ≤ 15) {q : Queue α} {l : List α} {d : Nat} (h : Rep (2 ^ k) q l d) (x y : α) (first : Bool)
    (hr : l.length + 1 = 2 ^ k) :
    ∃ q', enqueueI first (onceAt 2 (enqueuer y)) q x = .ok (q', 0) ∧ isFull q' = false ∧
      ∃ q'', run q' (List.replicate (2 ^ k + 1) .dequeue) = .ok (q'', (x :: ((l ++ [y]).tail ++ [x])).map fun x => ⟨0, some x⟩) := by
  have hk' : 2 ^ k ≤ 2 ^ 15 := Nat.pow_le_pow_right (by decide) hk
  obtain ⟨q', h1, h2⟩ := C221_enqueue_exact hk h x y first 2 (by omega)
  have hf : ¬ l.length = 2 ^ k := by omega
  simp only [enqueueBoth, hf, hr] at h1 h2
  have h3 : Loose (2 ^ k) q' (x :: ((l ++ [y]).tail ++ [x])) d := by simpa using h2
  have hl : (x :: ((l ++ [y]).tail ++ [x])).length = 2 ^ k + 1 := by simp; omega
  refine ⟨q', by simpa using h1, ?_, ?_⟩
  · rw [isFull, h3.elementsIn (by omega), hl, h3.len, beq_eq_false_iff_ne]
    omega
  · obtain ⟨q'', h4, -⟩ := drain_loose hk _ h3 (by omega)
    rw [hl] at h4
    exact ⟨q'', h4⟩

/-- A queue of two that holds 1: 1 is lost, and 3, 9, 3 are delivered. -/
example : (do
    let (q, _) ← enqueueI true (onceAt 2 (enqueuer 9)) ⟨0, 1, [1, 0]⟩ 3
    run q [.dequeue, .dequeue, .dequeue, .dequeue]) =
    .ok (⟨3, 3, [3, 9]⟩, [⟨0, some 3⟩, ⟨0, some 9⟩, ⟨0, some 3⟩, ⟨1, none⟩]) := by decide

/-! ## Two that dequeue -/

/-- What a call of `NAME_dequeue` interrupted by another one returns, and what is left in the queue (`none`: `read_idx` has overtaken
`write_idx`, and the queue seems to hold 65535 items), if it held `l` and `g` is in the slot after the next one. -/
def dequeueBoth (l : List α) (g : α) (first : Bool) (t : Nat) : Option α × Option (List α) :=
  match l with
  | [] => (none, some [])
  | a :: r =>
    let t := if first = true ∧ t = 1 then 0 else t
    match t with
    | 0 => (r.head?, some r.tail)
    | 1 | 2 => (some (r.head?.getD g), if r = [] then none else some r.tail)
    | 3 => (some a, some r)
    | _ => (some a, some r.tail)

theorem once_same (k : Nat) (f : Queue α → Queue α) (q : Queue α) : onceAt k f k q = f q := by simp [onceAt]

theorem once_other {k t : Nat} (f : Queue α → Queue α) (q : Queue α) (h : t ≠ k) : onceAt k f t q = q := by simp [onceAt, h]

theorem deq0 (first : Bool) (f : Queue α → Queue α) (q : Queue α) (t : Nat) (htt : t = 0 ∨ (t = 1 ∧ first = true))
    (hr : (f q).writeIdx = q.writeIdx) : dequeueI first (onceAt t f) q = dequeue (f q) := by
  rw [← (C221_quiet first (f q)).2]
  rcases htt with rfl | ⟨rfl, rfl⟩
  · simp [dequeueI, elementsInI, onceAt]
  · simp [dequeueI, elementsInI, onceAt, hr]

theorem deq12 (first : Bool) (f : Queue α → Queue α) (q : Queue α) (t : Nat) (htt : t = 2 ∨ (t = 1 ∧ first = false))
    (hr : (f q).writeIdx = q.writeIdx) (hn : ¬ elementsIn q = 0) :
    dequeueI first (onceAt t f) q = (do
      let x ← rd (f q).items (mask (f q) (f q).readIdx)
      pure ({ f q with readIdx := ((f q).readIdx + 1) % 2 ^ 16 }, 0, some x)) := by
  rw [elementsIn] at hn
  rcases htt with rfl | ⟨rfl, rfl⟩
  · cases first <;> simp only [dequeueI, elementsInI, once_same, once_other f q (by decide : 0 ≠ 2), once_other f q (by decide : 1 ≠ 2),
      once_other f (f q) (by decide : 3 ≠ 2), once_other f _ (by decide : 4 ≠ 2), ite_self, hn] <;> rfl
  · simp only [dequeueI, elementsInI, once_same, once_other f q (by decide : 0 ≠ 1), once_other f _ (by decide : 2 ≠ 1),
      once_other f _ (by decide : 3 ≠ 1), once_other f _ (by decide : 4 ≠ 1), Bool.false_eq_true, if_false, hr, hn]
    rfl

theorem deq3 (first : Bool) (f : Queue α → Queue α) (q : Queue α) (hn : ¬ elementsIn q = 0) :
    dequeueI first (onceAt 3 f) q = (do
      let x ← rd (f q).items (mask (f q) q.readIdx)
      pure ({ f q with readIdx := (q.readIdx + 1) % 2 ^ 16 }, 0, some x)) := by
  rw [elementsIn] at hn
  cases first <;> simp only [dequeueI, elementsInI, once_same, once_other f q (by decide : 0 ≠ 3), once_other f q (by decide : 1 ≠ 3),
    once_other f q (by decide : 2 ≠ 3), once_other f _ (by decide : 4 ≠ 3), ite_self, hn] <;> rfl

theorem deq4 (first : Bool) (f : Queue α → Queue α) (q : Queue α) (hn : ¬ elementsIn q = 0) :
    dequeueI first (onceAt 4 f) q = (do
      let q' := f { q with readIdx := (q.readIdx + 1) % 2 ^ 16 }
      let x ← rd q'.items (mask q' q.readIdx)
      pure (q', 0, some x)) := by
  rw [elementsIn] at hn
  cases first <;> simp only [dequeueI, elementsInI, once_same, once_other f q (by decide : 0 ≠ 4), once_other f q (by decide : 1 ≠ 4),
    once_other f q (by decide : 2 ≠ 4), once_other f q (by decide : 3 ≠ 4), ite_self, hn] <;> rfl

theorem dequeuer_some {k : Nat} (hk : k ≤ 15) {q : Queue α} {a : α} {r : List α} {d : Nat} (h : Rep (2 ^ k) q (a :: r) d) :
    dequeuer q = { q with readIdx := (q.readIdx + 1) % 2 ^ 16 } := by
  have h1 : 2 ^ k ≤ 2 ^ 15 := Nat.pow_le_pow_right (by decide) hk
  have he := h.elementsIn (by omega)
  rw [List.length_cons] at he
  rw [dequeuer, (dequeue_rep hk h).1]
  simp [drop, he]

/-- **C221.** Two that dequeue: what becomes of every call of `NAME_dequeue` interrupted by another one, at every point. -/
theorem C221_dequeue_exact {k : Nat} (hk : k ≤ 15) {q : Queue α} {l : List α} {d : Nat} (h : Rep (2 ^ k) q l d) (g : α)
    (hg : q.items[(d + 1) % 2 ^ k]? = some g) (first : Bool) (t : Nat) (ht : t < 5) :
    ∃ q' d', dequeueI first (onceAt t dequeuer) q = .ok (q', if (dequeueBoth l g first t).1.isSome then 0 else 1, (dequeueBoth l g first t).1) ∧
      match (dequeueBoth l g first t).2 with
      | some m => Rep (2 ^ k) q' m d'
      | none => ∃ m, m.length = 65535 ∧ Loose (2 ^ k) q' m d' := by
  have h1 : 2 ^ k ≤ 2 ^ 15 := Nat.pow_le_pow_right (by decide) hk
  have h2 := Nat.two_pow_pos k
  have he := h.elementsIn (by omega)
  cases l with
  | nil =>
    have hy : dequeuer q = q := by rw [dequeuer, (empty_rep hk h).1]
    have hH : ∀ j, onceAt t dequeuer j q = q := fun j => by rw [onceAt]; split_ifs <;> simp [hy]
    refine ⟨q, d, ?_, h⟩
    rw [List.length_nil, elementsIn] at he
    rw [dequeueI]
    simp only [elementsInI, hH, he, ite_self, if_true]
    simp [dequeueBoth]
  | cons a r =>
    rw [List.length_cons] at he
    have hn : ¬ elementsIn q = 0 := by omega
    have hy := dequeuer_some hk h
    have hP : Rep (2 ^ k) { q with readIdx := (q.readIdx + 1) % 2 ^ 16 } r (d + 1) := by
      have := (dequeue_rep hk h).2.2
      simpa [drop, hn] using this
    have hm : ∀ q' : Queue α, q'.items = q.items → mask q' q.readIdx = d % 2 ^ k := by
      intro q' hq'
      rw [h.read, mask_eq hk (by rw [hq', h.len])]
    have ha : q.items[d % 2 ^ k]? = some a := by simpa using h.get 0 (by simp)
    have hgr : r.head?.getD g = g := by
      cases r with
      | nil => rfl
      | cons b r =>
        have := h.get 1 (by simp)
        rw [hg] at this
        simpa using this.symm
    have key : (t = 0 ∨ (t = 1 ∧ first = true)) ∨ (t = 2 ∨ (t = 1 ∧ first = false)) ∨ t = 3 ∨ t = 4 := by
      cases first <;> simp <;> omega
    rcases key with key | key | rfl | rfl
    · have hB : dequeueBoth (a :: r) g first t = (r.head?, some r.tail) := by rcases key with rfl | ⟨rfl, rfl⟩ <;> simp [dequeueBoth]
      rw [deq0 first dequeuer q t key (by rw [hy]), hy, hB]
      cases r with
      | nil => exact ⟨_, _, (empty_rep hk hP).1, hP⟩
      | cons b r => exact ⟨_, _, (dequeue_rep hk hP).1, (dequeue_rep hk hP).2.2⟩
    · have hB : dequeueBoth (a :: r) g first t = (some g, if r = [] then none else some r.tail) := by
        rcases key with rfl | ⟨rfl, rfl⟩ <;> simp [dequeueBoth, hgr]
      have hm' : mask { q with readIdx := (q.readIdx + 1) % 2 ^ 16 } ((q.readIdx + 1) % 2 ^ 16) = (d + 1) % 2 ^ k := by
        have e : (q.readIdx + 1) % 2 ^ 16 = (d + 1) % 2 ^ 16 := by rw [h.read]; omega
        exact (congrArg (mask _) e).trans (mask_eq hk (by exact h.len) _)
      rw [deq12 first dequeuer q t key (by rw [hy]) hn, hy, hB]
      simp only [hm', rd, hg, Res.ok_bind, Res.pure_eq]
      refine ⟨_, d + 1 + 1, rfl, ?_⟩
      by_cases hr : r = []
      · subst hr
        simp only [if_true]
        refine loose_any h2 ⟨((q.readIdx + 1) % 2 ^ 16 + 1) % 2 ^ 16, q.writeIdx, q.items⟩ h.len (d + 1 + 1) 65535 ?_ ?_
        · show ((q.readIdx + 1) % 2 ^ 16 + 1) % 2 ^ 16 = _
          rw [h.read]; omega
        · show q.writeIdx = _
          rw [h.write]; simp; omega
      · simp only [hr, if_false]
        obtain ⟨b, r, rfl⟩ := List.exists_cons_of_ne_nil hr
        have := (dequeue_rep hk hP).2.2
        have hn' : ¬ elementsIn { q with readIdx := (q.readIdx + 1) % 2 ^ 16 } = 0 := by
          rw [hP.elementsIn (by omega)]; simp
        simp only [drop, hn', if_false] at this
        exact this
    · have hB : dequeueBoth (a :: r) g first 3 = (some a, some r) := by simp [dequeueBoth]
      rw [deq3 first dequeuer q hn, hy, hB]
      simp only [hm ⟨(q.readIdx + 1) % 2 ^ 16, q.writeIdx, q.items⟩ rfl, rd, ha, Res.ok_bind, Res.pure_eq]
      exact ⟨_, _, rfl, hP⟩
    · have hB : dequeueBoth (a :: r) g first 4 = (some a, some r.tail) := by simp [dequeueBoth]
      rw [deq4 first dequeuer q hn, hB]
      cases r with
      | nil =>
        have hz : dequeuer { q with readIdx := (q.readIdx + 1) % 2 ^ 16 } = { q with readIdx := (q.readIdx + 1) % 2 ^ 16 } := by
          rw [dequeuer, (empty_rep hk hP).1]
        simp only [hz, hm ⟨(q.readIdx + 1) % 2 ^ 16, q.writeIdx, q.items⟩ rfl, rd, ha, Res.ok_bind, Res.pure_eq]
        exact ⟨_, _, rfl, hP⟩
      | cons b r =>
        have hz := dequeuer_some hk hP
        have hQ := (dequeue_rep hk hP).2.2
        have hn' : ¬ elementsIn { q with readIdx := (q.readIdx + 1) % 2 ^ 16 } = 0 := by
          rw [hP.elementsIn (by omega)]; simp
        simp only [drop, hn', if_false] at hQ
        simp only [hz, hm ⟨((q.readIdx + 1) % 2 ^ 16 + 1) % 2 ^ 16, q.writeIdx, q.items⟩ rfl, rd, ha, Res.ok_bind, Res.pure_eq]
        exact ⟨_, _, rfl, hQ⟩

/-- **C221.** The handler finds what was in the queue before the call, or, after the increment of `read_idx`, one item less. -/
theorem C221_dequeue_seen (q : Queue α) (first : Bool) (t : Nat) (ht : t < 5) (f : Queue α → Queue α) :
    dequeueI first (onceAt t f) q =
      dequeueI first (onceAt t fun _ => f (if t = 4 ∧ elementsIn q ≠ 0 then { q with readIdx := (q.readIdx + 1) % 2 ^ 16 } else q)) q := by
  have : t = 0 ∨ t = 1 ∨ t = 2 ∨ t = 3 ∨ t = 4 := by omega
  rcases this with rfl | rfl | rfl | rfl | rfl
  · cases first <;> simp [dequeueI, elementsInI, onceAt]
  · cases first <;> simp [dequeueI, elementsInI, onceAt]
  · cases first <;> simp [dequeueI, elementsInI, onceAt]
  · cases first <;> simp [dequeueI, elementsInI, onceAt]
  · by_cases hn : elementsIn q = 0
    · have hn' := hn
      rw [elementsIn] at hn'
      cases first <;> simp only [dequeueI, elementsInI, once_other _ q (by decide : 0 ≠ 4), once_other _ q (by decide : 1 ≠ 4), hn', ite_self,
        if_true]
    · rw [deq4 first _ q hn, deq4 first _ q hn]
      simp [hn]

/-- **C221.** Two that dequeue, as far as the property holds: the handler comes first (before the check, or before the increment when there
were two items), or last (after the increment); or the queue was empty. -/
theorem C221_dequeue_partial {k : Nat} (hk : k ≤ 15) {q : Queue α} {l : List α} {d : Nat} (h : Rep (2 ^ k) q l d) (first : Bool)
    (t : Nat) (ht : t < 5) (hok : t = 0 ∨ t = 4 ∨ (t ≤ 2 ∧ 2 ≤ l.length) ∨ l = []) :
    ∃ q' d' r o, dequeueI first (onceAt t dequeuer) q = .ok (q', r, o) ∧ Rep (2 ^ k) q' (l.drop 2) d' ∧
      (⟨r, o⟩ : Obs α) = if t = 4 then (Spec.step (2 ^ k) l .dequeue).2 else (Spec.step (2 ^ k) (Spec.step (2 ^ k) l .dequeue).1 .dequeue).2 := by
  obtain ⟨g, hg⟩ : ∃ g, q.items[(d + 1) % 2 ^ k]? = some g :=
    ⟨_, List.getElem?_eq_getElem (by rw [h.len]; exact Nat.mod_lt _ (Nat.two_pow_pos k))⟩
  obtain ⟨q', d', h1, h2⟩ := C221_dequeue_exact hk h g hg first t ht
  refine ⟨q', d', _, _, h1, ?_, ?_⟩
  · rcases l with _ | ⟨a, _ | ⟨b, r⟩⟩
    · simpa [dequeueBoth] using h2
    · have : t = 0 ∨ t = 4 := by simpa using hok
      rcases this with rfl | rfl <;> simpa [dequeueBoth] using h2
    · have : t = 0 ∨ t = 1 ∨ t = 2 ∨ t = 4 := by simp at hok; omega
      rcases this with rfl | rfl | rfl | rfl <;> cases first <;> simpa [dequeueBoth] using h2
  · rcases l with _ | ⟨a, _ | ⟨b, r⟩⟩
    · simp [dequeueBoth, Spec.step]
    · have : t = 0 ∨ t = 4 := by simpa using hok
      rcases this with rfl | rfl <;> simp [dequeueBoth, Spec.step]
    · have : t = 0 ∨ t = 1 ∨ t = 2 ∨ t = 4 := by simp at hok; omega
      rcases this with rfl | rfl | rfl | rfl <;> cases first <;> simp [dequeueBoth, Spec.step]

/-- **C221** is false: with the handler between the load and the store of `read_idx` both get the same item. -/
theorem C221_same_wrong {k : Nat} (hk : k ≤ 15) {q : Queue α} {a : α} {r : List α} {d : Nat} (h : Rep (2 ^ k) q (a :: r) d) (first : Bool) :
    ∃ q' d', dequeueI first (onceAt 3 dequeuer) q = .ok (q', 0, some a) ∧ Rep (2 ^ k) q' r d' := by
  obtain ⟨g, hg⟩ : ∃ g, q.items[(d + 1) % 2 ^ k]? = some g :=
    ⟨_, List.getElem?_eq_getElem (by rw [h.len]; exact Nat.mod_lt _ (Nat.two_pow_pos k))⟩
  obtain ⟨q', d', h1, h2⟩ := C221_dequeue_exact hk h g hg first 3 (by omega)
  exact ⟨q', d', by simpa [dequeueBoth] using h1, by simpa [dequeueBoth] using h2⟩

/-- **C221** is false: with one item in the queue, and the handler between the check and the increment, the queue, which should be empty,
then delivers 65535 items. -/
theorem C221_endless_wrong {k : Nat} (hk : k ≤ 15) {q : Queue α} {a : α} {d : Nat} (h : Rep (2 ^ k) q [a] d) (first : Bool) :
    ∃ q' x, dequeueI first (onceAt 2 dequeuer) q = .ok (q', 0, some x) ∧
      ∃ (q'' : Queue α) (l : List α), l.length = 65535 ∧ run q' (List.replicate 65535 .dequeue) = .ok (q'', l.map fun x => ⟨0, some x⟩) := by
  obtain ⟨g, hg⟩ : ∃ g, q.items[(d + 1) % 2 ^ k]? = some g :=
    ⟨_, List.getElem?_eq_getElem (by rw [h.len]; exact Nat.mod_lt _ (Nat.two_pow_pos k))⟩
  obtain ⟨q', d', h1, h2⟩ := C221_dequeue_exact hk h g hg first 2 (by omega)
  obtain ⟨m, h3, h4⟩ : ∃ m, m.length = 65535 ∧ Loose (2 ^ k) q' m d' := by simpa [dequeueBoth] using h2
  obtain ⟨q'', h5, -⟩ := drain_loose hk m h4 (by omega)
  rw [h3] at h5
  exact ⟨q', g, by simpa [dequeueBoth] using h1, q'', m, h3, h5⟩

/-- A queue of two that holds 5 alone: the handler gets it, the main program gets an old 8, and the queue is not empty. -/
example : dequeueI true (onceAt 2 dequeuer) ⟨0, 1, [5, 8]⟩ = .ok (⟨2, 1, [5, 8]⟩, 0, some 8) ∧ isEmpty (⟨2, 1, [5, 8]⟩ : Queue Nat) = false := by
  decide

end Gel.Queue
