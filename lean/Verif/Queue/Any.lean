import Verif.Queue.Props
import Mathlib.Data.Nat.Find

/-!
# Macro queue: other widths of `int` and every capacity, properties C176 and C177
-/
namespace Gel.Queue

variable {α : Type u}

/-! ## C176 -/

/-- `p_queue->write_idx - p_queue->read_idx` for an `int` of `iw` bits: with 16 bits a `uint16_t` is promoted to `unsigned int`. -/
def diffW (iw : Nat) (q : Queue α) : Int :=
  if iw ≤ 16 then ((q.writeIdx : Int) - q.readIdx) % 2 ^ 16 else (q.writeIdx : Int) - q.readIdx

/-- `NAME_count`, queue.h:39-41, for a `size_t` of `sz` bits. -/
def countW (iw sz : Nat) (q : Queue α) : Nat := (diffW iw q % 2 ^ sz).toNat

/-- One call, queue.h:34-84. `elements_in` (lines 44, 57 and 80) has 16 bits whatever the type of the difference, so that only
`NAME_count` and `NAME_is_empty` depend on it. -/
def stepW (iw sz : Nat) (q : Queue α) : Call α → Res (Queue α × Obs α)
  | .count => .ok (q, ⟨countW iw sz q, none⟩)
  | .isEmpty => .ok (q, ⟨(diffW iw q == 0).toNat, none⟩)
  | c => step q c

/-- A history of calls. -/
def runW (iw sz : Nat) : Queue α → List (Call α) → Res (Queue α × List (Obs α))
  | q, [] => .ok (q, [])
  | q, c :: cs => do
    let (q, o) ← stepW iw sz q c
    let (q, os) ← runW iw sz q cs
    pure (q, o :: os)

/-- With 32 bits and a `size_t` of 64 it is the model of C08 to C10. -/
theorem runW_32 (q : Queue α) (cs : List (Call α)) : runW 32 64 q cs = run q cs := by
  induction cs generalizing q with
  | nil => rfl
  | cons c cs ih =>
    have : stepW 32 64 q c = step q c := by
      cases c <;> simp [stepW, step, countW, diffW, count, asSize, isEmpty]
    rw [runW, run, this]
    simp only [ih]

/-- **C176.** If `int` has 16 bits, every call including `NAME_count` returns what a FIFO returns, for every history: there C09 is
true. -/
theorem C176_int16 {k : Nat} (hk : k ≤ 15) (sz : Nat) (hs : 16 ≤ sz) (items : List α) (hi : items.length = 2 ^ k)
    (cs : List (Call α)) : ∃ q', runW 16 sz (init items) cs = .ok (q', (Spec.run (2 ^ k) [] cs).2) := by
  have h1 : 2 ^ k ≤ 2 ^ 15 := Nat.pow_le_pow_right (by decide) hk
  have key : ∀ (cs : List (Call α)) (q : Queue α) (l : List α) (d : Nat), Rep (2 ^ k) q l d →
      ∃ q', runW 16 sz q cs = .ok (q', (Spec.run (2 ^ k) l cs).2) := by
    intro cs
    induction cs with
    | nil => intro q l d _; exact ⟨q, rfl⟩
    | cons c cs ih =>
      intro q l d h
      have hdiff : diffW 16 q = l.length := by
        have hb := h.fits
        rw [diffW, if_pos (Nat.le_refl _), h.read, h.write]
        omega
      obtain ⟨q1, d1, e, r⟩ : ∃ q1 d1, stepW 16 sz q c = .ok (q1, (Spec.step (2 ^ k) l c).2) ∧
          Rep (2 ^ k) q1 (Spec.step (2 ^ k) l c).1 d1 := by
        by_cases hc : c = .count
        · subst hc
          refine ⟨q, d, ?_, h⟩
          have hb := h.fits
          have hp : (2 : Nat) ^ 16 ≤ 2 ^ sz := Nat.pow_le_pow_right (by decide) hs
          have : countW 16 sz q = l.length := by
            rw [countW, hdiff, Int.emod_eq_of_lt (by omega)]
            · rfl
            · have : l.length < 2 ^ sz := by omega
              exact_mod_cast this
          simp only [stepW, Spec.step, this]
        · obtain ⟨q1, e, r⟩ := step_rep hk h c hc
          refine ⟨q1, _, ?_, r⟩
          rw [← e]
          cases c with
          | isEmpty =>
            have hh := h.isEmpty (by omega)
            simp only [stepW, step, hdiff, hh]
            congr 4
            rw [Bool.beq_eq_decide_eq, decide_eq_decide]
            omega
          | count => exact absurd rfl hc
          | enqueue x => rfl
          | dequeue => rfl
          | drop => rfl
          | isFull => rfl
      obtain ⟨q2, e2⟩ := ih q1 _ d1 r
      exact ⟨q2, by simp only [runW, e, e2, Res.ok_bind, Spec.run]; rfl⟩
  exact key cs _ _ 0 (hi ▸ init_rep items)

/-- A queue whose write index has wrapped: with 32 bits the count is wrong, with 16 it is right. -/
example : countW 32 64 (⟨65535, 1, [0, 0, 0, 0]⟩ : Queue Nat) = 2 ^ 64 - 65534 ∧
    countW 16 16 (⟨65535, 1, [0, 0, 0, 0]⟩ : Queue Nat) = 2 := by decide

/-! ## C177 -/

namespace Spec

/-- The slot that the element number `i` gets in an array of `n`. -/
def slot (n i : Nat) : Nat := i % 65536 &&& (n - 1)

/-- All elements that were ever accepted, and the number of those that left. -/
structure Hist (α : Type u) where
  all : List α
  out : Nat

/-- The youngest accepted element whose slot is that of element number `r`. -/
def youngest (n : Nat) (all : List α) (r : Nat) : Option α :=
  all[Nat.findGreatest (fun i => slot n i = slot n r) (all.length - 1)]?

/-- What a queue with any capacity does: the results are those of a FIFO, the values are the youngest of the slot. -/
def anyStep (n : Nat) (h : Hist α) : Call α → Hist α × Obs α
  | .enqueue x => if h.all.length - h.out < n then ({ h with all := h.all ++ [x] }, ⟨0, none⟩) else (h, ⟨1, none⟩)
  | .dequeue => if h.out = h.all.length then (h, ⟨1, none⟩) else ({ h with out := h.out + 1 }, ⟨0, youngest n h.all h.out⟩)
  | .drop => if h.out = h.all.length then (h, ⟨1, none⟩) else ({ h with out := h.out + 1 }, ⟨0, none⟩)
  | .count => (h, ⟨h.all.length - h.out, none⟩)
  | .isEmpty => (h, ⟨if h.all.length - h.out = 0 then 1 else 0, none⟩)
  | .isFull => (h, ⟨if h.all.length - h.out = n then 1 else 0, none⟩)

def anyRun (n : Nat) : Hist α → List (Call α) → Hist α × List (Obs α)
  | h, [] => (h, [])
  | h, c :: cs =>
    let (h, o) := anyStep n h c
    let (h, os) := anyRun n h cs
    (h, o :: os)

end Spec
open Spec (slot youngest Hist anyStep anyRun)

/-- The queue is what the history leaves. -/
structure RepA (n : Nat) (q : Queue α) (h : Hist α) : Prop where
  read : q.readIdx = h.out % 2 ^ 16
  write : q.writeIdx = h.all.length % 2 ^ 16
  len : q.items.length = n
  le : h.out ≤ h.all.length
  fits : h.all.length ≤ h.out + n
  get : ∀ i, i < h.all.length → (∀ j, i < j → j < h.all.length → slot n j ≠ slot n i) → q.items[slot n i]? = h.all[i]?

theorem slot_lt {n : Nat} (hn : 0 < n) (i : Nat) : slot n i < n := by
  have : slot n i ≤ n - 1 := Nat.and_le_right
  omega

theorem mask_slot {n : Nat} (hn : 0 < n) (hc : n < 65536) {q : Queue α} (hl : q.items.length = n) (i : Nat) :
    mask q (i % 2 ^ 16) = slot n i := by
  have := slot_lt hn i
  rw [mask, hl, show (i % 2 ^ 16 &&& (n - 1)) = slot n i from rfl, Nat.mod_eq_of_lt (by omega)]

theorem RepA.elementsIn {n : Nat} (hc : n < 65536) {q : Queue α} {h : Hist α} (r : RepA n q h) :
    elementsIn q = h.all.length - h.out := by
  have := r.le
  have := r.fits
  rw [Queue.elementsIn, r.read, r.write]
  omega

theorem RepA.youngest {n : Nat} {q : Queue α} {h : Hist α} (r : RepA n q h) (hne : h.out ≠ h.all.length) :
    q.items[slot n h.out]? = youngest n h.all h.out := by
  have hle := r.le
  have hspec : slot n (Nat.findGreatest (fun i => slot n i = slot n h.out) (h.all.length - 1)) = slot n h.out :=
    Nat.findGreatest_spec (P := fun i => slot n i = slot n h.out) (show h.out ≤ h.all.length - 1 by omega) rfl
  have hb := Nat.findGreatest_le (P := fun i => slot n i = slot n h.out) (h.all.length - 1)
  rw [Spec.youngest, ← hspec]
  have := r.get (Nat.findGreatest (fun i => slot n i = slot n h.out) (h.all.length - 1)) (by omega) (by
    intro j h1 h2 he
    exact Nat.findGreatest_is_greatest (P := fun i => slot n i = slot n h.out) h1 (by omega) (he.trans hspec))
  rw [this]
  congr 1
  simp only [hspec]

theorem stepA {n : Nat} (hn : 0 < n) (hc : n < 65536) {q : Queue α} {h : Hist α} (r : RepA n q h) (c : Call α)
    (hcount : c ≠ .count) : ∃ q', step q c = .ok (q', (anyStep n h c).2) ∧ RepA n q' (anyStep n h c).1 := by
  have he := r.elementsIn hc
  have hle := r.le
  have hfits := r.fits
  have hlen := r.len
  cases c with
  | enqueue x =>
    simp only [anyStep]
    split_ifs with hlt
    · have hm := mask_slot hn hc hlen h.all.length
      rw [← r.write] at hm
      refine ⟨{ q with writeIdx := (q.writeIdx + 1) % 2 ^ 16, items := q.items.set (slot n h.all.length) x }, ?_, ?_⟩
      · have hw : wr q.items (mask q q.writeIdx) x = .ok (q.items.set (slot n h.all.length) x) := by
          rw [hm, wr, if_pos (by rw [hlen]; exact slot_lt hn _)]
        rw [step, enqueue, if_neg (by omega), hw]
        rfl
      · refine ⟨r.read, ?_, by simpa using hlen, ?_, ?_, ?_⟩
        · show (q.writeIdx + 1) % 2 ^ 16 = (h.all ++ [x]).length % 2 ^ 16
          rw [r.write]; simp
        · show h.out ≤ (h.all ++ [x]).length
          simp; omega
        · show (h.all ++ [x]).length ≤ h.out + n
          simp; omega
        · intro i hi hlast
          simp only [List.length_append, List.length_singleton] at hi hlast
          show (q.items.set (slot n h.all.length) x)[slot n i]? = (h.all ++ [x])[i]?
          by_cases hii : i = h.all.length
          · subst hii
            rw [List.getElem?_set_self (by rw [hlen]; exact slot_lt hn _)]
            simp
          · have := hlast h.all.length (by omega) (by omega)
            rw [List.getElem?_set_ne this, List.getElem?_append_left (by omega)]
            exact r.get i (by omega) fun j h1 h2 => hlast j h1 (by omega)
    · refine ⟨q, ?_, r⟩
      rw [step, enqueue, if_pos (by omega)]
      rfl
  | dequeue =>
    simp only [anyStep]
    split_ifs with h0
    · refine ⟨q, ?_, r⟩
      rw [step, dequeue, if_pos (by omega)]
      rfl
    · have hm := mask_slot hn hc hlen h.out
      rw [← r.read] at hm
      have hy := r.youngest h0
      obtain ⟨v, hv⟩ : ∃ v, q.items[slot n h.out]? = some v := by
        have := slot_lt hn h.out
        exact ⟨_, List.getElem?_eq_getElem (by rw [hlen]; exact this)⟩
      refine ⟨{ q with readIdx := (q.readIdx + 1) % 2 ^ 16 }, ?_, ?_⟩
      · rw [step, dequeue, if_neg (by omega), hm, rd, hv, ← hy, hv]
        rfl
      · exact ⟨by show (q.readIdx + 1) % 2 ^ 16 = (h.out + 1) % 2 ^ 16; rw [r.read]; omega, r.write, hlen,
          by show h.out + 1 ≤ h.all.length; omega, by show h.all.length ≤ h.out + 1 + n; omega, r.get⟩
  | drop =>
    simp only [anyStep]
    split_ifs with h0
    · refine ⟨q, ?_, r⟩
      rw [step, drop, if_pos (by omega)]
    · refine ⟨{ q with readIdx := (q.readIdx + 1) % 2 ^ 16 }, ?_, ?_⟩
      · rw [step, drop, if_neg (by omega)]
      · exact ⟨by show (q.readIdx + 1) % 2 ^ 16 = (h.out + 1) % 2 ^ 16; rw [r.read]; omega, r.write, hlen,
          by show h.out + 1 ≤ h.all.length; omega, by show h.all.length ≤ h.out + 1 + n; omega, r.get⟩
  | count => exact absurd rfl hcount
  | isEmpty =>
    refine ⟨q, ?_, r⟩
    have : isEmpty q = decide (h.all.length - h.out = 0) := by
      rw [isEmpty, r.read, r.write, Bool.beq_eq_decide_eq, decide_eq_decide]
      omega
    simp only [step, anyStep, this]
    split_ifs with h' <;> simp [h']
  | isFull =>
    refine ⟨q, ?_, r⟩
    simp only [step, anyStep, isFull, he, hlen]
    split_ifs with h' <;> simp [h']

/-- **C177.** Every capacity from 1 to 65535, power of two or not: the results of all calls (success, full, empty) are those of a
FIFO; the value that `NAME_dequeue` delivers is the youngest accepted element that shares the slot of the oldest one. No access
leaves the array. -/
theorem C177_any (items : List α) (hn : 0 < items.length) (hc : items.length < 65536) (cs : List (Call α))
    (hcount : .count ∉ cs) : ∃ q', run (init items) cs = .ok (q', (anyRun items.length ⟨[], 0⟩ cs).2) := by
  have key : ∀ (cs : List (Call α)) (q : Queue α) (h : Hist α), .count ∉ cs → RepA items.length q h →
      ∃ q', run q cs = .ok (q', (anyRun items.length h cs).2) := by
    intro cs
    induction cs with
    | nil => intro q h _ _; exact ⟨q, rfl⟩
    | cons c cs ih =>
      intro q h hcs r
      obtain ⟨q1, e, r1⟩ := stepA hn hc r c (fun e => hcs (by simp [e]))
      obtain ⟨q2, e2⟩ := ih q1 _ (fun hh => hcs (by simp [hh])) r1
      exact ⟨q2, by simp only [run, e, e2, Res.ok_bind, anyRun]; rfl⟩
  exact key cs _ _ hcount ⟨rfl, rfl, rfl, Nat.le_refl _, Nat.zero_le _, fun i hi => absurd hi (by simp)⟩

/-- **C177.** The results of these histories are those of a FIFO. -/
theorem C177_results (n : Nat) (cs : List (Call α)) :
    (anyRun n ⟨[], 0⟩ cs).2.map Obs.ret = (Spec.run n [] cs).2.map Obs.ret := by
  have key : ∀ (cs : List (Call α)) (h : Hist α), h.out ≤ h.all.length →
      (anyRun n h cs).2.map Obs.ret = (Spec.run n (h.all.drop h.out) cs).2.map Obs.ret := by
    intro cs
    induction cs with
    | nil => intro h _; rfl
    | cons c cs ih =>
      intro h hle
      have hone : (anyStep n h c).2.ret = (Spec.step n (h.all.drop h.out) c).2.ret ∧
          (anyStep n h c).1.all.drop (anyStep n h c).1.out = (Spec.step n (h.all.drop h.out) c).1 ∧
          (anyStep n h c).1.out ≤ (anyStep n h c).1.all.length := by
        cases c with
        | enqueue x =>
          simp only [anyStep, Spec.step, List.length_drop]
          split_ifs with h1
          · exact ⟨rfl, List.drop_append_of_le_length hle, by simp; omega⟩
          · exact ⟨rfl, rfl, hle⟩
        | dequeue =>
          simp only [anyStep]
          split_ifs with h1
          · rw [List.drop_eq_nil_of_le (by omega)]
            exact ⟨rfl, rfl, hle⟩
          · rw [List.drop_eq_getElem_cons (show h.out < h.all.length by omega)]
            exact ⟨rfl, rfl, by show h.out + 1 ≤ h.all.length; omega⟩
        | drop =>
          simp only [anyStep]
          split_ifs with h1
          · rw [List.drop_eq_nil_of_le (by omega)]
            exact ⟨rfl, rfl, hle⟩
          · rw [List.drop_eq_getElem_cons (show h.out < h.all.length by omega)]
            exact ⟨rfl, rfl, by show h.out + 1 ≤ h.all.length; omega⟩
        | count => exact ⟨by simp [anyStep, Spec.step], rfl, hle⟩
        | isEmpty => exact ⟨by simp [anyStep, Spec.step], rfl, hle⟩
        | isFull => exact ⟨by simp [anyStep, Spec.step], rfl, hle⟩
      simp only [anyRun, Spec.run, List.map_cons]
      rw [hone.1, ih _ hone.2.2, hone.2.1]
  exact key cs ⟨[], 0⟩ (Nat.le_refl _)

/-- **C177.** From 65536 on the queue never is full: after 65536 elements it calls itself empty, and gives none of them back. -/
theorem C177_large (items : List α) (hc : 65536 ≤ items.length) (f : Nat → α) :
    ∃ q', run (init items) ((List.range 65536).map (.enqueue ∘ f) ++ [.isEmpty, .dequeue]) =
      .ok (q', List.replicate 65536 ⟨0, none⟩ ++ [⟨1, none⟩, ⟨1, none⟩]) := by
  have key : ∀ m, m ≤ 65536 → ∃ q : Queue α, run (init items) ((List.range m).map (.enqueue ∘ f)) =
      .ok (q, List.replicate m ⟨0, none⟩) ∧ q.readIdx = 0 ∧ q.writeIdx = m % 2 ^ 16 ∧ q.items.length = items.length := by
    intro m
    induction m with
    | zero => intro _; exact ⟨_, rfl, rfl, rfl, rfl⟩
    | succ m ih =>
      intro hm
      obtain ⟨q, e, h1, h2, h3⟩ := ih (by omega)
      have hmask : mask q q.writeIdx < q.items.length := by
        have : q.writeIdx &&& (q.items.length - 1) ≤ q.items.length - 1 := Nat.and_le_right
        rw [mask]
        have := Nat.mod_le (q.writeIdx &&& (q.items.length - 1)) (2 ^ 16)
        omega
      refine ⟨{ q with writeIdx := (q.writeIdx + 1) % 2 ^ 16, items := q.items.set (mask q q.writeIdx) (f m) }, ?_, h1, ?_, ?_⟩
      · rw [List.range_succ, List.map_append, run_append, e]
        have : elementsIn q ≠ q.items.length := by rw [elementsIn, h1, h2]; omega
        simp [run, step, enqueue, this, wr, hmask, List.replicate_succ']
      · show (q.writeIdx + 1) % 2 ^ 16 = (m + 1) % 2 ^ 16
        rw [h2]; omega
      · simpa using h3
  obtain ⟨q, e, h1, h2, h3⟩ := key 65536 (Nat.le_refl _)
  refine ⟨q, ?_⟩
  have h4 : isEmpty q = true := by rw [isEmpty, h1, h2]; rfl
  have h5 : elementsIn q = 0 := by rw [elementsIn, h1, h2]; rfl
  have h6 : run q [.isEmpty, .dequeue] = .ok (q, [⟨1, none⟩, ⟨1, none⟩]) := by simp [run, step, h4, dequeue, h5]
  rw [run_append, e, Res.ok_bind]
  show (run q [.isEmpty, .dequeue] >>= _) = _
  rw [h6]
  rfl

/-- A queue for three: the elements 1 and 2 share the slot 0 (and 3 gets slot 2): 2 comes out twice. -/
example : (run (init [0, 0, 0]) [.enqueue 1, .enqueue 2, .enqueue 3, .enqueue 4, .dequeue, .dequeue, .dequeue, .dequeue] >>=
    fun r => .ok (r.2.map fun o => (o.ret, o.out))) =
    .ok [(0, none), (0, none), (0, none), (1, none), (0, some 2), (0, some 2), (0, some 3), (1, none)] := by decide

end Gel.Queue
