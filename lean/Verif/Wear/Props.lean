import Verif.Wear.Spec
import Mathlib.Tactic.Ring
import Mathlib.Tactic.SplitIfs
import Mathlib.Tactic.Linarith

/-!
# Wear leveling: properties C43 to C49
-/
namespace Gel.Wear

open Spec

/-! ## A call on a working device -/

theorem asSize_nat (a : Nat) (h : a < 2 ^ 64) : asSize (a : Int) = a := by
  rw [asSize, Int.emod_eq_of_lt (by omega) (by exact_mod_cast h)]; simp

/-- The block after `a`. -/
theorem nextBlock_eq (a n : Nat) (h : a < n) (hn : n < 256) : nextBlock a n = .ok (if a + 1 < n then a + 1 else 0) := by
  rw [nextBlock, if_neg (by omega), Nat.mod_eq_of_lt (show a + 1 < 2 ^ 64 by omega)]
  split_ifs with h1
  · rw [Nat.mod_eq_of_lt h1]
  · rw [show a + 1 = n by omega, Nat.mod_self]

/-- The next block, cyclically. -/
def next (n a : Nat) : Nat := if a + 1 < n then a + 1 else 0

theorem next_lt (n a : Nat) (h : a < n) : next n a < n := by rw [next]; split_ifs <;> omega

theorem next_mod (n a : Nat) (h : a < n) : next n a = (a + 1) % n := by
  rw [next]
  split_ifs with h1
  · rw [Nat.mod_eq_of_lt h1]
  · rw [show a + 1 = n by omega, Nat.mod_self]

theorem flash_read (size n : Nat) (d : List Block) (hd : Fits size n d) (i len : Nat) (hi : i < d.length)
    (hl : len ≤ size) : (flash size).readBlock d i len = (0, d[i].data.take len) := by
  simp [flash, List.getElem?_eq_getElem hi, hl]

theorem flash_write (size : Nat) (d : List Block) (i : Nat) (mk : Byte) (x : List Byte) (hi : i < d.length)
    (hl : x.length ≤ size) :
    (flash size).writeBlock d i mk x = (0, d.set i ⟨mk, x ++ d[i].data.drop x.length⟩) := by
  simp [flash, List.getElem?_eq_getElem hi, hl]

theorem fits_set {size n : Nat} {d : List Block} (hd : Fits size n d) (i : Nat) (hi : i < d.length) (mk : Byte)
    (x : List Byte) (hl : x.length ≤ size) : Fits size n (d.set i ⟨mk, x ++ d[i].data.drop x.length⟩) := by
  refine ⟨by simpa using hd.1, ?_⟩
  intro b hb
  rcases List.mem_or_eq_of_mem_set hb with hb | rfl
  · exact hd.2 b hb
  · have := hd.2 d[i] (List.getElem_mem _)
    simp; omega

/-- A write of the stored record does nothing. -/
theorem write_same (size n : Nat) (d : List Block) (hd : Fits size n d) (w : Wlm) (ha : w.last < d.length)
    (x : List Byte) (h0 : 0 < x.length) (hl : x.length ≤ size) (hx : d[w.last].data.take x.length = x) :
    write (flash size) d w x = .ok (d, w, 0) := by
  rw [write, if_neg (by omega), flash_read size n d hd _ _ ha hl]
  simp [hx]

/-- A write of another record goes to the next block. -/
theorem write_other (size n : Nat) (d : List Block) (hd : Fits size n d) (w : Wlm) (hw : w.n = n) (hn : n < 256)
    (ha : w.last < d.length) (x : List Byte) (h0 : 0 < x.length) (hl : x.length ≤ size)
    (hx : d[w.last].data.take x.length ≠ x) :
    ∃ h : next n w.last < d.length, write (flash size) d w x =
      .ok (d.set (next n w.last) ⟨w.marker + 1, x ++ d[next n w.last].data.drop x.length⟩,
        { w with marker := w.marker + 1, last := next n w.last }, 0) := by
  have hlt : next n w.last < d.length := by rw [hd.1]; exact next_lt _ _ (by rw [← hd.1]; exact ha)
  refine ⟨hlt, ?_⟩
  rw [write, if_neg (by omega), flash_read size n d hd _ _ ha hl]
  simp only [ne_eq, not_true_eq_false, if_false, hx, not_false_eq_true, if_true]
  rw [hw, nextBlock_eq _ _ (by rw [← hd.1]; exact ha) hn, Res.ok_bind]
  have hf := flash_write size d (next n w.last) (w.marker + 1) x hlt hl
  simp only [next] at hf
  simp only [hf, Res.pure_eq]
  rfl

/-! ## Histories -/

/-- One step of a history. -/
def step (dev : Dev D) (s : D × Wlm) : Op → Res (D × Wlm)
  | .write x => do
    let (d, w, _) ← write dev s.1 s.2 x
    pure (d, w)
  | .restart => do
    let w ← init dev s.1 s.2.n
    pure (s.1, w)

def run (dev : Dev D) : D × Wlm → List Op → Res (D × Wlm)
  | s, [] => .ok s
  | s, o :: os => do
    let s ← step dev s o
    run dev s os

theorem run_append (dev : Dev D) (s : D × Wlm) (os os' : List Op) :
    run dev s (os ++ os') = (do let s ← run dev s os; run dev s os') := by
  induction os generalizing s with
  | nil => rfl
  | cons o os ih =>
    rw [List.cons_append, run, run]
    cases step dev s o with
    | ok s' => simp only [Res.ok_bind]; exact ih s'
    | ub => rfl
    | abort => rfl
    | diverge => rfl

/-- The first `len` bytes of the active block. -/
def Holds (size n len : Nat) (s : List Block × Wlm) (x : List Byte) : Prop :=
  Fits size n s.1 ∧ s.2.n = n ∧ ∃ h : s.2.last < s.1.length, (s.1[s.2.last]).data.take len = x

theorem holds_read {size n len : Nat} {s : List Block × Wlm} {x : List Byte} (hl : len ≤ size)
    (h : Holds size n len s x) : read (flash size) s.1 s.2 len = (0, x) := by
  obtain ⟨hd, _, ha, hx⟩ := h
  rw [read, flash_read size n s.1 hd _ _ ha hl, hx]

/-- After a write the record is the one written, and the active block the next one if it changed. -/
theorem holds_write {size n len : Nat} {s : List Block × Wlm} {old : List Byte} (hn : n < 256) (h0 : 0 < len)
    (hl : len ≤ size) (h : Holds size n len s old) (x : List Byte) (hx : x.length = len) :
    ∃ d w, write (flash size) s.1 s.2 x = .ok (d, w, 0) ∧ Holds size n len (d, w) x ∧
      (x = old → (d, w) = s) ∧
      (x ≠ old → w.last = next n s.2.last ∧ w.marker = s.2.marker + 1 ∧
        ∃ y, d = s.1.set (next n s.2.last) ⟨s.2.marker + 1, y⟩) := by
  obtain ⟨hd, hw, ha, hold⟩ := h
  subst hx
  by_cases he : x = old
  · subst he
    exact ⟨s.1, s.2, write_same size n s.1 hd s.2 ha _ h0 hl hold, ⟨hd, hw, ha, hold⟩, fun _ => rfl, fun h => absurd rfl h⟩
  · obtain ⟨hlt, e⟩ := write_other size n s.1 hd s.2 hw hn ha x h0 hl (by rw [hold]; exact fun h => he h.symm)
    refine ⟨_, _, e, ⟨fits_set hd _ hlt _ _ hl, hw, by simpa using hlt, ?_⟩, fun h => absurd h he,
      fun _ => ⟨rfl, rfl, _, rfl⟩⟩
    simp

/-! ## C43 -/

theorem search_range (dev : Dev D) (d : D) (n : Nat) (hm : ∀ i, i < n → (dev.readMarker d i).1 = 0) (hn : 0 < n) :
    0 ≤ (searchLast dev d n).1 ∧ (searchLast dev d n).1 < n := by
  have loop : ∀ k i lm, 1 ≤ i → i + k = n → 0 ≤ (searchLoop dev d k i lm).1 ∧ (searchLoop dev d k i lm).1 < n := by
    intro k
    induction k with
    | zero => intro i lm _ _; simp [searchLoop]; omega
    | succ k ih =>
      intro i lm h1 h2
      rw [searchLoop]
      simp only [hm i (by omega), ne_eq, not_true_eq_false, if_false]
      split_ifs
      · exact ih _ _ (by omega) (by omega)
      · simp only; omega
  rw [searchLast]
  simp only [hm 0 hn, ne_eq, not_true_eq_false, if_false]
  exact loop _ _ _ (Nat.le_refl _) (by omega)

theorem flash_marker (size n : Nat) (d : List Block) (hd : Fits size n d) (i : Nat) (hi : i < d.length) :
    (flash size).readMarker d i = (0, d[i].marker) := by
  simp [flash, List.getElem?_eq_getElem hi]

theorem init_eq (dev : Dev D) (d : D) (n : Nat) (hn : n < 256) :
    init dev d n = .ok ⟨n, asSize (searchLast dev d n).1, (searchLast dev d n).2⟩ := by
  rw [init, cassert, if_pos (by simpa using hn)]; rfl

/-- On a working device the structure is initialised with a block of the page. -/
theorem init_flash (size n : Nat) (d : List Block) (hd : Fits size n d) (h0 : 0 < n) (hn : n < 256) :
    ∃ w, init (flash size) d n = .ok w ∧ w.n = n ∧ w.last < n := by
  have h := search_range (flash size) d n (fun i hi => by rw [flash_marker size n d hd i (by rw [hd.1]; exact hi)]) h0
  refine ⟨_, init_eq _ _ _ hn, rfl, ?_⟩
  simp only
  obtain ⟨k, hk⟩ := Int.eq_ofNat_of_zero_le h.1
  rw [hk] at h ⊢
  rw [asSize_nat _ (by omega)]; omega

/-- **C43.** In one session on a working device of any content, after any writes of records of the same length, a read
returns the record written last (or what the active block held, if there was no write). -/
theorem C43_read (size n len : Nat) (d : List Block) (hd : Fits size n d) (hn0 : 0 < n) (hn : n < 256) (h0 : 0 < len)
    (hl : len ≤ size) (xs : List (List Byte)) (hx : ∀ x ∈ xs, x.length = len) :
    ∃ w s, init (flash size) d n = .ok w ∧ run (flash size) (d, w) (xs.map .write) = .ok s ∧
      read (flash size) s.1 s.2 len = (0, xs.getLast?.getD (read (flash size) d w len).2) := by
  obtain ⟨w, e, hw, ha⟩ := init_flash size n d hd hn0 hn
  have ha' : w.last < d.length := by rw [hd.1]; exact ha
  have key : ∀ (xs : List (List Byte)) (s : List Block × Wlm) (old : List Byte), (∀ x ∈ xs, x.length = len) →
      Holds size n len s old → ∃ s', run (flash size) s (xs.map .write) = .ok s' ∧
        Holds size n len s' (xs.getLast?.getD old) := by
    intro xs
    induction xs with
    | nil => intro s old _ h; exact ⟨s, rfl, h⟩
    | cons x xs ih =>
      intro s old hx h
      obtain ⟨d', w', e1, h1, _⟩ := holds_write hn h0 hl h x (hx x (by simp))
      obtain ⟨s', e2, h2⟩ := ih (d', w') x (fun y hy => hx y (by simp [hy])) h1
      refine ⟨s', ?_, ?_⟩
      · rw [List.map_cons, run, step, e1]; exact e2
      · cases xs with
        | nil => simpa using h2
        | cons y ys => rw [List.getLast?_cons_cons]; simpa [List.getLast?_cons] using h2
  obtain ⟨s', e2, h2⟩ := key xs (d, w) _ hx ⟨hd, hw, ha', rfl⟩
  refine ⟨w, s', e, e2, ?_⟩
  rw [holds_read hl h2, read, flash_read size n d hd _ _ ha' hl]

def blank (n : Nat) : List Block := List.replicate n ⟨9, [0, 0, 0]⟩

/-- What is read after a history that starts with an initialisation. -/
def final (d : List Block) (len : Nat) (os : List Op) : Res (Int × List Byte) := do
  let w ← init (flash 3) d d.length
  let s ← run (flash 3) (d, w) os
  pure (read (flash 3) s.1 s.2 len)

example : final (blank 3) 2 [.write [1, 2], .write [3, 4], .write [3, 4], .write [5, 6], .write [7, 8]] = .ok (0, [7, 8]) := by
  decide

/-! ## C44 -/

/-- The markers of the blocks up to the active one are consecutive from `b`, and the others do not continue that. -/
def Marked (n : Nat) (s : List Block × Wlm) (b : Byte) : Prop :=
  s.2.marker = b + BitVec.ofNat 8 s.2.last ∧
  ∀ j (h : j < s.1.length), s.1[j].marker = b + BitVec.ofNat 8 j ↔ j ≤ s.2.last

theorem search_marked {size n : Nat} {s : List Block × Wlm} {b : Byte} (hd : Fits size n s.1) (ha : s.2.last < n)
    (h : Marked n s b) :
    searchLast (flash size) s.1 n = (if s.2.last + 1 < n then (s.2.last : Int) else 0, s.2.marker) := by
  have hlen := hd.1
  have loop : ∀ k i, i + k = n → 1 ≤ i → i ≤ s.2.last + 1 →
      searchLoop (flash size) s.1 k i (b + BitVec.ofNat 8 (i - 1)) =
        (if s.2.last + 1 < n then (s.2.last : Int) else 0, s.2.marker) := by
    intro k
    induction k with
    | zero =>
      intro i h1 h2 h3
      rw [searchLoop, if_neg (by omega), h.1, show i - 1 = s.2.last by omega]
    | succ k ih =>
      intro i h1 h2 h3
      have hi : i < s.1.length := by omega
      rw [searchLoop, flash_marker size n s.1 hd i hi]
      simp only [ne_eq, not_true_eq_false, if_false]
      have hb : b + BitVec.ofNat 8 (i - 1) + 1 = b + BitVec.ofNat 8 i := by
        rw [BitVec.add_assoc]; congr 1
        rw [show (1 : Byte) = BitVec.ofNat 8 1 by rfl, ← BitVec.ofNat_add]; congr 1; omega
      rw [hb]
      by_cases hc : i ≤ s.2.last
      · have hm := (h.2 i hi).2 hc
        rw [if_neg (by rw [hm]; simp), hm]
        have := ih (i + 1) (by omega) (by omega) (by omega)
        rwa [Nat.add_sub_cancel] at this
      · have hm : ¬ s.1[i].marker = b + BitVec.ofNat 8 i := fun hh => hc ((h.2 i hi).1 hh)
        rw [if_pos hm, if_pos (by omega), h.1, show i = s.2.last + 1 by omega, Nat.add_sub_cancel]
        simp
  rw [searchLast, flash_marker size n s.1 hd 0 (by omega)]
  simp only [ne_eq, not_true_eq_false, if_false]
  have h0 := (h.2 0 (by omega)).2 (Nat.zero_le _)
  rw [h0]
  exact loop (n - 1) 1 (by omega) (Nat.le_refl _) (by omega)

theorem init_marked {size n : Nat} {s : List Block × Wlm} {b : Byte} (hd : Fits size n s.1) (hn : n < 256)
    (hw : s.2.n = n) (ha : s.2.last < n) (h : Marked n s b) :
    init (flash size) s.1 n = .ok { s.2 with last := if s.2.last + 1 < n then s.2.last else 0 } := by
  rw [init, cassert, if_pos (by simpa using hn), search_marked hd ha h, ← hw]
  simp only [Res.ok_bind, Res.pure_eq, Res.ok.injEq]
  split_ifs
  · rw [asSize_nat _ (by omega)]
  · rfl

/-- A changing write keeps the markers in order. -/
theorem marked_write {n : Nat} {s : List Block × Wlm} {b : Byte} {d : List Block} {w : Wlm} {y : List Byte}
    (hlen : s.1.length = n) (hn : n < 256) (ha : s.2.last < n) (h : Marked n s b) (hl : w.last = next n s.2.last)
    (hm : w.marker = s.2.marker + 1) (hd : d = s.1.set (next n s.2.last) ⟨s.2.marker + 1, y⟩) :
    ∃ b', Marked n (d, w) b' := by
  subst hd
  by_cases hc : s.2.last + 1 < n
  · have hnx : next n s.2.last = s.2.last + 1 := by rw [next, if_pos hc]
    have hb : s.2.marker + 1 = b + BitVec.ofNat 8 (s.2.last + 1) := by
      rw [h.1, BitVec.add_assoc, BitVec.ofNat_add]; rfl
    refine ⟨b, ?_, ?_⟩
    · simp only; rw [hl, hm, hnx, hb]
    · intro j hj
      simp only [List.length_set] at hj
      simp only [List.getElem_set, hl, hnx]
      split_ifs with hj'
      · subst hj'; simp only [hb]; simp
      · rw [h.2 j hj]; omega
  · have hnx : next n s.2.last = 0 := by rw [next, if_neg hc]
    have hb : s.2.marker + 1 = b + BitVec.ofNat 8 n := by
      rw [h.1, BitVec.add_assoc, show (1 : Byte) = BitVec.ofNat 8 1 by rfl, ← BitVec.ofNat_add]
      congr 2; omega
    refine ⟨b + BitVec.ofNat 8 n, ?_, ?_⟩
    · simp only; rw [hl, hm, hnx, hb]; simp
    · intro j hj
      simp only [List.length_set] at hj
      simp only [List.getElem_set, hl, hnx]
      split_ifs with hj'
      · subst hj'; simp only [hb]; simp
      · rw [(h.2 j hj).2 (by omega)]
        constructor
        · intro hh
          exfalso
          rw [BitVec.add_assoc, BitVec.add_comm (BitVec.ofNat 8 n)] at hh
          have := congrArg (fun z => z - b - BitVec.ofNat 8 j) hh
          have e1 : b + BitVec.ofNat 8 j - b - BitVec.ofNat 8 j = 0 := by
            rw [BitVec.add_comm b, BitVec.add_sub_cancel, BitVec.sub_self]; rfl
          have e2 : b + (BitVec.ofNat 8 j + BitVec.ofNat 8 n) - b - BitVec.ofNat 8 j = BitVec.ofNat 8 n := by
            rw [BitVec.add_comm b, BitVec.add_sub_cancel, BitVec.add_comm (BitVec.ofNat 8 j), BitVec.add_sub_cancel]
          rw [e1, e2] at this
          have := congrArg BitVec.toNat this
          simp at this
          omega
        · intro hh; omega

/-- A restart would pick the right block: the active block is not the last of several. -/
def Safe (n : Nat) (s : Ideal) : Prop := n = 1 ∨ (s.changes + 1) % n ≠ 0

/-- In a history every restart happens in a safe moment. -/
def AllSafe (n : Nat) : Ideal → List Op → Prop
  | _, [] => True
  | s, .restart :: os => Safe n s ∧ AllSafe n s os
  | s, .write x :: os => AllSafe n (s.write x) os

/-- The state of the memory corresponds to the ideal one. -/
def Rel (size n len : Nat) (s : List Block × Wlm) (i : Ideal) : Prop :=
  Holds size n len s i.data ∧ s.2.last = i.changes % n ∧ ∃ b, Marked n s b

theorem rel_write {size n len : Nat} {s : List Block × Wlm} {i : Ideal} (hn0 : 0 < n) (hn : n < 256) (h0 : 0 < len)
    (hl : len ≤ size) (h : Rel size n len s i) (x : List Byte) (hx : x.length = len) :
    ∃ d w, write (flash size) s.1 s.2 x = .ok (d, w, 0) ∧ Rel size n len (d, w) (i.write x) := by
  obtain ⟨hh, hc, b, hm⟩ := h
  obtain ⟨d, w, e, h1, h2, h3⟩ := holds_write hn h0 hl hh x hx
  refine ⟨d, w, e, ?_⟩
  by_cases he : x = i.data
  · rw [Ideal.write, if_pos he, h2 he]; exact ⟨hh, hc, b, hm⟩
  · obtain ⟨a1, a2, y, a3⟩ := h3 he
    have halt : s.2.last < n := by rw [hc]; exact Nat.mod_lt _ hn0
    rw [Ideal.write, if_neg he]
    refine ⟨h1, ?_, marked_write hh.1.1 hn halt hm a1 a2 a3⟩
    simp only
    rw [a1, next_mod _ _ halt, hc, Nat.mod_add_mod]

theorem rel_restart {size n len : Nat} {s : List Block × Wlm} {i : Ideal} (hn0 : 0 < n) (hn : n < 256)
    (h : Rel size n len s i) (hs : Safe n i) : step (flash size) s .restart = .ok s := by
  obtain ⟨hh, hc, b, hm⟩ := h
  have halt : s.2.last < n := by rw [hc]; exact Nat.mod_lt _ hn0
  have hsafe : (if s.2.last + 1 < n then s.2.last else 0) = s.2.last := by
    split_ifs with hlt
    · rfl
    · rcases hs with hs | hs
      · omega
      · exfalso; apply hs
        rw [← Nat.mod_add_mod, ← hc, show s.2.last + 1 = n by omega, Nat.mod_self]
  rw [step, hh.2.1, init_marked hh.1 hn hh.2.1 halt hm, hsafe]; rfl

theorem rel_run {size n len : Nat} (hn0 : 0 < n) (hn : n < 256) (h0 : 0 < len) (hl : len ≤ size) (os : List Op) :
    ∀ (s : List Block × Wlm) (i : Ideal), Rel size n len s i → (∀ x, Op.write x ∈ os → x.length = len) → AllSafe n i os →
      ∃ s', run (flash size) s os = .ok s' ∧ Rel size n len s' (os.foldl Ideal.step i) := by
  induction os with
  | nil => intro s i h _ _; exact ⟨s, rfl, h⟩
  | cons o os ih =>
    intro s i h hx hs
    cases o with
    | write x =>
      obtain ⟨d, w, e, h'⟩ := rel_write hn0 hn h0 hl h x (hx x (by simp))
      obtain ⟨s', e', h''⟩ := ih (d, w) _ h' (fun y hy => hx y (by simp [hy])) hs
      exact ⟨s', by rw [run, step, e]; exact e', h''⟩
    | restart =>
      obtain ⟨s', e', h''⟩ := ih s i h (fun y hy => hx y (by simp [hy])) hs.2
      exact ⟨s', by rw [run, rel_restart hn0 hn h hs.1]; exact e', h''⟩

/-- The start: a device with equal markers. -/
theorem rel_start {size n : Nat} {d : List Block} (len : Nat) (hd : Fits size n d) (hn0 : 0 < n) (hn : n < 256)
    (mk : Byte) (hm : ∀ b ∈ d, b.marker = mk) :
    ∃ w, init (flash size) d n = .ok w ∧ ∃ h : 0 < d.length, Rel size n len (d, w) ⟨d[0].data.take len, 0⟩ := by
  have h0 : 0 < d.length := by rw [hd.1]; exact hn0
  have hmarked : Marked n (d, (⟨n, 0, mk⟩ : Wlm)) mk := by
    refine ⟨by simp, ?_⟩
    intro j hj
    simp only at hj ⊢
    rw [hm _ (List.getElem_mem _)]
    constructor
    · intro hh
      have h1 := congrArg (fun z => z - mk) hh
      simp only [BitVec.sub_self] at h1
      rw [BitVec.add_comm, BitVec.add_sub_cancel] at h1
      have := congrArg BitVec.toNat h1
      simp at this
      have := hd.1
      omega
    · intro hh
      have : j = 0 := by omega
      subst this; simp
  have hi := init_marked (s := (d, (⟨n, 0, mk⟩ : Wlm))) hd hn rfl hn0 hmarked
  refine ⟨⟨n, 0, mk⟩, ?_, h0, ⟨hd, rfl, h0, rfl⟩, by simp, mk, hmarked⟩
  rw [hi]; simp

/-- **C44** (partial). On a device with `n` blocks and equal markers, after any history of writes and restarts in which
no restart happens while the number of changes is one less than a multiple of `n` (or `n = 1`), a read returns the last
record written (the content of block 0 if there was none), also after one more such restart. Missing: the other restarts
(`C44_lost`). -/
theorem C44_partial (size n len : Nat) (d : List Block) (hd : Fits size n d) (hn0 : 0 < n) (hn : n < 256) (h0 : 0 < len)
    (hl : len ≤ size) (mk : Byte) (hm : ∀ b ∈ d, b.marker = mk) (os : List Op)
    (hx : ∀ x, Op.write x ∈ os → x.length = len) :
    ∃ w, init (flash size) d n = .ok w ∧ ∃ x0, read (flash size) d w len = (0, x0) ∧
      (AllSafe n ⟨x0, 0⟩ os → ∃ s, run (flash size) (d, w) os = .ok s ∧
        read (flash size) s.1 s.2 len = (0, (os.foldl Ideal.step ⟨x0, 0⟩).data)) := by
  obtain ⟨w, e, h, hr⟩ := rel_start len hd hn0 hn mk hm
  refine ⟨w, e, _, holds_read hl hr.1, ?_⟩
  intro hs
  obtain ⟨s, e', hr'⟩ := rel_run hn0 hn h0 hl os (d, w) _ hr hx hs
  exact ⟨s, e', holds_read hl hr'.1⟩

/-- The ideal memory after a list of writes all of which change it. -/
def AllChange : List Byte → List (List Byte) → Prop
  | _, [] => True
  | x, y :: ys => y ≠ x ∧ AllChange y ys

theorem ideal_changes (xs : List (List Byte)) : ∀ i : Ideal, AllChange i.data xs →
    ((xs.map Op.write).foldl Ideal.step i).changes = i.changes + xs.length := by
  induction xs with
  | nil => intro i _; rfl
  | cons x xs ih =>
    intro i h
    rw [List.map_cons, List.foldl_cons]
    have : Ideal.step i (.write x) = ⟨x, i.changes + 1⟩ := by rw [Ideal.step, Ideal.write, if_neg h.1]
    rw [this, ih _ h.2]; simp; omega

theorem allSafe_writes (n : Nat) (xs : List (List Byte)) : ∀ i : Ideal, AllSafe n i (xs.map Op.write) := by
  induction xs with
  | nil => intro i; trivial
  | cons x xs ih => intro i; exact ih _

/-- Writes that do not come round to block 0 leave it alone. -/
theorem block0 {size n len : Nat} (hn0 : 0 < n) (hn : n < 256) (h0 : 0 < len) (hl : len ≤ size) (xs : List (List Byte)) :
    ∀ (s : List Block × Wlm) (i : Ideal), Rel size n len s i → (∀ x ∈ xs, x.length = len) →
      i.changes + xs.length < n → ∃ s', run (flash size) s (xs.map .write) = .ok s' ∧ s'.1[0]? = s.1[0]? := by
  induction xs with
  | nil => intro s i _ _ _; exact ⟨s, rfl, rfl⟩
  | cons x xs ih =>
    intro s i h hx hc
    simp only [List.length_cons] at hc
    obtain ⟨d, w, e, h1, h2, h3⟩ := holds_write hn h0 hl h.1 x (hx x (by simp))
    obtain ⟨d', w', e', hr⟩ := rel_write hn0 hn h0 hl h x (hx x (by simp))
    rw [e] at e'
    injection e' with e'
    injection e' with ed e'
    injection e' with ew _
    subst ed ew
    have hch : (i.write x).changes ≤ i.changes + 1 := by rw [Ideal.write]; split_ifs <;> simp
    obtain ⟨s', e2, h4⟩ := ih (d, w) _ hr (fun y hy => hx y (by simp [hy])) (by omega)
    refine ⟨s', by rw [List.map_cons, run, step, e]; exact e2, ?_⟩
    rw [h4]
    by_cases he : x = i.data
    · rw [h2 he]
    · obtain ⟨_, _, y, a3⟩ := h3 he
      have hlast : s.2.last = i.changes := by rw [h.2.1, Nat.mod_eq_of_lt (by omega)]
      simp only
      rw [a3, next, if_pos (by omega), List.getElem?_set_ne (by omega)]

/-- **C44**, where it fails: with `n ≥ 2` blocks, after `n - 1` changing writes and a restart the read returns the content
of block 0, from before all of them. It gets no better: a further write and restart, and it is lost as well. -/
theorem C44_lost (size n len : Nat) (d : List Block) (hd : Fits size n d) (hn2 : 2 ≤ n) (hn : n < 256) (h0 : 0 < len)
    (hl : len ≤ size) (mk : Byte) (hm : ∀ b ∈ d, b.marker = mk) (xs : List (List Byte))
    (hx : ∀ x ∈ xs, x.length = len) (hlen : xs.length = n - 1) :
    ∃ w x0, init (flash size) d n = .ok w ∧ read (flash size) d w len = (0, x0) ∧ (AllChange x0 xs →
      ∃ s, run (flash size) (d, w) (xs.map .write ++ [.restart]) = .ok s ∧ read (flash size) s.1 s.2 len = (0, x0) ∧
      ∀ y : List Byte, y.length = len → ∃ s', run (flash size) s [.write y, .restart] = .ok s' ∧
        read (flash size) s'.1 s'.2 len = (0, x0)) := by
  have hn0 : 0 < n := by omega
  obtain ⟨w, e, h, hr⟩ := rel_start len hd hn0 hn mk hm
  refine ⟨w, _, e, holds_read hl hr.1, ?_⟩
  intro hch
  obtain ⟨s, e1, hr1⟩ := rel_run hn0 hn h0 hl (xs.map .write) (d, w) _ hr (by simpa using hx) (allSafe_writes n xs _)
  have hc := ideal_changes xs ⟨d[0].data.take len, 0⟩ hch
  obtain ⟨s1, e1', hb0⟩ := block0 hn0 hn h0 hl xs (d, w) _ hr hx (by simp; omega)
  rw [e1] at e1'
  injection e1' with e1'
  subst e1'
  obtain ⟨hh, hcc, b, hmk⟩ := hr1
  rw [hc, Nat.zero_add, hlen, Nat.mod_eq_of_lt (by omega)] at hcc
  have hfit := hh.1
  have hlast : s.2.last < n := by omega
  have hi := init_marked hfit hn hh.2.1 hlast hmk
  rw [if_neg (by omega)] at hi
  have h0s : 0 < s.1.length := by rw [hfit.1]; exact hn0
  have hd0 : s.1[0] = d[0] := by
    have : s.1[0]? = d[0]? := hb0
    rw [List.getElem?_eq_getElem h0s, List.getElem?_eq_getElem h] at this
    exact Option.some.inj this
  have hold : Holds size n len (s.1, { s.2 with last := 0 }) (d[0].data.take len) :=
    ⟨hfit, hh.2.1, h0s, by simp only; rw [hd0]⟩
  refine ⟨(s.1, { s.2 with last := 0 }), ?_, holds_read hl hold, ?_⟩
  · rw [run_append, e1, Res.ok_bind, run, step, hh.2.1, hi]; rfl
  · intro y hy
    obtain ⟨d', w', e2, g1, g2, g3⟩ := holds_write hn h0 hl hold y hy
    have hmarks : ∀ j (hj : j < s.1.length), s.1[j].marker = b + BitVec.ofNat 8 j := fun j hj =>
      (hmk.2 j hj).2 (by have := hfit.1; omega)
    by_cases hsame : y = d[0].data.take len
    · refine ⟨(s.1, { s.2 with last := 0 }), ?_, holds_read hl hold⟩
      have := g2 hsame
      injection this with t1 t2
      rw [run, step, e2]
      simp only [Res.ok_bind, Res.pure_eq, t1, t2, run, step, hh.2.1, hi]
    · obtain ⟨a1, a2, z, a3⟩ := g3 hsame
      simp only at a1 a2 a3
      rw [next, if_pos (by omega)] at a1 a3
      -- the markers now: block 0 has b, block 1 does not follow
      have hfit' := g1.1
      simp only at hfit'
      have hl' : d'.length = n := hfit'.1
      have m0 : (flash size).readMarker d' 0 = (0, b) := by
        rw [flash_marker size n d' hfit' 0 (by omega)]
        have := hmarks 0 h0s
        simp only [a3, List.getElem_set_ne (show (0 + 1 : Nat) ≠ 0 by omega), this]; simp
      have m1 : (flash size).readMarker d' 1 = (0, s.2.marker + 1) := by
        rw [flash_marker size n d' hfit' 1 (by omega)]
        simp only [a3, Nat.zero_add, List.getElem_set_self]
      have hne : s.2.marker + 1 ≠ b + 1 := by
        rw [hmk.1, hcc]
        intro hh
        have := congrArg (fun z => z - 1 - b) hh
        simp only [BitVec.add_sub_cancel] at this
        rw [BitVec.add_comm, BitVec.add_sub_cancel, BitVec.sub_self] at this
        have := congrArg BitVec.toNat this
        simp at this
        omega
      have hinit : init (flash size) d' n = .ok ⟨n, 0, b⟩ := by
        rw [init, cassert, if_pos (by simpa using hn), searchLast, m0]
        simp only [ne_eq, not_true_eq_false, if_false, Res.ok_bind]
        rw [show n - 1 = (n - 2) + 1 by omega, searchLoop, m1]
        simp only [ne_eq, not_true_eq_false, if_false]
        rw [if_pos hne]; rfl
      have h0' : 0 < d'.length := by omega
      refine ⟨(d', ⟨n, 0, b⟩), ?_, ?_⟩
      · rw [run, step, e2]
        simp only [Res.ok_bind, Res.pure_eq, run, step]
        have : w'.n = n := g1.2.1
        rw [this, hinit]; rfl
      · apply holds_read hl
        refine ⟨hfit', rfl, h0', ?_⟩
        simp only [a3, List.getElem_set_ne (show (0 + 1 : Nat) ≠ 0 by omega), hd0]

example : final (blank 3) 2 [.write [1, 2], .restart] = .ok (0, [1, 2]) ∧
    final (blank 3) 2 [.write [1, 2], .write [3, 4], .restart] = .ok (0, [0, 0]) ∧
    final (blank 3) 2 [.write [1, 2], .write [3, 4], .restart, .write [5, 6], .restart] = .ok (0, [0, 0]) ∧
    final (blank 3) 2 [.write [1, 2], .write [3, 4], .write [5, 6], .restart] = .ok (0, [5, 6]) := by decide

/-! ## C45 -/

/-- The blocks written by a history of writes, in order (the calls of `write_block`). -/
def written (dev : Dev D) : D × Wlm → List (List Byte) → Res (List Nat)
  | _, [] => .ok []
  | s, x :: xs => do
    let (d, w, _) ← write dev s.1 s.2 x
    let l ← written dev (d, w) xs
    pure (if (dev.readBlock s.1 s.2.last x.length).2 = x then l else w.last :: l)

theorem count_cyclic (n s i : Nat) (hi : i < n) : ∀ k,
    ((List.range k).map fun j => (s + 1 + j) % n).count i = (k + n - 1 - (i + n - (s + 1) % n) % n) / n := by
  have hn : 0 < n := by omega
  have ho : (i + n - (s + 1) % n) % n < n := Nat.mod_lt _ hn
  have hs : (s + 1) % n < n := Nat.mod_lt _ hn
  intro k
  induction k with
  | zero =>
    simp only [List.range_zero, List.map_nil, List.count_nil]
    rw [Nat.div_eq_of_lt (by omega)]
  | succ k ih =>
    rw [List.range_succ, List.map_append, List.count_append, ih, List.map_singleton, List.count_singleton]
    have e1 : k + 1 + n - 1 - (i + n - (s + 1) % n) % n = (k + n - 1 - (i + n - (s + 1) % n) % n) + 1 := by omega
    rw [e1, Nat.succ_div]
    have e2 : (k + n - 1 - (i + n - (s + 1) % n) % n + 1) = k + n - (i + n - (s + 1) % n) % n := by omega
    rw [e2]
    have e3 : (n ∣ k + n - (i + n - (s + 1) % n) % n) ↔ (s + 1 + k) % n = i := by
      rw [Nat.dvd_iff_mod_eq_zero]
      have hk : k = n * (k / n) + k % n := (Nat.div_add_mod k n).symm
      have hkm : k % n < n := Nat.mod_lt _ hn
      have e4 : (s + 1 + k) % n = ((s + 1) % n + k % n) % n := by rw [Nat.add_mod]
      generalize (s + 1) % n = a at *
      -- the offset
      have eo : (i + n - a) % n = if a ≤ i then i - a else i + n - a := by
        split_ifs with hh
        · rw [show i + n - a = (i - a) + n by omega, Nat.add_mod_right, Nat.mod_eq_of_lt (by omega)]
        · rw [Nat.mod_eq_of_lt (by omega)]
      have e5 : (k + n - (i + n - a) % n) % n = (k % n + n - (i + n - a) % n) % n := by
        conv_lhs => rw [hk]
        rw [show n * (k / n) + k % n + n - (i + n - a) % n = n * (k / n) + (k % n + n - (i + n - a) % n) by omega,
          Nat.mul_add_mod]
      rw [e5, e4, eo]
      generalize k % n = b at *
      have lhs : ∀ c, c < n → ((b + n - c) % n = 0 ↔ b = c) := by
        intro c hc
        by_cases hbc : c ≤ b
        · rw [show b + n - c = (b - c) + n by omega, Nat.add_mod_right, Nat.mod_eq_of_lt (by omega)]; omega
        · rw [Nat.mod_eq_of_lt (by omega)]; omega
      have rhs : (a + b) % n = if a + b < n then a + b else a + b - n := by
        split_ifs with hh
        · exact Nat.mod_eq_of_lt hh
        · rw [Nat.mod_eq_sub_mod (by omega), Nat.mod_eq_of_lt (by omega)]
      rw [lhs _ (by split_ifs <;> omega), rhs]
      split_ifs <;> omega
    by_cases hh : (s + 1 + k) % n = i
    · rw [if_pos (e3.2 hh), if_pos (by simp [hh])]
    · rw [if_neg (fun h => hh (e3.1 h)), if_neg (by simpa using hh)]

/-- **C45.** One call: writing the stored record writes no block; writing another one writes exactly one block, the next
one cyclically. -/
theorem C45_one (size n len : Nat) (s : List Block × Wlm) (old x : List Byte) (hn : n < 256) (h0 : 0 < len)
    (hl : len ≤ size) (h : Holds size n len s old) (hx : x.length = len) :
    ∃ d w, write (flash size) s.1 s.2 x = .ok (d, w, 0) ∧ (x = old → (d, w) = s) ∧
      (x ≠ old → w.last = (s.2.last + 1) % n ∧ ∃ b, d = s.1.set ((s.2.last + 1) % n) b) := by
  obtain ⟨d, w, e, _, h2, h3⟩ := holds_write hn h0 hl h x hx
  have hlt : s.2.last < n := by obtain ⟨hd, _, ha, _⟩ := h; rw [← hd.1]; exact ha
  refine ⟨d, w, e, h2, fun hne => ?_⟩
  obtain ⟨a1, _, y, a3⟩ := h3 hne
  rw [next_mod _ _ hlt] at a1 a3
  exact ⟨a1, _, a3⟩

/-- **C45.** A history of writes: the blocks are written cyclically, so how often two blocks are written differs by at
most one. -/
theorem C45_even (size n len : Nat) (hn : n < 256) (h0 : 0 < len) (hl : len ≤ size) (xs : List (List Byte)) :
    ∀ (s : List Block × Wlm) (old : List Byte), Holds size n len s old → (∀ x ∈ xs, x.length = len) →
      ∃ l, written (flash size) s xs = .ok l ∧ (∃ k, l = (List.range k).map fun j => (s.2.last + 1 + j) % n) ∧
        ∀ i j, i < n → j < n → l.count i ≤ l.count j + 1 := by
  have key : ∀ (xs : List (List Byte)) (s : List Block × Wlm) (old : List Byte), Holds size n len s old →
      (∀ x ∈ xs, x.length = len) → ∃ l, written (flash size) s xs = .ok l ∧
        ∃ k, l = (List.range k).map fun j => (s.2.last + 1 + j) % n := by
    intro xs
    induction xs with
    | nil => intro s old _ _; exact ⟨[], rfl, 0, rfl⟩
    | cons x xs ih =>
      intro s old h hx
      obtain ⟨d, w, e, h1, h2, h3⟩ := holds_write hn h0 hl h x (hx x (by simp))
      obtain ⟨l, e2, k, hk⟩ := ih (d, w) x h1 (fun y hy => hx y (by simp [hy]))
      have hlt : s.2.last < n := by obtain ⟨hd, _, ha, _⟩ := h; rw [← hd.1]; exact ha
      have hrd : ((flash size).readBlock s.1 s.2.last x.length).2 = old := by
        have := holds_read hl h
        rw [read] at this
        rw [hx x (by simp), this]
      by_cases he : x = old
      · refine ⟨l, ?_, k, ?_⟩
        · rw [written, e]
          simp only [Res.ok_bind, e2, Res.pure_eq]
          rw [if_pos (by rw [hrd]; exact he.symm)]
        · rw [hk, ← h2 he]
      · obtain ⟨a1, _⟩ := h3 he
        refine ⟨w.last :: l, ?_, k + 1, ?_⟩
        · rw [written, e]
          simp only [Res.ok_bind, e2, Res.pure_eq]
          rw [if_neg (by rw [hrd]; exact fun h => he h.symm)]
        · rw [hk, List.range_succ_eq_map, List.map_cons, List.map_map]
          simp only
          rw [a1, next_mod _ _ hlt, Nat.add_zero]
          congr 1
          apply List.map_congr_left
          intro j _
          simp only [Function.comp]
          rw [show (s.2.last + 1) % n + 1 + j = (s.2.last + 1) % n + (1 + j) by omega, Nat.mod_add_mod]
          congr 1; omega
  intro s old h hx
  obtain ⟨l, e, k, hk⟩ := key xs s old h hx
  refine ⟨l, e, ⟨k, hk⟩, ?_⟩
  intro i j hi hj
  rw [hk, count_cyclic n s.2.last i hi, count_cyclic n s.2.last j hj]
  have hn : 0 < n := by omega
  have a1 : (i + n - (s.2.last + 1) % n) % n < n := Nat.mod_lt _ hn
  have a2 : (j + n - (s.2.last + 1) % n) % n < n := Nat.mod_lt _ hn
  rw [← Nat.add_div_right _ hn]
  exact Nat.div_le_div_right (by omega)

example : (do let w ← init (flash 3) (blank 3) 3
              written (flash 3) (blank 3, w) [[1, 2], [3, 4], [3, 4], [5, 6], [7, 8]]) = .ok [1, 2, 0, 1] := by decide

/-! ## C46 -/

/-- **C46** (partial). An error of the device is what `wearleveling_write` returns. If it comes from reading the block,
nothing changes at all. If it comes from writing (of a device with one block) a following read is not affected. Missing:
devices with several blocks (`C46_wrong`). -/
theorem C46_partial (dev : Dev D) (d : D) (w : Wlm) (x : List Byte) (h0 : 0 < x.length) :
    ((dev.readBlock d w.last x.length).1 ≠ 0 →
      write dev d w x = .ok (d, w, (dev.readBlock d w.last x.length).1)) ∧
    (∀ e, e ≠ 0 → (∀ i m, dev.writeBlock d i m x = (e, d)) → (dev.readBlock d w.last x.length).1 = 0 →
      (dev.readBlock d w.last x.length).2 ≠ x → 0 < w.n →
      ∃ w', write dev d w x = .ok (d, w', e) ∧ (w.n = 1 → w.last = 0 → read dev d w' = read dev d w)) := by
  constructor
  · intro h
    rw [write, if_neg (by omega)]
    simp only
    rw [if_pos h]
  · intro e he hwr hr hne hn
    refine ⟨{ w with marker := w.marker + 1, last := (w.last + 1) % 2 ^ 64 % w.n }, ?_, ?_⟩
    · rw [write, if_neg (by omega)]
      simp only [hr, ne_eq, not_true_eq_false, if_false, hne, not_false_eq_true, if_true]
      rw [nextBlock, if_neg (by omega), Res.ok_bind]; simp only [hwr]; rfl
    · intro h1 h2
      funext len
      rw [read, read]
      simp only [h1, Nat.mod_one, h2]

/-- **C46**, where it fails: when the device refuses the write of a changed record, the following reads are from the next
block, whatever it holds. -/
theorem C46_wrong (dev : Dev D) (d : D) (w : Wlm) (x : List Byte) (h0 : 0 < x.length) (e : Int) (he : e ≠ 0)
    (hwr : ∀ i m, dev.writeBlock d i m x = (e, d)) (hr : (dev.readBlock d w.last x.length).1 = 0)
    (hne : (dev.readBlock d w.last x.length).2 ≠ x) (hn : w.n < 256) (ha : w.last < w.n) :
    ∃ w', write dev d w x = .ok (d, w', e) ∧ ∀ len, read dev d w' len = dev.readBlock d ((w.last + 1) % w.n) len := by
  refine ⟨{ w with marker := w.marker + 1, last := (w.last + 1) % 2 ^ 64 % w.n }, ?_, ?_⟩
  · rw [write, if_neg (by omega)]
    simp only [hr, ne_eq, not_true_eq_false, if_false, hne, not_false_eq_true, if_true]
    rw [nextBlock, if_neg (by omega), Res.ok_bind]; simp only [hwr]; rfl
  · intro len
    rw [read]
    simp only
    rw [Nat.mod_eq_of_lt (show w.last + 1 < 2 ^ 64 by omega)]

/-- A device that refuses to write. -/
def broken : Dev (List Block) := { flash 3 with writeBlock := fun d _ _ _ => (-5, d) }

example : (do let s ← run (flash 3) (blank 3, ⟨3, 0, 9⟩) [.write [1, 2]]
              let (d, w, e) ← write broken s.1 s.2 [3, 4]
              pure (e, read broken s.1 s.2 2, read broken d w 2)) = .ok (-5, (0, [1, 2]), (0, [0, 0])) := by decide

/-! ## C47 -/

/-- The device if the power is lost during a write: before or after the (atomic) block write. -/
def Crashed (dev : Dev D) (s : D × Wlm) (x : List Byte) (d : D) : Prop :=
  d = s.1 ∨ ∃ w r, write dev s.1 s.2 x = .ok (d, w, r)

/-- **C47** (partial). After a history as in C44, if the power is lost during a write, then after the restart a read
returns the record before or after that write, unless the block on top of which the crash leaves the device is the last
one of several: the number of changes before the write is 1 or 2 less than a multiple of `n`. Missing: those
(`C47_wrong`). -/
theorem C47_partial (size n len : Nat) (s : List Block × Wlm) (i : Ideal) (hn0 : 0 < n) (hn : n < 256) (h0 : 0 < len)
    (hl : len ≤ size) (h : Rel size n len s i) (x : List Byte) (hx : x.length = len)
    (hs1 : n = 1 ∨ (i.changes + 1) % n ≠ 0) (hs2 : n = 1 ∨ (i.changes + 2) % n ≠ 0) (d : List Block)
    (hd : Crashed (flash size) s x d) :
    ∃ w, init (flash size) d n = .ok w ∧
      (read (flash size) d w len = read (flash size) s.1 s.2 len ∨ read (flash size) d w len = (0, x)) := by
  have hr : read (flash size) s.1 s.2 len = (0, i.data) := holds_read hl h.1
  rcases hd with rfl | ⟨w, r, hw⟩
  · have := rel_restart hn0 hn h hs1
    rw [step, h.1.2.1, Res.bind_eq_ok] at this
    obtain ⟨w, e, e2⟩ := this
    injection e2 with e2
    refine ⟨w, e, Or.inl ?_⟩
    rw [← e2]
  · obtain ⟨d', w', e, h'⟩ := rel_write hn0 hn h0 hl h x hx
    rw [hw] at e
    injection e with e
    injection e with ed e
    injection e with ew _
    subst ed ew
    have hsafe : Safe n (i.write x) := by
      rw [Ideal.write]
      split_ifs
      · exact hs1
      · exact hs2
    have := rel_restart hn0 hn h' hsafe
    rw [step, h'.1.2.1, Res.bind_eq_ok] at this
    obtain ⟨w2, e, e2⟩ := this
    injection e2 with e2
    injection e2 with _ e2
    subst e2
    refine ⟨w2, e, Or.inr ?_⟩
    have h3 := holds_read hl h'.1
    simp only at h3
    rw [h3, Ideal.write]
    split_ifs with hh
    · rw [hh]
    · rfl

/-- The histories of C44 lead to such states. -/
theorem C47_reached (size n len : Nat) (d : List Block) (hd : Fits size n d) (hn0 : 0 < n) (hn : n < 256) (h0 : 0 < len)
    (hl : len ≤ size) (mk : Byte) (hm : ∀ b ∈ d, b.marker = mk) (os : List Op)
    (hx : ∀ x, Op.write x ∈ os → x.length = len) :
    ∃ w x0, init (flash size) d n = .ok w ∧ read (flash size) d w len = (0, x0) ∧ (AllSafe n ⟨x0, 0⟩ os →
      ∃ s, run (flash size) (d, w) os = .ok s ∧ Rel size n len s (os.foldl Ideal.step ⟨x0, 0⟩)) := by
  obtain ⟨w, e, h, hr⟩ := rel_start len hd hn0 hn mk hm
  exact ⟨w, _, e, holds_read hl hr.1, fun hs => rel_run hn0 hn h0 hl os (d, w) _ hr hx hs⟩

/-- **C47**, where it fails: when the last of several blocks is active, a crash before the block write leaves the content
of block 0. -/
theorem C47_wrong (size n len : Nat) (s : List Block × Wlm) (i : Ideal) (hn2 : 2 ≤ n) (hn : n < 256) (hl : len ≤ size)
    (h : Rel size n len s i) (hs : (i.changes + 1) % n = 0) (x : List Byte) :
    Crashed (flash size) s x s.1 ∧ ∃ w, init (flash size) s.1 n = .ok w ∧
      read (flash size) s.1 w len = (flash size).readBlock s.1 0 len := by
  refine ⟨Or.inl rfl, ?_⟩
  obtain ⟨hh, hc, b, hm⟩ := h
  have hlt : s.2.last < n := by rw [hc]; exact Nat.mod_lt _ (by omega)
  have hi := init_marked hh.1 hn hh.2.1 hlt hm
  have hlast : ¬ s.2.last + 1 < n := by
    intro hlt'
    rw [← Nat.mod_add_mod, ← hc, Nat.mod_eq_of_lt hlt'] at hs
    omega
  rw [if_neg hlast] at hi
  exact ⟨_, hi, rfl⟩

-- the device holds [3, 4] (last block); power is lost before [5, 6] is written; afterwards it holds [0, 0]
example : (do let s ← run (flash 3) (blank 3, ⟨3, 0, 9⟩) [.write [1, 2], .write [3, 4]]
              let w ← init (flash 3) s.1 3
              pure (read (flash 3) s.1 s.2 2, read (flash 3) s.1 w 2)) = .ok ((0, [3, 4]), (0, [0, 0])) := by decide

/-! ## C48 -/

/-- Reading marker `p` fails with code `e`, and the search gets there: the markers before it are consecutive. -/
def FailsAt (dev : Dev D) (d : D) (p : Nat) (e : Int) (b : Byte) : Prop :=
  (dev.readMarker d p).1 = e ∧ e ≠ 0 ∧ ∀ i, i < p → dev.readMarker d i = (0, b + BitVec.ofNat 8 i)

/-- **C48**, exactly what happens: the error code becomes the index of the active block. -/
theorem C48_exact (dev : Dev D) (d : D) (n p : Nat) (e : Int) (b : Byte) (hp : p < n) (hn : n < 256)
    (h : FailsAt dev d p e b) : ∃ w, init dev d n = .ok w ∧ w.n = n ∧ w.last = asSize e := by
  obtain ⟨h1, h2, h3⟩ := h
  have loop : ∀ k i, 1 ≤ i → i ≤ p → i + k = n → (searchLoop dev d k i (b + BitVec.ofNat 8 (i - 1))).1 = e := by
    intro k
    induction k with
    | zero => intro i _ _ _; omega
    | succ k ih =>
      intro i h4 h5 h6
      rw [searchLoop]
      by_cases hi : i = p
      · subst hi
        simp only [h1, ne_eq, h2, not_false_eq_true, if_true]
      · rw [h3 i (by omega)]
        simp only [ne_eq, not_true_eq_false, if_false]
        have hb : b + BitVec.ofNat 8 (i - 1) + 1 = b + BitVec.ofNat 8 i := by
          rw [BitVec.add_assoc]; congr 1
          rw [show (1 : Byte) = BitVec.ofNat 8 1 by rfl, ← BitVec.ofNat_add]; congr 1; omega
        rw [hb, if_neg (by simp)]
        have := ih (i + 1) (by omega) (by omega) (by omega)
        rwa [Nat.add_sub_cancel] at this
  have hs : (searchLast dev d n).1 = e := by
    rw [searchLast]
    by_cases hp0 : p = 0
    · subst hp0
      simp only [h1, ne_eq, h2, not_false_eq_true, if_true]
    · rw [h3 0 (by omega)]
      simp only [ne_eq, not_true_eq_false, if_false]
      exact loop (n - 1) 1 (Nat.le_refl _) (by omega) (by omega)
  refine ⟨_, init_eq _ _ _ hn, rfl, ?_⟩
  simp only [hs]

/-- **C48** (partial). Only an error code that happens to be a block index gives a block of the page. Missing: all other
codes (`C48_wrong`). -/
theorem C48_partial (dev : Dev D) (d : D) (n p : Nat) (e : Int) (b : Byte) (hp : p < n) (hn : n < 256)
    (h : FailsAt dev d p e b) (he : 0 < e ∧ e < n) : ∃ w, init dev d n = .ok w ∧ w.last < n := by
  obtain ⟨w, e1, _, e2⟩ := C48_exact dev d n p e b hp hn h
  refine ⟨w, e1, ?_⟩
  obtain ⟨k, rfl⟩ := Int.eq_ofNat_of_zero_le (show 0 ≤ e by omega)
  rw [e2, asSize_nat _ (by omega)]; omega

/-- **C48**, where it fails: every negative code (of an `int`) and every code that is not less than the number of
blocks. -/
theorem C48_wrong (dev : Dev D) (d : D) (n p : Nat) (e : Int) (b : Byte) (hp : p < n) (hn : n < 256)
    (h : FailsAt dev d p e b) (he : e < 0 ∨ n ≤ e) (hint : -2 ^ 31 ≤ e ∧ e < 2 ^ 31) :
    ∃ w, init dev d n = .ok w ∧ w.n ≤ w.last := by
  obtain ⟨w, e1, e2, e3⟩ := C48_exact dev d n p e b hp hn h
  refine ⟨w, e1, ?_⟩
  rw [e2, e3, asSize]
  omega

example : (do let w ← init { flash 3 with readMarker := fun _ _ => (-1, 0) } (blank 3) 3
              pure w.last) = .ok 18446744073709551615 := by decide

/-! ## C49 -/

/-- **C49**, exactly what happens: after a write of a shorter record that changes it, the rest of the storage section is
what the next block held. -/
theorem C49_exact (size n : Nat) (s : List Block × Wlm) (whole : List Byte) (hn : n < 256)
    (h : Holds size n size s whole) (x : List Byte) (h0 : 0 < x.length) (hl : x.length ≤ size)
    (hx : whole.take x.length ≠ x) :
    ∃ d w, write (flash size) s.1 s.2 x = .ok (d, w, 0) ∧
      read (flash size) d w size =
        (0, x ++ ((flash size).readBlock s.1 ((s.2.last + 1) % n) size).2.drop x.length) := by
  obtain ⟨hd, hw, ha, hold⟩ := h
  have hlt : s.2.last < n := by rw [← hd.1]; exact ha
  have hne : s.1[s.2.last].data.take x.length ≠ x := by
    rw [← hold, List.take_take, Nat.min_eq_left hl] at hx; exact hx
  obtain ⟨hnx, e⟩ := write_other size n s.1 hd s.2 hw hn ha x h0 hl hne
  refine ⟨_, _, e, ?_⟩
  have hfit := fits_set hd _ hnx (s.2.marker + 1) x hl
  rw [read, flash_read size n _ hfit _ _ (by simpa using hnx) (Nat.le_refl _)]
  simp only [List.getElem_set_self]
  have hmod : (s.2.last + 1) % n < s.1.length := by rw [← next_mod n _ hlt]; exact hnx
  rw [flash_read size n s.1 hd _ _ hmod (Nat.le_refl _)]
  have l1 : (s.1[next n s.2.last]).data.length = size := hd.2 _ (List.getElem_mem _)
  have hcong : s.1[(s.2.last + 1) % n].data = s.1[next n s.2.last].data := by
    simp only [next_mod n _ hlt]
  rw [hcong]
  congr 1
  rw [List.take_of_length_le (by simp [l1]; omega), List.take_of_length_le (by omega)]

/-- **C49** (partial). A shorter record is written correctly if it does not change anything, if there is only one block,
or if the next block happens to hold the same rest. Missing: everything else (`C49_wrong`). -/
theorem C49_partial (size n : Nat) (s : List Block × Wlm) (whole : List Byte) (hn0 : 0 < n) (hn : n < 256)
    (h : Holds size n size s whole) (x : List Byte) (h0 : 0 < x.length) (hl : x.length ≤ size)
    (hok : whole.take x.length = x ∨ n = 1 ∨
      ((flash size).readBlock s.1 ((s.2.last + 1) % n) size).2.drop x.length = whole.drop x.length) :
    ∃ d w, write (flash size) s.1 s.2 x = .ok (d, w, 0) ∧
      read (flash size) d w size = (0, x ++ whole.drop x.length) := by
  by_cases hx : whole.take x.length = x
  · obtain ⟨hd, hw, ha, hold⟩ := h
    have : s.1[s.2.last].data.take x.length = x := by
      rw [← hold, List.take_take, Nat.min_eq_left hl] at hx; exact hx
    refine ⟨s.1, s.2, write_same size n s.1 hd s.2 ha x h0 hl this, ?_⟩
    rw [holds_read (Nat.le_refl _) ⟨hd, hw, ha, hold⟩]
    conv_lhs => rw [← List.take_append_drop x.length whole, hx]
  · obtain ⟨d, w, e, hr⟩ := C49_exact size n s whole hn h x h0 hl hx
    refine ⟨d, w, e, ?_⟩
    rw [hr]
    rcases hok with hok | hok | hok
    · exact absurd hok hx
    · subst hok
      obtain ⟨hd, hw, ha, hold⟩ := h
      have h00 : s.2.last = 0 := by have := hd.1; omega
      have hz : (s.2.last + 1) % 1 = s.2.last := by rw [Nat.mod_one, h00]
      rw [hz, flash_read size 1 s.1 hd _ _ ha (Nat.le_refl _), hold]
    · rw [hok]

/-- **C49**, where it fails: whenever the rests differ. -/
theorem C49_wrong (size n : Nat) (s : List Block × Wlm) (whole : List Byte) (hn : n < 256)
    (h : Holds size n size s whole) (x : List Byte) (h0 : 0 < x.length) (hl : x.length ≤ size)
    (hx : whole.take x.length ≠ x)
    (hbad : ((flash size).readBlock s.1 ((s.2.last + 1) % n) size).2.drop x.length ≠ whole.drop x.length) :
    ∃ d w, write (flash size) s.1 s.2 x = .ok (d, w, 0) ∧
      read (flash size) d w size ≠ (0, x ++ whole.drop x.length) := by
  obtain ⟨d, w, e, hr⟩ := C49_exact size n s whole hn h x h0 hl hx
  refine ⟨d, w, e, ?_⟩
  rw [hr]
  intro hh
  injection hh with _ hh
  exact hbad (List.append_cancel_left hh)

example : final (blank 3) 3 [.write [1, 2, 3], .write [4, 5]] = .ok (0, [4, 5, 0]) := by decide

end Gel.Wear
