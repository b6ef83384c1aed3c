import Verif.Watcher.Props
import Mathlib.Data.List.GetD

/-!
# Watchers: memory that an interrupt handler changes (C199)

`watcher_process_changes` for a list of one watcher at the granularity of single bytes: `mem k` is the content of the watched memory
when the polling program makes its `k`-th access to a byte of it, counted from the start of the program; what a handler does between
two accesses is therefore arbitrary. `memcmp`, the callback and `memcpy` read the bytes in order; `memcmp` may stop at the first
difference (the accesses left out then take no time, a special case). The callback copies the memory: `reported` is what it saw last.
-/
namespace Gel.Watcher

/-- The bytes read by `n` accesses from the `t`-th on. -/
def snap (mem : Nat → List Byte) (n t : Nat) : List Byte := (List.range n).map fun j => (mem (t + j)).getD j 0

structure ISt (w : Nat) where
  elem : Watcher w
  reported : List Byte
  /-- number of accesses so far -/
  time : Nat
  called : Bool

/-- The body of the loop, watcher.c:86-102, with the accesses to the memory. -/
def stepI (mem : Nat → List Byte) (ts : BitVec w) (s : ISt w) : ISt w :=
  let x := s.elem
  let n := x.size
  if x.old ≠ snap mem n s.time then
    if x.delay > 0 then ⟨{ x with ts := ts, moved := true, old := snap mem n (s.time + n) }, s.reported, s.time + 2 * n, false⟩
    else ⟨{ x with moved := false, old := snap mem n (s.time + 2 * n) }, snap mem n (s.time + n), s.time + 3 * n, true⟩
  else if x.moved then
    if Time.isLooselyExpired x.ts ts x.delay then ⟨{ x with moved := false }, snap mem n (s.time + n), s.time + 2 * n, true⟩
    else ⟨x, s.reported, s.time + n, false⟩
  else ⟨x, s.reported, s.time + n, false⟩

/-- Polls at the times `ts`. -/
def pollsI (mem : Nat → List Byte) (s : ISt w) (ts : List (BitVec w)) : ISt w := ts.foldl (fun s t => stepI mem t s) s

/-- The memory changes from `a` to `b` before access `q`. -/
def change1 (a b : List Byte) (q : Nat) : Nat → List Byte := fun t => if t < q then a else b

theorem snap_length (mem : Nat → List Byte) (n t : Nat) : (snap mem n t).length = n := by simp [snap]

theorem snap_congr {mem mem' : Nat → List Byte} {n t : Nat} (h : ∀ k, t ≤ k → k < t + n → mem k = mem' k) :
    snap mem n t = snap mem' n t := by
  unfold snap
  refine List.map_congr_left fun j hj => ?_
  rw [h _ (by omega) (by have := List.mem_range.1 hj; omega)]

theorem snap_change1 (a b : List Byte) (q n t : Nat) (ha : a.length = n) (hb : b.length = n) :
    snap (change1 a b q) n t = a.take (q - t) ++ b.drop (q - t) := by
  apply List.ext_getElem
  · simp [snap]; omega
  · intro j h1 h2
    have hj : j < n := by simpa [snap] using h1
    simp only [snap, List.getElem_map, List.getElem_range, change1]
    by_cases h : t + j < q
    · rw [if_pos h, List.getElem_append_left (by simp; omega), List.getElem_take, List.getD_eq_getElem _ _ (by omega)]
    · rw [if_neg h, List.getElem_append_right (by simp; omega), List.getElem_drop, List.getD_eq_getElem _ _ (by omega)]
      congr 1
      simp only [List.length_take]; omega

theorem snap_const (c : List Byte) (n t : Nat) (hc : c.length = n) : snap (fun _ => c) n t = c := by
  have := snap_change1 c c 0 n t hc hc
  rw [show (change1 c c 0) = fun _ => c from funext fun k => by simp [change1]] at this
  simpa using this

/-- **C199.** If nothing changes during the poll, this is the body of the loop as modelled before. -/
theorem C199_quiet (mem : Nat → List Byte) (ts : BitVec w) (s : ISt w) (c : List Byte) (hc : c.length = s.elem.size)
    (hm : ∀ t, s.time ≤ t → mem t = c) :
    let o := step (⟨fun _ _ => c, fun m _ => m⟩ : Env Unit) () ts 0 s.elem
    (stepI mem ts s).elem = o.elem ∧ (stepI mem ts s).called = o.called ∧
      (stepI mem ts s).reported = if o.called then c else s.reported := by
  have h : ∀ t, s.time ≤ t → snap mem s.elem.size t = c := by
    intro t ht
    rw [snap_congr (mem' := fun _ => c) (fun k hk _ => hm k (by omega)), snap_const _ _ _ hc]
  have htk : c.take s.elem.size = c := by rw [← hc, List.take_length]
  simp only [stepI, step, now, htk, h s.time (by omega), h (s.time + s.elem.size) (by omega), h (s.time + 2 * s.elem.size) (by omega)]
  split_ifs <;> simp_all

/-! ## Watchers without delay -/

theorem take_eq_iff {a b : List Byte} {d j : Nat} (hlen : a.length = b.length) (hd : d < a.length) (h1 : a.take d = b.take d)
    (h2 : a[d]? ≠ b[d]?) : a.take j = b.take j ↔ j ≤ d := by
  constructor
  · intro h
    by_contra hc
    apply h2
    have := congrArg (fun l => l[d]?) h
    simpa [List.getElem?_take, show d < j by omega] using this
  · intro h
    have := congrArg (List.take j) h1
    simpa [List.take_take, Nat.min_eq_left h] using this

/-- **C199.** A watcher without delay notices a change to `a`, and during the callback or the copy the memory changes once more, to
`b`, the first different byte having index `d`. The change to `b` is lost — the stored copy is `b`, and the callback has not seen
it — exactly if it comes after the callback has read byte `d` and before it is copied. -/
theorem C199_exact (a b : List Byte) (d q : Nat) (ts : BitVec w) (s : ISt w) (ha : a.length = s.elem.size) (hb : b.length = s.elem.size)
    (hdel : s.elem.delay = 0) (hold : s.elem.old ≠ a) (hd : d < s.elem.size) (h1 : a.take d = b.take d) (h2 : a[d]? ≠ b[d]?)
    (hq : s.time + s.elem.size ≤ q) :
    let s' := stepI (change1 a b q) ts s
    s'.called = true ∧ ((s'.elem.old = b ∧ s'.reported ≠ b) ↔
      s.time + s.elem.size + d < q ∧ q ≤ s.time + 2 * s.elem.size + d) := by
  have hs1 : snap (change1 a b q) s.elem.size s.time = a := by
    rw [snap_change1 a b q _ _ ha hb, List.take_of_length_le (by omega), List.drop_of_length_le (by omega), List.append_nil]
  have hmix : ∀ j, a.take j ++ b.drop j = b ↔ j ≤ d := by
    intro j
    rw [← take_eq_iff (by omega) (by omega) h1 h2 (j := j)]
    constructor
    · intro h
      have := congrArg (List.take j) h
      rw [List.take_append] at this
      by_cases hj : j ≤ a.length
      · simpa [List.take_take, Nat.min_eq_left hj] using this
      · rw [List.take_of_length_le (by omega), List.drop_of_length_le (by omega), List.append_nil] at h
        rw [h]
    · intro h; rw [h, List.take_append_drop]
  have hz : ¬ s.elem.delay > 0 := by rw [hdel]; simp
  simp only [stepI, hs1, if_pos hold, hz, if_false, snap_change1 a b q _ _ ha hb, ne_eq, hmix, true_and]
  omega

/-- **C199**, where it fails: from then on the callback is not called, and what it has seen is not what is there. -/
theorem C199_lost_wrong (b : List Byte) (s : ISt w) (hb : b.length = s.elem.size) (hold : s.elem.old = b) (hmv : s.elem.moved = false)
    (mem : Nat → List Byte) (hm : ∀ t, s.time ≤ t → mem t = b) (ts : List (BitVec w)) :
    (pollsI mem s ts).reported = s.reported ∧ (pollsI mem s ts).elem = s.elem := by
  induction ts generalizing s with
  | nil => exact ⟨rfl, rfl⟩
  | cons t ts ih =>
    have hs : snap mem s.elem.size s.time = b := by
      rw [snap_congr (mem' := fun _ => b) (fun k hk _ => hm k (by omega)), snap_const _ _ _ hb]
    have e : stepI mem t s = ⟨s.elem, s.reported, s.time + s.elem.size, false⟩ := by
      simp [stepI, hs, hold, hmv]
    show (pollsI mem (stepI mem t s) ts).reported = _ ∧ (pollsI mem (stepI mem t s) ts).elem = _
    rw [e]
    exact ih ⟨s.elem, s.reported, s.time + s.elem.size, false⟩ hb hold hmv fun t ht => hm t (by simp only at ht; omega)

/-! ## Watchers with delay -/

/-- **C199**, where it fails: a delayed watcher is due; the memory changes while the callback reads it, and back afterwards. The
callback is not called again, and has not seen the value that is there. -/
theorem C199_back_wrong (a b : List Byte) (mem : Nat → List Byte) (ts : BitVec w) (s : ISt w) (ha : a.length = s.elem.size)
    (hb : b.length = s.elem.size) (hab : a ≠ b) (hold : s.elem.old = a) (hmv : s.elem.moved = true)
    (hexp : Time.isLooselyExpired s.elem.ts ts s.elem.delay = true)
    (h1 : ∀ t, s.time ≤ t → t < s.time + s.elem.size → mem t = a)
    (h2 : ∀ t, s.time + s.elem.size ≤ t → t < s.time + 2 * s.elem.size → mem t = b)
    (h3 : ∀ t, s.time + 2 * s.elem.size ≤ t → mem t = a) (later : List (BitVec w)) :
    (pollsI mem (stepI mem ts s) later).reported = b ∧ (pollsI mem (stepI mem ts s) later).elem.old = a := by
  have hs1 : snap mem s.elem.size s.time = a := by
    rw [snap_congr (mem' := fun _ => a) (fun k hk hk' => h1 k (by omega) hk'), snap_const _ _ _ ha]
  have hs2 : snap mem s.elem.size (s.time + s.elem.size) = b := by
    rw [snap_congr (mem' := fun _ => b) (fun k hk hk' => h2 k (by omega) (by omega)), snap_const _ _ _ hb]
  have e : stepI mem ts s = ⟨{ s.elem with moved := false }, b, s.time + 2 * s.elem.size, true⟩ := by
    simp [stepI, hs1, hs2, hold, hmv, hexp]
  rw [e]
  have := C199_lost_wrong a (⟨{ s.elem with moved := false }, b, s.time + 2 * s.elem.size, true⟩ : ISt w) ha hold rfl mem
    (fun t ht => h3 t ht) later
  rw [this.1, this.2]
  exact ⟨rfl, hold⟩

/-- Between two accesses the memory changes at most once. -/
def AtMostOnce (mem : Nat → List Byte) (t t' : Nat) : Prop := ∃ q a b, ∀ k, t ≤ k → k ≤ t' → mem k = change1 a b q k

/-- The states before the polls. -/
def traceI (mem : Nat → List Byte) (ts : Nat → BitVec w) (s : ISt w) : Nat → ISt w
  | 0 => s
  | k + 1 => stepI mem (ts k) (traceI mem ts s k)

/-- The callback has seen the stored copy, or is going to be called, or the next poll is going to notice a change. -/
def Told (mem : Nat → List Byte) (s : ISt w) (t' : Nat) : Prop :=
  s.elem.moved = true ∨ s.reported = s.elem.old ∨ ((∀ k, s.time ≤ k → k ≤ t' → mem k = mem s.time) ∧ mem s.time ≠ s.elem.old)

theorem stepI_keeps (mem : Nat → List Byte) (ts : BitVec w) (s : ISt w) :
    (stepI mem ts s).elem.size = s.elem.size ∧ (stepI mem ts s).elem.delay = s.elem.delay ∧
      s.time + s.elem.size ≤ (stepI mem ts s).time := by
  simp only [stepI]
  split_ifs <;> exact ⟨rfl, rfl, by simp only; omega⟩

theorem traceI_keeps (mem : Nat → List Byte) (ts : Nat → BitVec w) (s : ISt w) (k : Nat) :
    (traceI mem ts s k).elem.size = s.elem.size ∧ (traceI mem ts s k).elem.delay = s.elem.delay := by
  induction k with
  | zero => exact ⟨rfl, rfl⟩
  | succ k ih =>
    have := stepI_keeps mem (ts k) (traceI mem ts s k)
    exact ⟨this.1.trans ih.1, this.2.1.trans ih.2⟩

theorem told_step {mem : Nat → List Byte} {ts : BitVec w} {s : ISt w} {t'' : Nat} (hlen : ∀ k, (mem k).length = s.elem.size)
    (hdel : s.elem.delay > 0) (ht : (stepI mem ts s).time ≤ t'') (h1 : AtMostOnce mem s.time t'')
    (h : Told mem s (stepI mem ts s).time) : Told mem (stepI mem ts s) t'' := by
  obtain ⟨q, a, b, hch⟩ := h1
  have hk := (stepI_keeps mem ts s).2.2
  by_cases hn : s.elem.old ≠ snap mem s.elem.size s.time
  · left
    simp only [stepI]
    rw [if_pos hn, if_pos hdel]
  · have hn' : s.elem.old = snap mem s.elem.size s.time := not_not.1 hn
    by_cases hm : s.elem.moved = true
    · by_cases he : Time.isLooselyExpired s.elem.ts ts s.elem.delay = true
      · have e : stepI mem ts s = ⟨{ s.elem with moved := false }, snap mem s.elem.size (s.time + s.elem.size),
            s.time + 2 * s.elem.size, true⟩ := by
          simp [stepI, ← hn', hm, he]
        rw [e] at ht ⊢
        simp only at ht
        right
        -- the memory before, and after the change
        by_cases hz : s.elem.size = 0
        · left
          have h0 := snap_length mem s.elem.size s.time
          have h1 := snap_length mem s.elem.size (s.time + s.elem.size)
          rw [hz] at h0 h1
          simp only [hn', hz, List.length_eq_zero_iff.1 h0, List.length_eq_zero_iff.1 h1]
        · have hA : s.time < q → a.length = s.elem.size := by
            intro hlt
            have := hch s.time (by omega) (by omega)
            rw [change1, if_pos hlt] at this
            rw [← this]; exact hlen _
          have hB : q ≤ t'' → b.length = s.elem.size := by
            intro hle
            have := hch t'' (by omega) (by omega)
            rw [change1, if_neg (by omega)] at this
            rw [← this]; exact hlen _
          have hsn : ∀ t, s.time ≤ t → t + s.elem.size ≤ t'' → snap mem s.elem.size t = snap (change1 a b q) s.elem.size t :=
            fun t h1 h2 => snap_congr fun k h3 h4 => hch k (by omega) (by omega)
          by_cases hq1 : q ≤ s.time
          · left
            have hb := hB (by omega)
            have hc : ∀ t, s.time ≤ t → t + s.elem.size ≤ t'' → snap mem s.elem.size t = b := by
              intro t h1 h2
              rw [hsn t h1 h2, snap_congr (mem' := fun _ => b) (fun k h3 _ => by rw [change1, if_neg (by omega)]), snap_const _ _ _ hb]
            simp only [hn', hc s.time (by omega) (by omega), hc (s.time + s.elem.size) (by omega) (by omega)]
          · have ha := hA (by omega)
            by_cases hq2 : q ≤ s.time + 2 * s.elem.size
            · have hb := hB (by omega)
              rw [hsn _ (by omega) (by omega), snap_change1 a b q _ _ ha hb] at hn'
              by_cases hbo : b = s.elem.old
              · left
                rw [hsn _ (by omega) (by omega), snap_change1 a b q _ _ ha hb]
                simp only
                rw [← hbo] at hn' ⊢
                have htake : b.take (q - s.time) = a.take (q - s.time) := by
                  have := congrArg (List.take (q - s.time)) hn'
                  rw [this, List.take_append]
                  by_cases hj : q - s.time ≤ a.length
                  · simp [List.take_take, hj]
                  · simp [List.take_take]; omega
                have : a.take (q - (s.time + s.elem.size)) = b.take (q - (s.time + s.elem.size)) := by
                  have := congrArg (List.take (q - (s.time + s.elem.size))) htake
                  rw [List.take_take, List.take_take, Nat.min_eq_left (by omega)] at this
                  exact this.symm
                rw [this, List.take_append_drop]
              · right
                simp only
                have hc : ∀ k, s.time + 2 * s.elem.size ≤ k → k ≤ t'' → mem k = b := by
                  intro k h1 h2
                  rw [hch k (by omega) h2, change1, if_neg (by omega)]
                refine ⟨fun k h1 h2 => by rw [hc k h1 h2, hc _ (by omega) (by omega)], ?_⟩
                rw [hc _ (by omega) (by omega)]
                exact hbo
            · left
              have hc : ∀ t, s.time ≤ t → t + s.elem.size ≤ s.time + 2 * s.elem.size → snap mem s.elem.size t = a := by
                intro t h1 h2
                rw [hsn t h1 (by omega), snap_congr (mem' := fun _ => a) (fun k h3 h4 => by rw [change1, if_pos (by omega)]),
                  snap_const _ _ _ ha]
              simp only [hn', hc s.time (by omega) (by omega), hc (s.time + s.elem.size) (by omega) (by omega)]
      · left; simp [stepI, ← hn', hm, he]
    · have hm' : s.elem.moved = false := by simpa using hm
      have e : stepI mem ts s = ⟨s.elem, s.reported, s.time + s.elem.size, false⟩ := by
        simp [stepI, ← hn', hm']
      rcases h with h | h | ⟨h, h'⟩
      · exact absurd h hm
      · right; left; rw [e]; exact h
      · exfalso
        apply h'
        rw [hn', snap_congr (mem' := fun _ => mem s.time) (fun k h3 h4 => h k h3 (by omega)), snap_const _ _ _ (hlen _)]

/-- **C199** (partial). A delayed watcher, and memory that changes at most once from the beginning of a poll to the beginning of the
next but one — during or between them, also in the midst of `memcmp`, `memcpy` and the callback. If the callback has seen the initial
value and the memory no longer changes from some poll on, then as soon as a later poll finds the delay over (or nothing is pending), the
callback has seen the final value. Missing: faster changes (`C199_back_wrong`), watchers without delay (`C199_exact`, `C199_lost_wrong`). -/
theorem C199_delayed_partial (mem : Nat → List Byte) (ts : Nat → BitVec w) (s : ISt w) (hlen : ∀ k, (mem k).length = s.elem.size)
    (hdel : s.elem.delay > 0) (hrep : s.reported = s.elem.old)
    (hone : ∀ k, AtMostOnce mem (traceI mem ts s k).time (traceI mem ts s (k + 2)).time)
    (K : Nat) (c : List Byte) (hc : ∀ t, (traceI mem ts s K).time ≤ t → mem t = c) :
    ∀ k > K, (traceI mem ts s k).elem.old = c ∧
      ((traceI mem ts s k).elem.moved = false → (traceI mem ts s k).reported = c) ∧
      (Time.isLooselyExpired (traceI mem ts s k).elem.ts (ts k) (traceI mem ts s k).elem.delay = true →
        (traceI mem ts s (k + 1)).reported = c) := by
  have told : ∀ k, Told mem (traceI mem ts s k) (traceI mem ts s (k + 1)).time := by
    intro k
    induction k with
    | zero => exact .inr (.inl hrep)
    | succ k ih =>
      have hk := traceI_keeps mem ts s k
      exact told_step (s := traceI mem ts s k) (by rw [hk.1]; exact hlen) (by rw [hk.2]; exact hdel)
        (by have := (stepI_keeps mem (ts (k + 1)) (traceI mem ts s (k + 1))).2.2; show (traceI mem ts s (k + 1)).time ≤ _; exact le_trans (by omega) this)
        (hone k) ih
  have hcl : c.length = s.elem.size := by rw [← hc _ (Nat.le_refl _)]; exact hlen _
  have mono : ∀ k ≥ K, (traceI mem ts s K).time ≤ (traceI mem ts s k).time := by
    intro k hk
    induction k, hk using Nat.le_induction with
    | base => exact Nat.le_refl _
    | succ k _ ih =>
      have := (stepI_keeps mem (ts k) (traceI mem ts s k)).2.2
      show _ ≤ (stepI mem (ts k) (traceI mem ts s k)).time
      omega
  have snapc : ∀ k ≥ K, ∀ t, (traceI mem ts s k).time ≤ t → snap mem s.elem.size t = c := by
    intro k hk t ht
    rw [snap_congr (mem' := fun _ => c) (fun j h3 _ => hc j (by have := mono k hk; omega)), snap_const _ _ _ hcl]
  -- one poll with constant memory stores it
  have stored : ∀ k ≥ K, (traceI mem ts s (k + 1)).elem.old = c ∧
      ((traceI mem ts s (k + 1)).elem.moved = false → (traceI mem ts s (k + 1)).reported = c) := by
    intro k hk
    have hkk := traceI_keeps mem ts s k
    have h0 := snapc k hk
    have hd : (traceI mem ts s k).elem.delay > 0 := by rw [hkk.2]; exact hdel
    have ht := told k
    show (stepI mem (ts k) (traceI mem ts s k)).elem.old = c ∧ ((stepI mem (ts k) (traceI mem ts s k)).elem.moved = false →
      (stepI mem (ts k) (traceI mem ts s k)).reported = c)
    generalize hX : traceI mem ts s k = x at *
    simp only [stepI, hkk.1, h0 x.time (by omega), h0 (x.time + s.elem.size) (by omega), hd, if_true]
    by_cases hn : x.elem.old = c
    · rw [if_neg (not_not.2 hn)]
      by_cases hm : x.elem.moved = true
      · rw [if_pos hm]
        split_ifs with he
        · exact ⟨hn, fun _ => rfl⟩
        · exact ⟨hn, fun h => by rw [hm] at h; cases h⟩
      · rw [if_neg hm]
        refine ⟨hn, fun _ => ?_⟩
        rcases ht with h | h | ⟨_, h⟩
        · exact absurd h hm
        · simp only; rw [h, hn]
        · exact absurd (by rw [hc _ (by have := mono k hk; rw [hX] at this; exact this), hn]) h
    · rw [if_pos hn]
      exact ⟨rfl, fun h => by cases h⟩
  intro k hk
  obtain ⟨j, rfl⟩ : ∃ j, k = j + 1 := ⟨k - 1, by omega⟩
  have hj := stored j (by omega)
  refine ⟨hj.1, hj.2, fun he => ?_⟩
  have hkk := traceI_keeps mem ts s (j + 1)
  have h0 := snapc (j + 1) (by omega)
  show (stepI mem (ts (j + 1)) (traceI mem ts s (j + 1))).reported = c
  generalize traceI mem ts s (j + 1) = x at *
  simp only [stepI, hkk.1, h0 x.time (by omega), h0 (x.time + s.elem.size) (by omega), hj.1, ne_eq, not_true_eq_false, if_false]
  by_cases hm : x.elem.moved = true
  · simp [hm, he]
  · rw [if_neg hm]; exact hj.2 (by simpa using hm)

/-! ## Examples: two bytes -/

/-- A watcher without delay, of two bytes, both 0. -/
def exI (delay : BitVec 32) : ISt 32 := ⟨⟨[0, 0], 2, delay, 0, false⟩, [0, 0], 0, false⟩

-- the value 0x0101 is noticed; 0x0202 comes between the two bytes read by the callback: it sees 0x0201, and never more
example : (stepI (change1 [1, 1] [2, 2] 3) 0 (exI 0)).reported = [1, 2] ∧
    (stepI (change1 [1, 1] [2, 2] 3) 0 (exI 0)).elem.old = [2, 2] ∧
    (pollsI (change1 [1, 1] [2, 2] 3) (exI 0) [0, 1, 2, 3]).reported = [1, 2] := by decide
-- in the midst of the copy: noticed at the next poll
example : (stepI (change1 [1, 1] [2, 2] 5) 0 (exI 0)).elem.old = [1, 2] ∧
    (pollsI (change1 [1, 1] [2, 2] 5) (exI 0) [0, 1]).reported = [2, 2] := by decide
-- with a delay of 10 the same changes are told in the end
example : (pollsI (change1 [1, 1] [2, 2] 3) (exI 10) [0, 1, 2]).reported = [0, 0] ∧
    (pollsI (change1 [1, 1] [2, 2] 3) (exI 10) [0, 1, 12]).reported = [2, 2] ∧
    (pollsI (change1 [1, 1] [2, 2] 5) (exI 10) [0, 1, 12]).reported = [2, 2] := by decide
-- the assumption of `C199_delayed_partial` for one change at any access
example (q t t' : Nat) : AtMostOnce (change1 [1, 1] [2, 2] q) t t' := ⟨q, _, _, fun _ _ _ => rfl⟩
-- 0x0202 for the time the callback reads the value, 0x0101 before and afterwards
example : (pollsI (fun t => if 4 + 2 ≤ t ∧ t < 8 then [2, 2] else [1, 1]) (exI 10) [0, 11, 22, 33]).reported = [2, 2] := by decide

end Gel.Watcher
