import Verif.Wear.Props

/-!
# Wear leveling: every history of writes and restarts (C239)

`C44_partial` stops at the first restart that brings back old data, `C44_lost` tells of one history after it. Here every
history of changing writes and restarts of a working device is followed exactly, also after data was lost.

`search_last` (wearleveling.c:93-126) looks for the first block whose marker does not continue the one before. What it
finds depends only on which blocks have the marker that continues from block 0. There are four patterns (`Phase`).
-/
namespace Gel.Wear

namespace Spec

/-- How the markers continue from that of block 0, and where the active block is. -/
inductive Phase where
  /-- the blocks up to `p`, the active one, continue, no later one does -/
  | healthy (p : Nat)
  /-- all blocks continue, `p` is active -/
  | flat (p : Nat)
  /-- all blocks continued when block 0 was made active; blocks 1 to `k`, the active one, have been written since -/
  | shifted (k : Nat)
  /-- after a restart of `shifted k`: block `j` is active, and the blocks from there to `k` do not continue -/
  | mixed (j k : Nat)
  deriving DecidableEq, Repr

/-- The active block. -/
def Phase.pos : Phase → Nat
  | .healthy p => p
  | .flat p => p
  | .shifted k => k
  | .mixed j _ => j

/-- A changing write on a device with `n` blocks. -/
def Phase.write (n : Nat) : Phase → Phase
  | .healthy p => if p + 1 < n then .healthy (p + 1) else .healthy 0
  | .flat p => if p + 1 < n then .flat (p + 1) else .healthy 0
  | .shifted k => if k + 1 < n then .shifted (k + 1) else .healthy 0
  | .mixed j k => if j + 1 < k then .mixed (j + 1) k else .flat k

/-- A restart. -/
def Phase.restart (n : Nat) : Phase → Phase
  | .healthy p => if p + 1 < n then .healthy p else .shifted 0
  | .flat _ => .shifted 0
  | .shifted k => if k = 0 then .shifted 0 else .mixed 0 k
  | .mixed j k => .mixed j k

/-- A memory that loses data: the record that is read, the record in block 0, and the phase. -/
structure Lossy where
  data : List Byte
  first : List Byte
  phase : Phase
  deriving DecidableEq, Repr

/-- A write of the stored record does nothing. A restart keeps the record exactly if it keeps the active block; otherwise
the record of block 0 comes back. -/
def Lossy.step (n : Nat) (s : Lossy) : Op → Lossy
  | .write x =>
    if x = s.data then s
    else ⟨x, if (s.phase.write n).pos = 0 then x else s.first, s.phase.write n⟩
  | .restart => ⟨if (s.phase.restart n).pos = s.phase.pos then s.data else s.first, s.first, s.phase.restart n⟩

end Spec

open Spec

/-! ## Markers -/

theorem add_ofNat_inj (b : Byte) (x y : Nat) : b + BitVec.ofNat 8 x = b + BitVec.ofNat 8 y ↔ x % 256 = y % 256 := by
  constructor
  · intro h
    have h1 := congrArg (fun z => z - b) h
    simp only [BitVec.add_comm b, BitVec.add_sub_cancel] at h1
    simpa using congrArg BitVec.toNat h1
  · intro h
    congr 1
    apply BitVec.eq_of_toNat_eq
    simpa using h

theorem add_one (b : Byte) (x : Nat) : b + BitVec.ofNat 8 x + 1 = b + BitVec.ofNat 8 (x + 1) := by
  rw [BitVec.add_assoc, BitVec.ofNat_add]; rfl

/-- What is searched for is the first block that does not continue. -/
theorem search_first {size n : Nat} {d : List Block} {b : Byte} (hd : Fits size n d) (p : Nat) (hp : p < n)
    (h1 : ∀ j (h : j < d.length), j ≤ p → d[j].marker = b + BitVec.ofNat 8 j)
    (h2 : ∀ h : p + 1 < d.length, d[p + 1].marker ≠ b + BitVec.ofNat 8 (p + 1)) :
    searchLast (flash size) d n = (if p + 1 < n then (p : Int) else 0, b + BitVec.ofNat 8 p) := by
  have hlen := hd.1
  have loop : ∀ k i, i + k = n → 1 ≤ i → i ≤ p + 1 →
      searchLoop (flash size) d k i (b + BitVec.ofNat 8 (i - 1)) =
        (if p + 1 < n then (p : Int) else 0, b + BitVec.ofNat 8 p) := by
    intro k
    induction k with
    | zero =>
      intro i h1 h2 h3
      rw [searchLoop, if_neg (by omega), show i - 1 = p by omega]
    | succ k ih =>
      intro i g1 g2 g3
      have hi : i < d.length := by omega
      rw [searchLoop, flash_marker size n d hd i hi]
      simp only [ne_eq, not_true_eq_false, if_false]
      rw [add_one, show i - 1 + 1 = i by omega]
      by_cases hc : i ≤ p
      · have hm := h1 i hi hc
        rw [if_neg (by rw [hm]; simp), hm]
        have := ih (i + 1) (by omega) (by omega) (by omega)
        rwa [Nat.add_sub_cancel] at this
      · have hip : i = p + 1 := by omega
        subst hip
        rw [if_pos (h2 hi), if_pos (by omega), Nat.add_sub_cancel]
        simp
  rw [searchLast, flash_marker size n d hd 0 (by omega)]
  simp only [ne_eq, not_true_eq_false, if_false]
  have h0 := h1 0 (by omega) (Nat.zero_le _)
  rw [h0]
  exact loop (n - 1) 1 (by omega) (Nat.le_refl _) (by omega)

theorem init_first {size n : Nat} {d : List Block} {b : Byte} (hd : Fits size n d) (hn : n < 256) (p : Nat) (hp : p < n)
    (h1 : ∀ j (h : j < d.length), j ≤ p → d[j].marker = b + BitVec.ofNat 8 j)
    (h2 : ∀ h : p + 1 < d.length, d[p + 1].marker ≠ b + BitVec.ofNat 8 (p + 1)) :
    init (flash size) d n = .ok ⟨n, if p + 1 < n then p else 0, b + BitVec.ofNat 8 p⟩ := by
  rw [init_eq _ _ _ hn, search_first hd p hp h1 h2]
  simp only [Res.ok.injEq, Wlm.mk.injEq, true_and, and_true]
  split_ifs
  · rw [asSize_nat _ (by omega)]
  · rfl

/-- The markers have the pattern of the phase, counted from `b`, the marker of block 0. -/
def Pattern (n : Nat) (d : List Block) (mk b : Byte) : Phase → Prop
  | .healthy p => p < n ∧ mk = b + BitVec.ofNat 8 p ∧
      ∀ j (h : j < d.length), d[j].marker = b + BitVec.ofNat 8 j ↔ j ≤ p
  | .flat p => p < n ∧ mk = b + BitVec.ofNat 8 p ∧ ∀ j (h : j < d.length), d[j].marker = b + BitVec.ofNat 8 j
  | .shifted k => k < n ∧ mk = b + BitVec.ofNat 8 (k + (n - 1)) ∧
      ∀ j (h : j < d.length), d[j].marker = b + BitVec.ofNat 8 (if 1 ≤ j ∧ j ≤ k then j + (n - 1) else j)
  | .mixed i k => i < k ∧ k < n ∧ mk = b + BitVec.ofNat 8 i ∧
      ∀ j (h : j < d.length), d[j].marker = b + BitVec.ofNat 8 (if i < j ∧ j ≤ k then j + (n - 1) else j)

theorem pattern_pos {n : Nat} {d : List Block} {mk b : Byte} {ph : Phase} (h : Pattern n d mk b ph) : ph.pos < n := by
  cases ph with
  | healthy p => exact h.1
  | flat p => exact h.1
  | shifted k => exact h.1
  | mixed i k => exact Nat.lt_trans h.1 h.2.1

theorem pos_write {n : Nat} {d : List Block} {mk b : Byte} {ph : Phase} (h : Pattern n d mk b ph) :
    (ph.write n).pos = next n ph.pos := by
  cases ph with
  | healthy p => by_cases hc : p + 1 < n <;> simp [Phase.write, next, Phase.pos, hc]
  | flat p => by_cases hc : p + 1 < n <;> simp [Phase.write, next, Phase.pos, hc]
  | shifted k => by_cases hc : k + 1 < n <;> simp [Phase.write, next, Phase.pos, hc]
  | mixed i k =>
    obtain ⟨h1, h2, _⟩ := h
    have hi : i + 1 < n := by omega
    by_cases hc : i + 1 < k
    · simp [Phase.write, next, Phase.pos, hc, hi]
    · simp only [Phase.write, next, Phase.pos, hc, hi, if_true, if_false]
      omega

/-- A changing write. -/
theorem pattern_write {n : Nat} {d : List Block} {mk b : Byte} {ph : Phase} (hlen : d.length = n) (hn : n < 256)
    (h : Pattern n d mk b ph) (y : List Byte) :
    ∃ b', Pattern n (d.set (next n ph.pos) ⟨mk + 1, y⟩) (mk + 1) b' (ph.write n) := by
  cases ph with
  | healthy p =>
    obtain ⟨h1, h2, h3⟩ := h
    subst h2
    simp only [Phase.write]
    show ∃ b', Pattern n (d.set (next n p) ⟨_, y⟩) _ b' _
    rw [add_one]
    by_cases hc : p + 1 < n
    · rw [if_pos hc, show next n p = p + 1 from if_pos hc]
      refine ⟨b, hc, rfl, ?_⟩
      intro j hj
      rw [List.length_set] at hj
      rw [List.getElem_set]
      split_ifs with he
      · subst he; simp
      · rw [h3 j hj]; omega
    · rw [if_neg hc, show next n p = 0 from if_neg hc]
      have hp : p + 1 = n := by omega
      refine ⟨b + BitVec.ofNat 8 n, by omega, ?_, ?_⟩
      · rw [hp]; simp
      · intro j hj
        rw [List.length_set] at hj
        rw [List.getElem_set, BitVec.add_assoc, ← BitVec.ofNat_add]
        split_ifs with he
        · subst he; simp [hp]
        · rw [(h3 j hj).2 (by omega), add_ofNat_inj]
          omega
  | flat p =>
    obtain ⟨h1, h2, h3⟩ := h
    subst h2
    simp only [Phase.write]
    show ∃ b', Pattern n (d.set (next n p) ⟨_, y⟩) _ b' _
    rw [add_one]
    by_cases hc : p + 1 < n
    · rw [if_pos hc, show next n p = p + 1 from if_pos hc]
      refine ⟨b, hc, rfl, ?_⟩
      intro j hj
      rw [List.length_set] at hj
      rw [List.getElem_set]
      split_ifs with he
      · subst he; rfl
      · exact h3 j hj
    · rw [if_neg hc, show next n p = 0 from if_neg hc]
      have hp : p + 1 = n := by omega
      refine ⟨b + BitVec.ofNat 8 n, by omega, ?_, ?_⟩
      · rw [hp]; simp
      · intro j hj
        rw [List.length_set] at hj
        rw [List.getElem_set, BitVec.add_assoc, ← BitVec.ofNat_add]
        split_ifs with he
        · subst he; simp [hp]
        · rw [h3 j hj, add_ofNat_inj]
          omega
  | shifted k =>
    obtain ⟨h1, h2, h3⟩ := h
    subst h2
    simp only [Phase.write]
    show ∃ b', Pattern n (d.set (next n k) ⟨_, y⟩) _ b' _
    rw [add_one]
    by_cases hc : k + 1 < n
    · rw [if_pos hc, show next n k = k + 1 from if_pos hc]
      refine ⟨b, hc, by rw [show k + (n - 1) + 1 = k + 1 + (n - 1) by omega], ?_⟩
      intro j hj
      rw [List.length_set] at hj
      rw [List.getElem_set]
      split_ifs with he h4 h5
      · subst he; simp only; congr 2; omega
      · omega
      · rw [h3 j hj, if_pos (by omega)]
      · rw [h3 j hj, if_neg (by omega)]
    · rw [if_neg hc, show next n k = 0 from if_neg hc]
      have hp : k + 1 = n := by omega
      refine ⟨b + BitVec.ofNat 8 (k + (n - 1) + 1), by omega, ?_, ?_⟩
      · simp
      · intro j hj
        rw [List.length_set] at hj
        rw [List.getElem_set, BitVec.add_assoc, ← BitVec.ofNat_add]
        split_ifs with he
        · subst he; simp
        · rw [h3 j hj, if_pos (by omega), add_ofNat_inj]
          omega
  | mixed i k =>
    obtain ⟨h1, h2, h3, h4⟩ := h
    subst h3
    simp only [Phase.write]
    show ∃ b', Pattern n (d.set (next n i) ⟨_, y⟩) _ b' _
    rw [add_one, show next n i = i + 1 from if_pos (show i + 1 < n by omega)]
    by_cases hc : i + 1 < k
    · rw [if_pos hc]
      refine ⟨b, hc, h2, rfl, ?_⟩
      intro j hj
      rw [List.length_set] at hj
      rw [List.getElem_set]
      split_ifs with he h5 h6
      · omega
      · subst he; rfl
      · rw [h4 j hj, if_pos (by omega)]
      · rw [h4 j hj, if_neg (by omega)]
    · rw [if_neg hc]
      have hk : i + 1 = k := by omega
      refine ⟨b, h2, by rw [hk], ?_⟩
      intro j hj
      rw [List.length_set] at hj
      rw [List.getElem_set]
      split_ifs with he
      · subst he; rfl
      · rw [h4 j hj, if_neg (by omega)]

/-- A restart. -/
theorem pattern_restart {size n : Nat} {d : List Block} {mk b : Byte} {ph : Phase} (hd : Fits size n d) (hn : n < 256)
    (h : Pattern n d mk b ph) :
    ∃ w, init (flash size) d n = .ok w ∧ w.n = n ∧ w.last = (ph.restart n).pos ∧ Pattern n d w.marker b (ph.restart n) := by
  have hlen := hd.1
  -- all blocks continue
  have whole : (∀ j (h : j < d.length), d[j].marker = b + BitVec.ofNat 8 j) → 0 < n →
      init (flash size) d n = .ok ⟨n, 0, b + BitVec.ofNat 8 (n - 1)⟩ ∧
        Pattern n d (b + BitVec.ofNat 8 (n - 1)) b (.shifted 0) := by
    intro hall h0
    refine ⟨?_, h0, by rw [Nat.zero_add], ?_⟩
    · rw [init_first hd hn (n - 1) (by omega) (fun j hj _ => hall j hj) (fun hh => by omega), if_neg (by omega)]
    · intro j hj
      rw [hall j hj, if_neg (by omega)]
  cases ph with
  | healthy p =>
    obtain ⟨h1, h2, h3⟩ := h
    simp only [Phase.restart]
    by_cases hc : p + 1 < n
    · rw [if_pos hc]
      refine ⟨_, init_first hd hn p h1 (fun j hj hjp => (h3 j hj).2 hjp) ?_, rfl, by simp [hc, Phase.pos], h1, rfl, h3⟩
      intro hh he
      have := (h3 _ hh).1 he
      omega
    · rw [if_neg hc]
      obtain ⟨e, q⟩ := whole (fun j hj => (h3 j hj).2 (by omega)) (by omega)
      exact ⟨_, e, rfl, rfl, q⟩
  | flat p =>
    obtain ⟨h1, h2, h3⟩ := h
    obtain ⟨e, q⟩ := whole h3 (by omega)
    exact ⟨_, e, rfl, rfl, q⟩
  | shifted k =>
    obtain ⟨h1, h2, h3⟩ := h
    simp only [Phase.restart]
    by_cases hc : k = 0
    · rw [if_pos hc]
      obtain ⟨e, q⟩ := whole (fun j hj => by rw [h3 j hj, if_neg (by omega)]) (by omega)
      exact ⟨_, e, rfl, rfl, q⟩
    · rw [if_neg hc]
      refine ⟨_, init_first hd hn 0 (by omega) ?_ ?_, rfl, by simp [Phase.pos], by omega, h1, rfl, ?_⟩
      · intro j hj hj0
        rw [h3 j hj, if_neg (by omega)]
      · intro hh
        rw [h3 _ hh, if_pos (by omega), ne_eq, add_ofNat_inj]
        omega
      · intro j hj
        rw [h3 j hj]
        congr 2
  | mixed i k =>
    obtain ⟨h1, h2, h3, h4⟩ := h
    simp only [Phase.restart]
    refine ⟨_, init_first hd hn i (by omega) ?_ ?_, rfl, ?_, h1, h2, rfl, h4⟩
    · intro j hj hji
      rw [h4 j hj, if_neg (by omega)]
    · intro hh
      rw [h4 _ hh, if_pos (by omega), ne_eq, add_ofNat_inj]
      omega
    · simp only [Phase.pos]; rw [if_pos (by omega)]

/-! ## Histories -/

/-- The memory corresponds to the lossy one. -/
def RelL (size n len : Nat) (s : List Block × Wlm) (r : Lossy) : Prop :=
  Holds size n len s r.data ∧ (∃ h : 0 < s.1.length, s.1[0].data.take len = r.first) ∧ s.2.last = r.phase.pos ∧
    ∃ b, Pattern n s.1 s.2.marker b r.phase

theorem relL_write {size n len : Nat} {s : List Block × Wlm} {r : Lossy} (hn : n < 256) (h0 : 0 < len)
    (hl : len ≤ size) (h : RelL size n len s r) (x : List Byte) (hx : x.length = len) :
    ∃ s', step (flash size) s (.write x) = .ok s' ∧ RelL size n len s' (r.step n (.write x)) := by
  obtain ⟨hh, ⟨hz, hf⟩, hpos, b, hp⟩ := h
  obtain ⟨d, w, e, h1, h2, h3⟩ := holds_write hn h0 hl hh x hx
  refine ⟨(d, w), by rw [step, e]; rfl, ?_⟩
  by_cases he : x = r.data
  · rw [Lossy.step, if_pos he, h2 he]; exact ⟨hh, ⟨hz, hf⟩, hpos, b, hp⟩
  · obtain ⟨a1, a2, y, a3⟩ := h3 he
    have hnx := pos_write hp
    rw [Lossy.step, if_neg he]
    refine ⟨h1, ?_, ?_, ?_⟩
    · obtain ⟨_, _, hlt, hx'⟩ := h1
      have hz' : 0 < d.length := by rw [a3, List.length_set]; exact hz
      refine ⟨hz', ?_⟩
      simp only
      by_cases hp0 : (r.phase.write n).pos = 0
      · rw [if_pos hp0]
        have : w.last = 0 := by rw [a1, hpos, ← hnx, hp0]
        simp only [this] at hx'
        exact hx'
      · rw [if_neg hp0, ← hf]
        subst a3
        rw [List.getElem_set_ne]
        rw [hpos, ← hnx]; exact hp0
    · simp only; rw [a1, hpos, hnx]
    · have hq := pattern_write hh.1.1 hn hp y
      simp only
      rw [a3, a2, hpos]
      exact hq

theorem relL_restart {size n len : Nat} {s : List Block × Wlm} {r : Lossy} (hn : n < 256) (h : RelL size n len s r) :
    ∃ s', step (flash size) s .restart = .ok s' ∧ RelL size n len s' (r.step n .restart) := by
  obtain ⟨⟨hd, hw, hlt, hx⟩, ⟨hz, hf⟩, hpos, b, hp⟩ := h
  obtain ⟨w, e, e1, e2, e3⟩ := pattern_restart hd hn hp
  have hlast : w.last < s.1.length := by rw [e2, hd.1]; exact pattern_pos e3
  refine ⟨(s.1, w), by rw [step, hw, e]; rfl, ⟨hd, e1, hlast, ?_⟩, ⟨hz, hf⟩, e2, b, e3⟩
  simp only [Lossy.step]
  split_ifs with hc
  · rw [← hx]
    simp only [e2, hc, hpos]
  · have : w.last = 0 := by
      rw [e2]
      cases hph : r.phase with
      | healthy p =>
        rw [hph] at hc
        simp only [Phase.restart] at hc ⊢
        split_ifs at hc ⊢ with h1
        · exact absurd rfl hc
        · rfl
      | flat p => rfl
      | shifted k => simp only [Phase.restart]; split_ifs <;> rfl
      | mixed i k => rw [hph] at hc; exact absurd rfl hc
    rw [← hf]
    simp only [this]

theorem relL_run {size n len : Nat} (hn : n < 256) (h0 : 0 < len) (hl : len ≤ size) (os : List Op) :
    ∀ (s : List Block × Wlm) (r : Lossy), RelL size n len s r → (∀ x, Op.write x ∈ os → x.length = len) →
      ∃ s', run (flash size) s os = .ok s' ∧ RelL size n len s' (os.foldl (Lossy.step n) r) := by
  induction os with
  | nil => intro s r h _; exact ⟨s, rfl, h⟩
  | cons o os ih =>
    intro s r h hx
    obtain ⟨s1, e1, h1⟩ : ∃ s', step (flash size) s o = .ok s' ∧ RelL size n len s' (r.step n o) := by
      cases o with
      | write x => exact relL_write hn h0 hl h x (hx x (by simp))
      | restart => exact relL_restart hn h
    obtain ⟨s2, e2, h2⟩ := ih s1 _ h1 (fun y hy => hx y (by simp [hy]))
    exact ⟨s2, by rw [run, e1]; exact e2, h2⟩

/-- **C239.** On a device with `n` blocks whose markers are all equal, after any history of writes and restarts, a read
returns the record of the lossy memory: the last one written, unless a restart that loses it came after. -/
theorem C239_exact (size n len : Nat) (d : List Block) (hd : Fits size n d) (hn0 : 0 < n) (hn : n < 256) (h0 : 0 < len)
    (hl : len ≤ size) (mk : Byte) (hm : ∀ b ∈ d, b.marker = mk) (os : List Op)
    (hx : ∀ x, Op.write x ∈ os → x.length = len) :
    ∃ w x0, init (flash size) d n = .ok w ∧ read (flash size) d w len = (0, x0) ∧
      ∃ s, run (flash size) (d, w) os = .ok s ∧
        read (flash size) s.1 s.2 len = (0, (os.foldl (Lossy.step n) ⟨x0, x0, .healthy 0⟩).data) := by
  obtain ⟨w, e, h, hh, hc, b, hm1, hm2⟩ := rel_start len hd hn0 hn mk hm
  have hlast : w.last = 0 := by rw [hc]; simp
  simp only [hlast] at hm1 hm2
  have hr : RelL size n len (d, w) ⟨d[0].data.take len, d[0].data.take len, .healthy 0⟩ :=
    ⟨hh, ⟨h, rfl⟩, hlast, b, hn0, hm1, hm2⟩
  obtain ⟨s, e', hr'⟩ := relL_run hn h0 hl os (d, w) _ hr hx
  exact ⟨w, _, e, holds_read hl hh, s, e', holds_read hl hr'.1⟩

/-! ## What follows from it -/

/-- The phases that occur with `n` blocks. -/
def Spec.Phase.Ok (n : Nat) : Phase → Prop
  | .healthy p => p < n
  | .flat p => p < n
  | .shifted k => k < n
  | .mixed j k => j < k ∧ k < n

theorem ok_write {n : Nat} {ph : Phase} (h : ph.Ok n) : (ph.write n).Ok n := by
  cases ph <;> simp only [Phase.Ok, Phase.write] at h ⊢ <;> split_ifs <;> simp only [Phase.Ok] <;> omega

theorem ok_restart {n : Nat} {ph : Phase} (h : ph.Ok n) : (ph.restart n).Ok n := by
  cases ph with
  | healthy p => simp only [Phase.Ok, Phase.restart] at h ⊢; split_ifs <;> simp only [Phase.Ok] <;> omega
  | flat p => simp only [Phase.Ok, Phase.restart] at h ⊢; omega
  | shifted k => simp only [Phase.Ok, Phase.restart] at h ⊢; split_ifs <;> simp only [Phase.Ok] <;> omega
  | mixed j k => exact h

theorem ok_step {n : Nat} {s : Lossy} (h : s.phase.Ok n) (o : Op) : (s.step n o).phase.Ok n := by
  cases o with
  | write x =>
    rw [Lossy.step]
    by_cases hc : x = s.data
    · rw [if_pos hc]; exact h
    · rw [if_neg hc]; exact ok_write h
  | restart => exact ok_restart h

/-- **C239**: a restart directly after a restart loses nothing more. -/
theorem C239_settled (n : Nat) (s : Lossy) :
    ((s.step n .restart).step n .restart).data = (s.step n .restart).data := by
  have : ((s.phase.restart n).restart n).pos = (s.phase.restart n).pos := by
    cases s.phase with
    | healthy p => by_cases h1 : p + 1 < n <;> simp [Phase.restart, h1]
    | flat p => simp [Phase.restart]
    | shifted k => by_cases h1 : k = 0 <;> simp [Phase.restart, h1]
    | mixed j k => rfl
  simp only [Lossy.step, this, if_true]

/-- **C239**: exactly these restarts lose the record: those with the last of several blocks active, and, after such a loss,
those in the phases it leaves behind. -/
theorem C239_keeps (n : Nat) (s : Lossy) (hs : s.phase.Ok n) :
    (s.phase.restart n).pos = s.phase.pos ↔
      s.phase.pos = 0 ∨ (∃ p, s.phase = .healthy p ∧ p + 1 < n) ∨ ∃ j k, s.phase = .mixed j k := by
  cases hph : s.phase with
  | healthy p =>
    simp only [Phase.restart, Phase.pos]
    split_ifs with h1
    · simp [h1]
    · simp only [Phase.Ok, hph] at hs
      simp [h1]; omega
  | flat p => simp [Phase.restart, Phase.pos, eq_comm]
  | shifted k =>
    simp only [Phase.restart]
    split_ifs with h1
    · simp [h1, Phase.pos]
    · simp [h1, Phase.pos]; omega
  | mixed j k => simp [Phase.restart]

/-- The record after changing writes, and the phase. -/
theorem writes_phase (n : Nat) (xs : List (List Byte)) : ∀ s : Lossy, AllChange s.data xs →
    ((xs.map Op.write).foldl (Lossy.step n) s).phase = (Phase.write n)^[xs.length] s.phase := by
  induction xs with
  | nil => intro s _; rfl
  | cons x xs ih =>
    intro s h
    have hne : x ≠ s.data := h.1
    rw [List.map_cons, List.foldl_cons, Lossy.step, if_neg hne, ih _ h.2, List.length_cons, Function.iterate_succ_apply]

theorem iter_healthy {n : Nat} (m : Nat) : ∀ p, p < n → (Phase.write n)^[m] (.healthy p) = .healthy ((p + m) % n) := by
  induction m with
  | zero => intro p hp; rw [Nat.add_zero, Nat.mod_eq_of_lt hp]; rfl
  | succ m ih =>
    intro p hp
    rw [Function.iterate_succ_apply, Phase.write]
    by_cases hc : p + 1 < n
    · rw [if_pos hc, ih _ hc]; congr 2; omega
    · rw [if_neg hc, ih 0 (by omega), show p + (m + 1) = n + m by omega, Nat.add_mod_left, Nat.zero_add]

theorem iter_flat {n : Nat} (m : Nat) : ∀ p, p + m < n → (Phase.write n)^[m] (.flat p) = .flat (p + m) := by
  induction m with
  | zero => intro p _; rfl
  | succ m ih =>
    intro p hp
    rw [Function.iterate_succ_apply, Phase.write, if_pos (by omega), ih _ (by omega)]; congr 1; omega

theorem iter_shifted {n : Nat} (m : Nat) : ∀ k, k + m < n → (Phase.write n)^[m] (.shifted k) = .shifted (k + m) := by
  induction m with
  | zero => intro p _; rfl
  | succ m ih =>
    intro p hp
    rw [Function.iterate_succ_apply, Phase.write, if_pos (by omega), ih _ (by omega)]; congr 1; omega

theorem iter_mixed {n k : Nat} (m : Nat) : ∀ j, j + m + 1 = k → (Phase.write n)^[m + 1] (.mixed j k) = .flat k := by
  induction m with
  | zero => intro j h; rw [Function.iterate_succ_apply, Phase.write, if_neg (by omega)]; rfl
  | succ m ih =>
    intro j h
    rw [Function.iterate_succ_apply, Phase.write, if_pos (by omega)]
    exact ih (j + 1) (by omega)

theorem iter_flat_n {n p : Nat} (hp : p < n) (m : Nat) : (Phase.write n)^[(n - p) + m] (.flat p) = .healthy (m % n) := by
  rw [show n - p + m = m + 1 + (n - 1 - p) by omega, Function.iterate_add_apply, iter_flat _ _ (by omega),
    Function.iterate_succ_apply, Phase.write, if_neg (by omega), iter_healthy _ _ (by omega), Nat.zero_add]

/-- After as many changing writes as there are blocks, and `m` more. -/
theorem iter_heals {n : Nat} {ph : Phase} (h : ph.Ok n) (m : Nat) :
    (Phase.write n)^[n + m] ph = .healthy ((ph.pos + m) % n) := by
  cases ph with
  | healthy p =>
    rw [iter_healthy _ _ h, show p + (n + m) = n + (p + m) by omega, Nat.add_mod_left]; rfl
  | flat p =>
    have h : p < n := h
    rw [show n + m = (n - p) + (p + m) by omega, iter_flat_n h]; rfl
  | shifted k =>
    have h : k < n := h
    rw [show n + m = k + m + 1 + (n - 1 - k) by omega, Function.iterate_add_apply, iter_shifted _ _ (by omega),
      Function.iterate_succ_apply, Phase.write, if_neg (by omega), iter_healthy _ _ (by omega), Nat.zero_add]; rfl
  | mixed j k =>
    obtain ⟨h1, h2⟩ : j < k ∧ k < n := h
    rw [show n + m = (n - k) + (j + m) + (k - j - 1 + 1) by omega, Function.iterate_add_apply, iter_mixed _ _ (by omega),
      iter_flat_n h2]; rfl

/-- **C239**: whatever was lost before, after as many changing writes without a restart as there are blocks (and any number
`m` more) the memory is as good as a new one: a restart then keeps the record, unless the last block is active again. -/
theorem C239_heals (n : Nat) (s : Lossy) (hs : s.phase.Ok n) (xs : List (List Byte)) (m : Nat) (hlen : xs.length = n + m)
    (hc : AllChange s.data xs) :
    ((xs.map Op.write).foldl (Lossy.step n) s).phase = .healthy ((s.phase.pos + m) % n) ∧
    ((s.phase.pos + m) % n + 1 < n →
      (((xs.map Op.write).foldl (Lossy.step n) s).step n .restart) = (xs.map Op.write).foldl (Lossy.step n) s) := by
  have h1 : ((xs.map Op.write).foldl (Lossy.step n) s).phase = .healthy ((s.phase.pos + m) % n) := by
    rw [writes_phase n xs s hc, hlen, iter_heals hs]
  refine ⟨h1, ?_⟩
  intro h2
  generalize (xs.map Op.write).foldl (Lossy.step n) s = t at *
  obtain ⟨a, b, c⟩ := t
  simp only at h1
  subst h1
  simp [Lossy.step, Phase.restart, h2]

/-- Changing writes that do not reach block 0 leave what it holds. -/
theorem writes_first (n : Nat) (xs : List (List Byte)) : ∀ s : Lossy, AllChange s.data xs →
    (∀ i, i < xs.length → ((Phase.write n)^[i + 1] s.phase).pos ≠ 0) →
    ((xs.map Op.write).foldl (Lossy.step n) s).first = s.first := by
  induction xs with
  | nil => intro s _ _; rfl
  | cons x xs ih =>
    intro s h hp
    have hne : x ≠ s.data := h.1
    have h1 := hp 0 (by simp)
    rw [Function.iterate_one] at h1
    rw [List.map_cons, List.foldl_cons, Lossy.step, if_neg hne, if_neg h1]
    refine ih _ h.2 ?_
    intro i hi
    have := hp (i + 1) (by simpa using hi)
    rwa [Function.iterate_succ_apply] at this

theorem mixed_pos {n k : Nat} (hk : k < n) (m : Nat) : ∀ j, j < k → 0 < m → j + m ≤ k →
    ((Phase.write n)^[m] (.mixed j k)).pos = j + m := by
  induction m with
  | zero => intro j _ h; omega
  | succ m ih =>
    intro j h1 _ h2
    rw [Function.iterate_succ_apply, Phase.write]
    by_cases hc : j + 1 < k
    · rw [if_pos hc]
      by_cases hm : m = 0
      · subst hm; rfl
      · rw [ih (j + 1) hc (by omega) (by omega)]; omega
    · rw [if_neg hc, show m = 0 by omega]
      show k = j + (0 + 1); omega

/-- A run of the program: changing writes and then a restart. -/
def session (xs : List (List Byte)) : List Op := xs.map Op.write ++ [.restart]

/-- **C239**: once a restart has brought back block 0, a program that makes the same number `m` of changing writes in every
run (`0 < m < n`) loses all of them at every restart, for ever. -/
theorem C239_forever_wrong (n m : Nat) (hm0 : 0 < m) (hmn : m < n) (xss : List (List (List Byte))) : ∀ (s : Lossy),
    s.phase = .shifted 0 ∨ s.phase = .mixed 0 m → s.data = s.first → (∀ xs ∈ xss, xs.length = m ∧ AllChange s.first xs) →
    ((xss.flatMap session).foldl (Lossy.step n) s).data = s.data := by
  induction xss with
  | nil => intro s _ _ _; rfl
  | cons xs xss ih =>
    intro s hph hd hx
    obtain ⟨hlen, hc⟩ := hx xs (by simp)
    rw [← hd] at hc
    have h1 := writes_phase n xs s hc
    have h2 : ((xs.map Op.write).foldl (Lossy.step n) s).first = s.first := by
      apply writes_first n xs s hc
      intro i hi
      rcases hph with hph | hph
      · rw [hph, iter_shifted _ _ (by omega)]; simp [Phase.pos]
      · rw [hph, mixed_pos hmn _ _ hm0 (by omega) (by omega)]; omega
    have key : ∃ q, (q = .shifted 0 ∨ q = .mixed 0 m) ∧
        ((session xs).foldl (Lossy.step n) s) = ⟨s.first, s.first, q⟩ := by
      rw [session, List.foldl_append]
      generalize (xs.map Op.write).foldl (Lossy.step n) s = t at *
      obtain ⟨a, b, c⟩ := t
      simp only at h1 h2
      subst h1 h2
      rcases hph with hph | hph
      · refine ⟨.mixed 0 m, Or.inr rfl, ?_⟩
        rw [hph, hlen, iter_shifted _ _ (by omega), Nat.zero_add]
        have : m ≠ 0 := by omega
        simp [Lossy.step, Phase.restart, this, Phase.pos, this.symm]
      · refine ⟨.shifted 0, Or.inl rfl, ?_⟩
        obtain ⟨k, rfl⟩ : ∃ k, m = k + 1 := ⟨m - 1, by omega⟩
        rw [hph, hlen, iter_mixed _ _ (by omega)]
        simp [Lossy.step, Phase.restart, Phase.pos]
    obtain ⟨q, hq, hk⟩ := key
    rw [List.flatMap_cons, List.foldl_append, hk]
    rw [ih ⟨s.first, s.first, q⟩ hq rfl (fun ys hys => hx ys (by simp [hys])), hd]

-- three blocks: two writes and a restart bring back the blank record; then a program with one write per run loses each of
-- them, while three writes in one run heal the memory
example : final (blank 3) 1 [.write [1], .write [2], .restart] = .ok (0, [0]) ∧
    final (blank 3) 1 ([.write [1], .write [2], .restart] ++ [[[5]], [[6]], [[7]], [[8]]].flatMap session) = .ok (0, [0]) ∧
    final (blank 3) 1 ([.write [1], .write [2], .restart] ++ session [[5], [6], [7]]) = .ok (0, [7]) ∧
    final (blank 3) 1 ([.write [1], .write [2], .restart] ++ session [[5], [6]] ++ session [[7]]) = .ok (0, [7]) ∧
    ([Op.write [1], .write [2], .restart, .write [5], .write [6], .restart, .write [7]].foldl (Lossy.step 3)
      ⟨[0], [0], .healthy 0⟩) = ⟨[7], [0], .mixed 1 2⟩ := by decide

end Gel.Wear
