import Verif.Wear.Props

/-!
# Wear leveling: property C159, power lost in the middle of a block write

The block being written may then hold any marker and any data.
-/
namespace Gel.Wear

open Spec

/-- The device after power was lost while a changed record was being written: the next block is `t`, everything else as before. -/
def torn (s : List Block × Wlm) (t : Block) : List Block := s.1.set ((s.2.last + 1) % s.2.n) t

theorem fits_torn {size n : Nat} {s : List Block × Wlm} {t : Block} (hd : Fits size n s.1) (ht : t.data.length = size) :
    Fits size n (torn s t) := by
  refine ⟨by simpa [torn] using hd.1, ?_⟩
  intro b hb
  rcases List.mem_or_eq_of_mem_set hb with hb | rfl
  · exact hd.2 b hb
  · exact ht

/-- **C159.** What a read returns after the restart, for every block left behind and every history as in C44: if the last block was
active, the damaged block; otherwise the old record unless the damaged block already has the new marker; in this case the damaged
block, or block 0 if the damaged block is the last one. -/
theorem C159_exact (size n len : Nat) (s : List Block × Wlm) (i : Ideal) (hn0 : 0 < n) (hn : n < 256) (hl : len ≤ size)
    (h : Rel size n len s i) (t : Block) (ht : t.data.length = size) :
    ∃ w, init (flash size) (torn s t) n = .ok w ∧
      read (flash size) (torn s t) w len =
        if (i.changes + 1) % n = 0 then (0, t.data.take len)
        else if t.marker ≠ s.2.marker + 1 then (0, i.data)
        else if (i.changes + 2) % n ≠ 0 then (0, t.data.take len)
        else (flash size).readBlock s.1 0 len := by
  obtain ⟨hh, hc, b, hm⟩ := h
  have hwn := hh.2.1
  have hlt : s.2.last < n := by rw [hc]; exact Nat.mod_lt _ hn0
  have hft := fits_torn hh.1 ht
  have hlen : (torn s t).length = n := hft.1
  have hdl : s.1.length = n := hh.1.1
  have hmod : (i.changes + 1) % n = (s.2.last + 1) % n := by rw [hc, Nat.mod_add_mod]
  have hmod2 : (i.changes + 2) % n = (s.2.last + 2) % n := by rw [hc, Nat.mod_add_mod]
  have hget : ∀ j (hj : j < (torn s t).length), (torn s t)[j] = if (s.2.last + 1) % n = j then t else s.1[j]'(by omega) := by
    intro j hj
    simp only [torn, hwn, List.getElem_set]
  have hone : (1 : Byte) = BitVec.ofNat 8 1 := rfl
  by_cases hlast : s.2.last + 1 < n
  · have hmodl : (s.2.last + 1) % n = s.2.last + 1 := Nat.mod_eq_of_lt hlast
    rw [hmod, hmodl, if_neg (by omega)]
    by_cases hmk : t.marker = s.2.marker + 1
    · -- the new marker
      have hM : Marked n (torn s t, ⟨n, s.2.last + 1, s.2.marker + 1⟩) b := by
        refine ⟨?_, ?_⟩
        · show s.2.marker + 1 = b + BitVec.ofNat 8 (s.2.last + 1)
          rw [hm.1, BitVec.add_assoc, hone, ← BitVec.ofNat_add]
        · intro j hj
          show (torn s t)[j].marker = _ ↔ j ≤ s.2.last + 1
          rw [hget j hj, hmodl]
          split_ifs with hj'
          · subst hj'
            rw [hmk, hm.1, BitVec.add_assoc, hone, ← BitVec.ofNat_add]
            simp
          · rw [hm.2 j (by simp only [torn, List.length_set] at hj; exact hj)]
            omega
      have hi := init_marked (s := (torn s t, ⟨n, s.2.last + 1, s.2.marker + 1⟩)) hft hn rfl hlast hM
      refine ⟨_, hi, ?_⟩
      rw [if_neg (show ¬ t.marker ≠ s.2.marker + 1 by simp [hmk])]
      simp only
      by_cases h2 : s.2.last + 1 + 1 < n
      · rw [if_pos h2, if_pos (by rw [hmod2, Nat.mod_eq_of_lt h2]; omega), read,
          flash_read size n _ hft _ _ (show s.2.last + 1 < (torn s t).length by omega) hl, hget, if_pos hmodl]
      · rw [if_neg h2, if_neg (by rw [hmod2, show s.2.last + 2 = n by omega, Nat.mod_self]; simp), read,
          flash_read size n _ hft _ _ (show 0 < (torn s t).length by omega) hl, hget, if_neg (by omega),
          flash_read size n _ hh.1 _ _ (by omega) hl]
    · -- another marker
      have hM : Marked n (torn s t, s.2) b := by
        refine ⟨hm.1, ?_⟩
        intro j hj
        show (torn s t)[j].marker = _ ↔ j ≤ s.2.last
        rw [hget j hj, hmodl]
        split_ifs with hj'
        · subst hj'
          rw [show b + BitVec.ofNat 8 (s.2.last + 1) = s.2.marker + 1 by
            rw [hm.1, BitVec.add_assoc, hone, ← BitVec.ofNat_add]]
          exact ⟨fun h => absurd h hmk, fun h => by omega⟩
        · exact hm.2 j (by simp only [torn, List.length_set] at hj; exact hj)
      have hi := init_marked (s := (torn s t, s.2)) hft hn hwn hlt hM
      refine ⟨_, hi, ?_⟩
      obtain ⟨ha, hx⟩ := hh.2.2
      rw [if_pos (show t.marker ≠ s.2.marker + 1 from hmk)]
      simp only
      rw [if_pos hlast, read, flash_read size n _ hft _ _ (show s.2.last < (torn s t).length by omega) hl, hget, if_neg (by omega), hx]
  · have hmodl : (s.2.last + 1) % n = 0 := by rw [show s.2.last + 1 = n by omega, Nat.mod_self]
    rw [hmod, hmodl, if_pos rfl]
    by_cases hmk : t.marker = b
    · have hM : Marked n (torn s t, s.2) b := by
        refine ⟨hm.1, ?_⟩
        intro j hj
        show (torn s t)[j].marker = _ ↔ j ≤ s.2.last
        rw [hget j hj, hmodl]
        split_ifs with hj'
        · subst hj'
          simp [hmk]
        · exact hm.2 j (by simp only [torn, List.length_set] at hj; exact hj)
      have hi := init_marked (s := (torn s t, s.2)) hft hn hwn hlt hM
      refine ⟨_, hi, ?_⟩
      simp only
      rw [if_neg hlast, read, flash_read size n _ hft _ _ (show 0 < (torn s t).length by omega) hl, hget, if_pos hmodl]
    · have hM : Marked n (torn s t, ⟨n, 0, t.marker⟩) t.marker := by
        refine ⟨by simp, ?_⟩
        intro j hj
        show (torn s t)[j].marker = _ ↔ j ≤ 0
        rw [hget j hj, hmodl]
        split_ifs with hj'
        · subst hj'
          simp
        · have := (hm.2 j (by simp only [torn, List.length_set] at hj; exact hj)).2
            (by simp only [torn, List.length_set] at hj; omega)
          rw [this, BitVec.add_left_inj]
          constructor
          · intro hb
            exact absurd hb.symm hmk
          · intro; omega
      have hi := init_marked (s := (torn s t, ⟨n, 0, t.marker⟩)) hft hn rfl hn0 hM
      refine ⟨_, hi, ?_⟩
      simp only [ite_self]
      rw [read, flash_read size n _ hft _ _ (show 0 < (torn s t).length by omega) hl, hget, if_pos hmodl]

/-- **C159** (partial). A device that writes the marker after the data, so that a block that is not complete never has the new marker:
after the restart the old record is read, unless the last block was active. Missing: `C159_marker_wrong`, `C159_last_wrong`. -/
theorem C159_partial (size n len : Nat) (s : List Block × Wlm) (i : Ideal) (hn0 : 0 < n) (hn : n < 256) (hl : len ≤ size)
    (h : Rel size n len s i) (t : Block) (ht : t.data.length = size) (hmk : t.marker ≠ s.2.marker + 1)
    (hs : (i.changes + 1) % n ≠ 0) :
    ∃ w, init (flash size) (torn s t) n = .ok w ∧ read (flash size) (torn s t) w len = read (flash size) s.1 s.2 len := by
  obtain ⟨w, h1, h2⟩ := C159_exact size n len s i hn0 hn hl h t ht
  rw [if_neg hs, if_pos hmk] at h2
  exact ⟨w, h1, by rw [h2, holds_read hl h.1]⟩

/-- **C159**, where it fails: a device that writes the marker first: what is read after the restart is the damaged record (if the
damaged block is not the last one of the page or block 0). -/
theorem C159_marker_wrong (size n len : Nat) (s : List Block × Wlm) (i : Ideal) (hn0 : 0 < n) (hn : n < 256) (hl : len ≤ size)
    (h : Rel size n len s i) (x : List Byte) (hx : x.length = size) (hs : (i.changes + 1) % n ≠ 0) (hs2 : (i.changes + 2) % n ≠ 0) :
    ∃ w, init (flash size) (torn s ⟨s.2.marker + 1, x⟩) n = .ok w ∧
      read (flash size) (torn s ⟨s.2.marker + 1, x⟩) w len = (0, x.take len) := by
  obtain ⟨w, h1, h2⟩ := C159_exact size n len s i hn0 hn hl h ⟨s.2.marker + 1, x⟩ hx
  rw [if_neg hs, if_neg (by simp), if_pos hs2] at h2
  exact ⟨w, h1, h2⟩

/-- **C159**, where it fails: the last block was active (always so with a single block): the damaged block is used after the restart,
whatever its marker. -/
theorem C159_last_wrong (size n len : Nat) (s : List Block × Wlm) (i : Ideal) (hn0 : 0 < n) (hn : n < 256) (hl : len ≤ size)
    (h : Rel size n len s i) (t : Block) (ht : t.data.length = size) (hs : (i.changes + 1) % n = 0) :
    ∃ w, init (flash size) (torn s t) n = .ok w ∧ read (flash size) (torn s t) w len = (0, t.data.take len) := by
  obtain ⟨w, h1, h2⟩ := C159_exact size n len s i hn0 hn hl h t ht
  rw [if_pos hs] at h2
  exact ⟨w, h1, h2⟩

/-- The block that is left behind is the one that would be written. -/
theorem torn_write (size n : Nat) (s : List Block × Wlm) (x old : List Byte) (hn : n < 256) (h0 : 0 < x.length)
    (hl : x.length ≤ size) (h : Holds size n x.length s old) (hx : x ≠ old) :
    ∃ w t, write (flash size) s.1 s.2 x = .ok (torn s t, w, 0) ∧ t.marker = s.2.marker + 1 ∧ t.data.take x.length = x := by
  obtain ⟨hd, hw, ha, he⟩ := h
  obtain ⟨hlt, e⟩ := write_other size n s.1 hd s.2 hw hn ha x h0 hl (by rw [he]; exact fun hh => hx hh.symm)
  refine ⟨⟨s.2.n, next n s.2.last, s.2.marker + 1⟩, ⟨s.2.marker + 1, x ++ (s.1[next n s.2.last]'hlt).data.drop x.length⟩, ?_, rfl, by simp⟩
  rw [e, torn, hw, ← next_mod n s.2.last (by rw [← hd.1]; exact ha)]

/-- **C47.** What is read after a restart, exactly: if the power is lost before the block write, the old record — unless the last
of several blocks was active, then the content of block 0; if it is lost after the block write (of another record), the new record —
unless that is in the last of several blocks, then the content of block 0. -/
theorem C47_exact (size n len : Nat) (s : List Block × Wlm) (i : Ideal) (hn0 : 0 < n) (hn : n < 256) (h0 : 0 < len) (hl : len ≤ size)
    (h : Rel size n len s i) (x : List Byte) (hx : x.length = len) (hne : x ≠ i.data) :
    (∃ w, init (flash size) s.1 n = .ok w ∧ read (flash size) s.1 w len =
      if n = 1 ∨ (i.changes + 1) % n ≠ 0 then (0, i.data) else (flash size).readBlock s.1 0 len) ∧
    ∃ d w', write (flash size) s.1 s.2 x = .ok (d, w', 0) ∧ ∃ w, init (flash size) d n = .ok w ∧ read (flash size) d w len =
      if n = 1 ∨ (i.changes + 2) % n ≠ 0 then (0, x) else (flash size).readBlock s.1 0 len := by
  constructor
  · by_cases hs : n = 1 ∨ (i.changes + 1) % n ≠ 0
    · rw [if_pos hs]
      have := rel_restart hn0 hn h hs
      rw [step, h.1.2.1, Res.bind_eq_ok] at this
      obtain ⟨w, e, e2⟩ := this
      injection e2 with e2
      refine ⟨w, e, ?_⟩
      have h2 : s.2 = w := by rw [← e2]
      rw [← h2, holds_read hl h.1]
    · rw [if_neg hs]
      push Not at hs
      exact (C47_wrong size n len s i (by omega) hn hl h hs.2 x).2
  · subst hx
    obtain ⟨w', t, e, h1, h2⟩ := torn_write size n s x i.data hn h0 hl h.1 hne
    refine ⟨_, _, e, ?_⟩
    have ht : t.data.length = size := by
      obtain ⟨hd, hw, ha, he⟩ := h.1
      obtain ⟨hlt, e'⟩ := write_other size n s.1 hd s.2 hw hn ha x h0 hl (by rw [he]; exact fun hh => hne hh.symm)
      rw [e', torn, hw, ← next_mod n s.2.last (by rw [← hd.1]; exact ha)] at e
      injection e with e
      have e3 := congrArg (fun p => p.1[next n s.2.last]?) e
      simp only [List.getElem?_set_self hlt, Option.some.injEq] at e3
      rw [← e3]
      have := hd.2 _ (List.getElem_mem hlt)
      simp only [List.length_append, List.length_drop, this]
      omega
    obtain ⟨w, a, b⟩ := C159_exact size n x.length s i hn0 hn hl h t ht
    refine ⟨w, a, ?_⟩
    have h1' : ¬ t.marker ≠ s.2.marker + 1 := not_not_intro h1
    rw [if_neg h1', h2] at b
    rw [b]
    by_cases c1 : (i.changes + 1) % n = 0
    · rw [if_pos c1, if_pos]
      by_cases hn1 : n = 1
      · exact .inl hn1
      · right
        rw [show i.changes + 2 = i.changes + 1 + 1 by omega, ← Nat.mod_add_mod, c1, Nat.mod_eq_of_lt (by omega)]
        omega
    · rw [if_neg c1]
      have : n ≠ 1 := by rintro rfl; exact c1 (Nat.mod_one _)
      simp [this]

/-- Three blocks, the record [1, 2] in block 1; power is lost while [3, 4] is written, and block 2 has garbage: with another marker
[1, 2] is read; with the new marker, block 0. If then the record in block 2 is replaced, the garbage in block 0 is read. -/
example : (do let s ← run (flash 3) (blank 3, ⟨3, 0, 9⟩) [.write [1, 2]]
              let w ← init (flash 3) (torn s ⟨9, [3, 7, 7]⟩) 3
              let w' ← init (flash 3) (torn s ⟨11, [3, 7, 7]⟩) 3
              let s' ← run (flash 3) s [.write [3, 4]]
              let w'' ← init (flash 3) (torn s' ⟨9, [5, 7, 7]⟩) 3
              pure (read (flash 3) (torn s ⟨9, [3, 7, 7]⟩) w 2, read (flash 3) (torn s ⟨11, [3, 7, 7]⟩) w' 2,
                read (flash 3) (torn s' ⟨9, [5, 7, 7]⟩) w'' 2)) =
    .ok ((0, [1, 2]), (0, [0, 0]), (0, [5, 7])) := by decide

end Gel.Wear
