import Verif.Wear.Restart
import Verif.Wear.Faults

/-!
# Wear leveling: restarts after a refused write (C242)

`wearleveling_write` (wearleveling.c:48-63) advances the active block and the marker before it calls `write_block`. If the
device refuses the write, the block that was skipped keeps its old marker, and `search_last` (wearleveling.c:93-126) stops
before it, whatever was written behind it.
-/
namespace Gel.Wear

open Spec

/-- A device that refuses to write with the code `e` and changes nothing. -/
def Spec.refusing (size : Nat) (e : Int) : Dev (List Block) := faulty size ⟨0, [], e, false, fun _ => 0⟩

theorem refused_write {size n len : Nat} {s : List Block × Wlm} {old : List Byte} (hn : n < 256) (h0 : 0 < len)
    (hl : len ≤ size) (h : Holds size n len s old) (e : Int) (he : e ≠ 0) (x : List Byte) (hx : x.length = len)
    (hne : x ≠ old) :
    write (refusing size e) s.1 s.2 x = .ok (s.1, ⟨n, next n s.2.last, s.2.marker + 1⟩, e) := by
  have hrd := holds_read hl h
  rw [read] at hrd
  obtain ⟨hd, hw, ha, -⟩ := h
  have hlt : s.2.last < n := by rw [← hd.1]; exact ha
  rw [write, if_neg (by omega)]
  simp only [refusing, faulty, ne_eq, not_true_eq_false, if_false, he, not_false_eq_true, if_true, hx, hrd]
  have hne' : ¬ old = x := fun h => hne h.symm
  simp only [hne', not_false_eq_true, if_true, nextBlock, hw]
  rw [if_neg (by omega), Res.ok_bind, next_mod _ _ hlt, Nat.mod_eq_of_lt (show s.2.last + 1 < 2 ^ 64 by omega)]
  rfl

/-- Changing writes that do not come to the end of the device: the blocks behind the active one are written, the others
stay. -/
theorem writes_behind {size n len : Nat} (hn : n < 256) (h0 : 0 < len) (hl : len ≤ size) (ys : List (List Byte)) :
    ∀ (s : List Block × Wlm) (cur : List Byte), Holds size n len s cur → AllChange cur ys →
      (∀ y ∈ ys, y.length = len) → s.2.last + ys.length < n →
      ∃ s', run (flash size) s (ys.map Op.write) = .ok s' ∧ Holds size n len s' (ys.getLast?.getD cur) ∧
        (∀ j, j ≤ s.2.last → s'.1[j]? = s.1[j]?) ∧
        ∀ j, s.2.last < j → j ≤ s.2.last + ys.length →
          ∃ b, s'.1[j]? = some b ∧ b.marker = s.2.marker + BitVec.ofNat 8 (j - s.2.last) := by
  induction ys with
  | nil =>
    intro s cur h _ _ _
    exact ⟨s, rfl, h, fun _ _ => rfl, fun j h1 h2 => by simp only [List.length_nil] at h2; omega⟩
  | cons y ys ih =>
    intro s cur h hc hy hlt
    rw [List.length_cons] at hlt
    obtain ⟨d, w, e, h1, -, h3⟩ := holds_write hn h0 hl h y (hy y (by simp))
    obtain ⟨a1, a2, z, a3⟩ := h3 hc.1
    have hnx : next n s.2.last = s.2.last + 1 := if_pos (by omega)
    rw [hnx] at a1 a3
    obtain ⟨s', e', g1, g2, g3⟩ := ih (d, w) y h1 hc.2 (fun x hx => hy x (by simp [hx])) (by simp only [a1]; omega)
    have hlen : s.1.length = n := h.1.1
    refine ⟨s', ?_, ?_, ?_, ?_⟩
    · rw [List.map_cons, run, step, e]; exact e'
    · cases ys with
      | nil => exact g1
      | cons y' ys' => simpa [List.getLast?_cons] using g1
    · intro j hj
      rw [g2 j (by simp only [a1]; omega), a3, List.getElem?_set_ne (by omega)]
    · intro j hj1 hj2
      rw [List.length_cons] at hj2
      by_cases hje : j = s.2.last + 1
      · refine ⟨⟨s.2.marker + 1, z⟩, ?_, ?_⟩
        · rw [g2 j (by simp only [a1]; omega), a3, hje, List.getElem?_set_self (by omega)]
        · rw [hje, Nat.add_sub_cancel_left]; rfl
      · obtain ⟨b, b1, b2⟩ := g3 j (by simp only [a1]; omega) (by simp only [a1]; omega)
        refine ⟨b, b1, ?_⟩
        rw [b2, a2, a1, BitVec.add_assoc]
        congr 1
        rw [show j - s.2.last = 1 + (j - (s.2.last + 1)) by omega, BitVec.ofNat_add]
        rfl

/-- **C242** (partial): with one block, after any history with any faults, a restart of the working device changes nothing
that is read. Missing: several blocks, for which it is false (`C242_lost_wrong`, `C242_first_wrong`). -/
theorem C242_one_partial (size len : Nat) (d : List Block) (hd : Fits size 1 d) (h0 : 0 < len) (hl : len ≤ size)
    (os : List (Fault × Op)) (hx : ∀ f x, (f, Op.write x) ∈ os → x.length = len) (hm : ∀ f, (f, Op.restart) ∈ os → f.marker 0 = 0) :
    ∃ w s w', init (flash size) d 1 = .ok w ∧ runF size (d, w) os = .ok s ∧ init (flash size) s.1 1 = .ok w' ∧
      read (flash size) s.1 w' len = read (flash size) s.1 s.2 len := by
  have hinit : ∀ (f : Fault) (d : List Block), Fits size 1 d → f.marker 0 = 0 →
      ∃ w, init (faulty size f) d 1 = .ok w ∧ w.n = 1 ∧ w.last = 0 := by
    intro f d hd hf
    refine ⟨_, init_eq _ _ _ (by omega), rfl, ?_⟩
    have h0 : 0 < d.length := by rw [hd.1]; omega
    simp only [searchLast, faulty, hf, ne_eq, not_true_eq_false, if_false, flash_marker size 1 d hd 0 h0, Nat.sub_self,
      searchLoop]
    rfl
  have hinit' : ∀ d : List Block, Fits size 1 d → ∃ w, init (flash size) d 1 = .ok w ∧ w.n = 1 ∧ w.last = 0 := by
    intro d hd
    refine ⟨_, init_eq _ _ _ (by omega), rfl, ?_⟩
    have h0 : 0 < d.length := by rw [hd.1]; omega
    simp only [searchLast, ne_eq, not_true_eq_false, if_false, flash_marker size 1 d hd 0 h0, Nat.sub_self, searchLoop]
    rfl
  have key : ∀ (os : List (Fault × Op)) (s : List Block × Wlm), (∀ f x, (f, Op.write x) ∈ os → x.length = len) →
      (∀ f, (f, Op.restart) ∈ os → f.marker 0 = 0) → Fits size 1 s.1 → s.2.n = 1 → s.2.last = 0 →
      ∃ s', runF size s os = .ok s' ∧ Fits size 1 s'.1 ∧ s'.2.last = 0 := by
    intro os
    induction os with
    | nil => intro s _ _ h1 _ h3; exact ⟨s, rfl, h1, h3⟩
    | cons o os ih =>
      intro s hx hm h1 h2 h3
      obtain ⟨f, o⟩ := o
      have hx' : ∀ f x, (f, Op.write x) ∈ os → x.length = len := fun f x h => hx f x (List.mem_cons_of_mem _ h)
      have hm' : ∀ f, (f, Op.restart) ∈ os → f.marker 0 = 0 := fun f h => hm f (List.mem_cons_of_mem _ h)
      cases o with
      | write x =>
        have hxl := hx f x (by simp)
        have hrec : Records size 1 len (fun _ => True) s.1 := ⟨h1, fun _ _ => trivial⟩
        obtain ⟨d', w', r, e1, e2, e3⟩ := write_faulty hrec (by omega) f x hxl h0 hl trivial
        have hlast : w'.last = 0 := by
          rw [write, if_neg (by omega)] at e1
          simp only at e1
          split_ifs at e1 with c1 c2
          · cases e1; exact h3
          · rw [nextBlock, if_neg (by omega), Res.ok_bind] at e1
            cases e1
            simp only
            rw [h2, Nat.mod_one]
          · cases e1; exact h3
        obtain ⟨s', g1, g2⟩ := ih (d', w') hx' hm' e3.1 (by rw [e2]; exact h2) hlast
        exact ⟨s', by rw [runF, step, e1]; exact g1, g2⟩
      | restart =>
        obtain ⟨w', e1, e2, e3⟩ := hinit f s.1 h1 (hm f (by simp))
        obtain ⟨s', g1, g2⟩ := ih (s.1, w') hx' hm' h1 e2 e3
        exact ⟨s', by rw [runF, step, h2, e1]; exact g1, g2⟩
  obtain ⟨w, e1, e2, e3⟩ := hinit' d hd
  obtain ⟨s, g1, g2, g3⟩ := key os (d, w) hx hm hd e2 e3
  obtain ⟨w', k1, -, k3⟩ := hinit' s.1 g2
  exact ⟨w, s, w', e1, g1, k1, by rw [read, read, k3, g3]⟩

/-- **C242** fails: one write is refused while block `p` is active (not the last one, and nothing was lost before), and then
the writes of any records `ys` succeed, without coming to the end of the device. Until a restart, reads return the last of
them; after it, the record from before the refused write. -/
theorem C242_lost_wrong (size n len p : Nat) (s : List Block × Wlm) (old first : List Byte) (hn : n < 256) (h0 : 0 < len)
    (hl : len ≤ size) (h : RelL size n len s ⟨old, first, .healthy p⟩) (e : Int) (he : e ≠ 0) (x : List Byte)
    (hx : x.length = len) (hne : x ≠ old) (ys : List (List Byte)) (hy : ∀ y ∈ ys, y.length = len)
    (hlen : p + 1 + ys.length < n) :
    ∃ w cur, write (refusing size e) s.1 s.2 x = .ok (s.1, w, e) ∧ read (flash size) s.1 w len = (0, cur) ∧
      (AllChange cur ys → ∃ s', run (flash size) (s.1, w) (ys.map Op.write) = .ok s' ∧
        read (flash size) s'.1 s'.2 len = (0, ys.getLast?.getD cur) ∧
        ∃ w', init (flash size) s'.1 n = .ok w' ∧ read (flash size) s'.1 w' len = (0, old)) := by
  obtain ⟨hh, ⟨hz, hf⟩, hpos, b, hp, hmk, hpat⟩ := h
  simp only [Phase.pos] at hpos
  have hd := hh.1
  have hdl : s.1.length = n := hd.1
  have hnx : next n s.2.last = p + 1 := by rw [hpos]; exact if_pos (by omega)
  have hlt : p + 1 < s.1.length := by omega
  have hh1 : Holds size n len (s.1, ⟨n, p + 1, s.2.marker + 1⟩) (s.1[p + 1].data.take len) := ⟨hd, rfl, hlt, rfl⟩
  refine ⟨⟨n, p + 1, s.2.marker + 1⟩, _, ?_, holds_read hl hh1, fun hc => ?_⟩
  · rw [refused_write hn h0 hl hh e he x hx hne, hnx]
  · obtain ⟨s', g1, g2, g3, -⟩ := writes_behind hn h0 hl ys _ _ hh1 hc hy hlen
    refine ⟨s', g1, holds_read hl g2, ?_⟩
    have hd' := g2.1
    have hdl' : s'.1.length = n := hd'.1
    have hsame : ∀ j (h : j < s'.1.length), (hj : j ≤ p + 1) → s'.1[j] = s.1[j]'(by omega) := by
      intro j hj hjp
      have hj' : j < s.1.length := by omega
      have : s'.1[j]? = s.1[j]? := g3 j hjp
      rw [List.getElem?_eq_getElem hj, List.getElem?_eq_getElem hj'] at this
      exact Option.some.inj this
    have hi := init_first (b := b) hd' hn p hp (fun j hj hjp => by
        rw [hsame j hj (by omega)]; exact (hpat j (by omega)).2 hjp) (fun hj => by
        rw [hsame _ hj (Nat.le_refl _)]
        intro hm
        have := (hpat _ (by omega)).1 hm
        omega)
    refine ⟨_, hi, ?_⟩
    have hp' : p < s'.1.length := by omega
    refine holds_read (n := n) (s := (s'.1, ⟨n, if p + 1 < n then p else 0, b + BitVec.ofNat 8 p⟩)) hl ⟨hd', rfl, ?_, ?_⟩
    · simp only; rw [if_pos (by omega)]; exact hp'
    · have hold := hh.2.2.2
      simp only [hpos] at hold
      simp only [if_pos (show p + 1 < n by omega), hsame p hp' (by omega)]
      exact hold

/-- **C242** fails with the last block active as well: then the record of block 0 comes back. -/
theorem C242_first_wrong (size n len : Nat) (s : List Block × Wlm) (old first : List Byte) (hn : n < 256)
    (h0 : 0 < len) (hl : len ≤ size) (h : RelL size n len s ⟨old, first, .healthy (n - 1)⟩) (e : Int) (he : e ≠ 0)
    (x : List Byte) (hx : x.length = len) (hne : x ≠ old) (ys : List (List Byte)) (hy : ∀ y ∈ ys, y.length = len)
    (hlen : ys.length < n) (hys : ys ≠ []) :
    ∃ w, write (refusing size e) s.1 s.2 x = .ok (s.1, w, e) ∧ read (flash size) s.1 w len = (0, first) ∧
      (AllChange first ys → ∃ s', run (flash size) (s.1, w) (ys.map Op.write) = .ok s' ∧
        read (flash size) s'.1 s'.2 len = (0, ys.getLast?.getD first) ∧
        ∃ w', init (flash size) s'.1 n = .ok w' ∧ read (flash size) s'.1 w' len = (0, first)) := by
  obtain ⟨hh, ⟨hz, hf⟩, hpos, b, hp, hmk, hpat⟩ := h
  simp only [Phase.pos] at hpos
  simp only at hf
  have hd := hh.1
  have hdl : s.1.length = n := hd.1
  have hy1 : 1 ≤ ys.length := List.length_pos_iff.2 hys
  have hnx : next n s.2.last = 0 := by rw [hpos]; exact if_neg (by omega)
  have hh1 : Holds size n len (s.1, ⟨n, 0, s.2.marker + 1⟩) first := ⟨hd, rfl, hz, hf⟩
  refine ⟨⟨n, 0, s.2.marker + 1⟩, ?_, holds_read hl hh1, fun hc => ?_⟩
  · rw [refused_write hn h0 hl hh e he x hx hne, hnx]
  · obtain ⟨s', g1, g2, g3, g4⟩ := writes_behind hn h0 hl ys _ _ hh1 hc hy (by simp only; omega)
    refine ⟨s', g1, holds_read hl g2, ?_⟩
    have hd' := g2.1
    have hdl' : s'.1.length = n := hd'.1
    have hz' : 0 < s'.1.length := by omega
    have h00 : s'.1[0] = s.1[0] := by
      have := g3 0 (Nat.le_refl _)
      rw [List.getElem?_eq_getElem hz', List.getElem?_eq_getElem hz] at this
      exact Option.some.inj this
    have hi := init_first (b := b) hd' hn 0 (by omega) (fun j hj hjp => by
        obtain rfl : j = 0 := by omega
        rw [h00]; exact (hpat 0 hz).2 (Nat.zero_le _)) (fun hj => by
        obtain ⟨c, c1, c2⟩ := g4 1 (by simp) (by simpa using hy1)
        rw [List.getElem?_eq_getElem (by omega)] at c1
        cases c1
        rw [c2]
        simp only [hmk, Nat.sub_zero]
        rw [add_one, BitVec.add_assoc, ← BitVec.ofNat_add, ne_eq, add_ofNat_inj]
        omega)
    refine ⟨_, hi, holds_read (n := n) (s := (s'.1, ⟨n, if 0 + 1 < n then 0 else 0, b + BitVec.ofNat 8 0⟩)) hl
      ⟨hd', rfl, ?_, ?_⟩⟩
    · simp only [if_pos (show 0 + 1 < n by omega)]; exact hz'
    · simp only [if_pos (show 0 + 1 < n by omega), h00]; exact hf

-- four blocks: a write is refused (code 5); the next one succeeds and is read back, but a restart brings back the record
-- from before the refusal
example : (do let w ← init (flash 3) (blank 4) 4
              let a ← write (flash 3) (blank 4) w [1]
              let r ← write (refusing 3 5) a.1 a.2.1 [2]
              let b ← write (flash 3) r.1 r.2.1 [3]
              let w' ← init (flash 3) b.1 4
              pure (r.2.2, b.2.2, read (flash 3) b.1 b.2.1 1, read (flash 3) b.1 w' 1)) =
      (.ok (5, 0, (0, [3]), (0, [1])) : Res (Int × Int × (Int × List Byte) × (Int × List Byte))) := by decide

end Gel.Wear
