import Verif.Debounce.Model
import Mathlib.Tactic.SplitIfs
import Mathlib.Tactic.Set

/-!
# Debounce: lemmas
-/
namespace Gel.Debounce

variable {w : Nat}

/-! ## One bit -/

/-- What one call does to one input: its stored level, its reported level, its counter; and whether it changed. -/
structure Bit (w : Nat) where
  old : Bool
  buf : Bool
  cnt : BitVec w

def Bit.next (s : Bit w) (b : Bool) (d : BitVec w) : Bit w :=
  if b = s.old then { s with cnt := 0 }
  else
    let c := if s.cnt = 0 then d else s.cnt - 1
    if c = 0 then ⟨b, b, 0⟩ else { s with cnt := c }

def Bit.flips (s : Bit w) (b : Bool) (d : BitVec w) : Bool :=
  b != s.old && (if s.cnt = 0 then d else s.cnt - 1) == 0

/-- The part of the filter that belongs to input `i`. -/
def bit (f : Filter w) (i : Nat) : Bit w := ⟨f.oldInput.getLsbD i, f.buffered.getLsbD i, f.count.getD i 0⟩

theorem nth_eq (x : BitVec w) (i : Nat) (hi : i < w) : nth x i = .ok (if x.getLsbD i then 1 else 0) := by
  rw [nth, shrU, if_pos hi]
  simp only [Res.ok_bind, Res.pure_eq, Res.ok.injEq]
  ext j hj
  rw [← BitVec.getLsbD_eq_getElem, ← BitVec.getLsbD_eq_getElem, BitVec.getLsbD_and, BitVec.getLsbD_ushiftRight,
    show (1 : BitVec w) = 1#w from rfl, BitVec.getLsbD_one]
  split_ifs with h
  · rw [BitVec.getLsbD_one]
    by_cases hj0 : j = 0
    · subst hj0; simp [h]
    · simp [hj0]
  · by_cases hj0 : j = 0
    · subst hj0; simp [h]
    · simp [hj0]

theorem one_ne (hw : 0 < w) : (1 : BitVec w) ≠ 0 := by
  intro h
  have h1 := congrArg BitVec.toNat h
  have h2 : 1 < 2 ^ w := Nat.one_lt_two_pow (by omega)
  simp only [BitVec.ofNat_eq_ofNat, BitVec.toNat_ofNat, Nat.zero_mod, Nat.mod_eq_of_lt h2] at h1
  cases h1

theorem bool_ite (b : Bool) : bool (w := w) (if b then 1 else 0) = if b then 1 else 0 := by
  cases b
  · simp [bool]
  · simp only [if_true, bool]
    split_ifs with h
    · rfl
    · rcases Nat.eq_zero_or_pos w with h0 | h0
      · subst h0; decide
      · exact absurd ((BitVec.pos_iff_ne_zero _).2 (one_ne h0)) h

theorem one_toNat (hw : 0 < w) : (1 : BitVec w).toNat = 1 := by
  rw [BitVec.ofNat_eq_ofNat, BitVec.toNat_ofNat, Nat.mod_eq_of_lt (Nat.one_lt_two_pow (by omega))]

theorem one_shift_ub (hw : 0 < w) : shlS false 1#w (w - 1) = .ub := by
  rw [shlS, if_neg]
  rintro ⟨-, h | ⟨h0, h1⟩⟩
  · cases h
  · rcases Nat.lt_or_ge 1 w with h2 | h2
    · rw [BitVec.toInt_one h2, Int.one_mul] at h1
      exact absurd h1 (by simp)
    · obtain rfl : w = 1 := by omega
      revert h0; decide

theorem ite_inj (hw : 0 < w) (a b : Bool) : ((if a then 1 else 0 : BitVec w) = if b then 1 else 0) ↔ a = b := by
  have h1 := one_ne hw
  have h2 := h1.symm
  cases a <;> cases b <;> simp [h1, h2] <;> omega

theorem getLsbD_one_shift (i j : Nat) (hi : i < w) : (1#w <<< i).getLsbD j = decide (j = i) := by
  rw [BitVec.getLsbD_shiftLeft, BitVec.getLsbD_one]
  by_cases h : j = i
  · subst h; simp [hi]; omega
  · by_cases h2 : j < i
    · simp [h, h2]
    · simp [h]; intro _ _ ; omega

/-- Strictly conforming shifts are undefined exactly for the last input. -/
theorem shl_one_strict (i : Nat) (hi : i < w - 1) : shlS false 1#w i = .ok (1#w <<< i) := by
  rw [shlS, if_pos]
  have h1 : (1#w).toInt = 1 := BitVec.toInt_one (by omega)
  refine ⟨by omega, Or.inr ⟨by rw [h1]; decide, ?_⟩⟩
  rw [h1, Int.one_mul]
  have : (2 : Nat) ^ i < 2 ^ (w - 1) := Nat.pow_lt_pow_right (by decide) (by omega)
  exact_mod_cast this

theorem shl_one (gnu : Bool) (i : Nat) (hi : i < w) (hg : gnu = true ∨ i < w - 1) :
    shlS gnu 1#w i = .ok (1#w <<< i) := by
  rcases hg with rfl | h
  · simp [shlS, hi]
  · cases gnu
    · exact shl_one_strict i h
    · simp [shlS, hi]

theorem shl_zero (gnu : Bool) (i : Nat) (hi : i < w) : shlS gnu 0#w i = .ok 0#w := by
  rw [shlS, if_pos]
  · simp
  · refine ⟨hi, Or.inr ⟨by simp, ?_⟩⟩
    rw [BitVec.toInt_zero, Int.zero_mul]
    exact Int.pow_pos (by decide)

theorem setNth_eq (gnu : Bool) (x : BitVec w) (i : Nat) (v : BitVec w) (b : Bool) (hv : bool v = if b then 1 else 0)
    (hi : i < w) (hg : gnu = true ∨ i < w - 1) :
    ∃ y, setNth gnu x i v = .ok y ∧ ∀ j, j < w → y.getLsbD j = if j = i then b else x.getLsbD j := by
  rw [setNth, hv, shl_one gnu i hi hg]
  cases b
  · refine ⟨_, by simp only [Res.ok_bind]; erw [shl_zero gnu i hi]; rfl, ?_⟩
    intro j hj
    rw [BitVec.getLsbD_or, BitVec.getLsbD_and, BitVec.getLsbD_not, getLsbD_one_shift i j hi]
    by_cases h : j = i <;> simp [h, hj]
  · refine ⟨_, by simp only [Res.ok_bind]; erw [shl_one gnu i hi hg]; rfl, ?_⟩
    intro j hj
    rw [BitVec.getLsbD_or, BitVec.getLsbD_and, BitVec.getLsbD_not, getLsbD_one_shift i j hi]
    by_cases h : j = i <;> simp [h, hj]

theorem getD_set (l : List (BitVec w)) (i j : Nat) (v : BitVec w) (hi : i < l.length) :
    (l.set i v).getD j 0 = if j = i then v else l.getD j 0 := by
  simp only [List.getD_eq_getElem?_getD, List.getElem?_set]
  by_cases h : i = j
  · subst h; simp [hi]
  · simp [h, Ne.symm h]

theorem rd_getD (l : List (BitVec w)) (i : Nat) (hi : i < l.length) : rd l i = .ok (l.getD i 0) := by
  rw [rd, List.getElem?_eq_getElem hi]; simp [List.getD_eq_getElem?_getD, hi]

/-- `debounce_filter_single` on an input. `hg` excludes the undefined shift of strict C. -/
theorem filterSingle_eq (gnu : Bool) (f : Filter w) (input : BitVec w) (i : Nat) (d : BitVec w) (b : Bool)
    (hb : bool input = if b then 1 else 0) (hi : i < w) (hl : f.count.length = w)
    (hg : gnu = true ∨ i < w - 1 ∨ (bit f i).flips b d = false) :
    ∃ f' c, filterSingle gnu f input i d = .ok (f', c) ∧ f'.count.length = w ∧
      (∀ j, j < w → bit f' j = if j = i then (bit f i).next b d else bit f j) ∧
      (∀ j, j < w → c.getLsbD j = (decide (j = i) && (bit f i).flips b d)) := by
  have hi' : i < f.count.length := by omega
  rw [filterSingle, nth_eq _ _ hi, hb]
  simp only [Res.ok_bind, ite_inj (Nat.zero_lt_of_lt hi)]
  by_cases h1 : b = f.oldInput.getLsbD i
  · rw [if_pos h1, wr, if_pos hi']
    refine ⟨_, _, rfl, by simp [hl], ?_, ?_⟩
    · intro j hj
      rw [bit, getD_set _ _ _ _ hi']
      by_cases hj : j = i
      · subst hj; simp [Bit.next, bit, h1]
      · simp [hj, bit]
    · intro j _
      simp [Bit.flips, bit, h1]
  · rw [if_neg h1, rd_getD _ _ hi']
    simp only [Res.ok_bind]
    have hw : (if 0 < f.count.getD i 0 then f.count.getD i 0 - 1 else d) =
        if (bit f i).cnt = 0 then d else (bit f i).cnt - 1 := by
      show (if 0 < f.count.getD i 0 then f.count.getD i 0 - 1 else d) =
        if f.count.getD i 0 = 0 then d else f.count.getD i 0 - 1
      generalize f.count.getD i 0 = x
      by_cases h0 : x = 0
      · subst h0; rfl
      · rw [if_pos (show 0 < x from (BitVec.pos_iff_ne_zero _).2 h0), if_neg h0]
    rw [hw, wr, if_pos hi', Res.ok_bind, rd_getD _ _ (by simpa using hi'), Res.ok_bind, getD_set _ _ _ _ hi', if_pos rfl]
    set c := (if (bit f i).cnt = 0 then d else (bit f i).cnt - 1) with hc
    by_cases h2 : c = 0
    · rw [if_pos h2]
      have hfl : (bit f i).flips b d = true := by
        simp only [Bit.flips, ← hc, h2]; simp [bit, h1]
      have hg' : gnu = true ∨ i < w - 1 := by
        rcases hg with h | h | h
        · exact Or.inl h
        · exact Or.inr h
        · rw [hfl] at h; cases h
      obtain ⟨y1, e1, p1⟩ := setNth_eq gnu f.buffered i input b hb hi hg'
      obtain ⟨y2, e2, p2⟩ := setNth_eq gnu f.oldInput i input b hb hi hg'
      obtain ⟨y3, e3, p3⟩ := setNth_eq gnu 0 i 1 true (by simpa using bool_ite (w := w) true) hi hg'
      rw [e1, e2, e3]
      refine ⟨_, _, rfl, by simp [hl], ?_, ?_⟩
      · intro j hj
        rw [bit, getD_set _ _ _ _ hi']
        simp only [p1 j hj, p2 j hj]
        by_cases hji : j = i
        · subst hji
          simp only [if_pos, Bit.next, ← hc, h2]
          rw [if_neg (by simpa [bit] using h1)]
        · simp [hji, bit]
      · intro j hj
        rw [p3 j hj, hfl]
        by_cases hji : j = i <;> simp [hji]
    · rw [if_neg h2]
      refine ⟨_, _, rfl, by simp [hl], ?_, ?_⟩
      · intro j hj
        rw [bit, getD_set _ _ _ _ hi']
        by_cases hji : j = i
        · subst hji
          simp only [if_pos, Bit.next, ← hc, if_neg h2]
          rw [if_neg (by simpa [bit] using h1)]
          simp [bit]
        · simp [hji, bit]
      · intro j _
        have : (bit f i).flips b d = false := by
          rw [Bit.flips, ← hc, beq_eq_false_iff_ne.2 h2, Bool.and_false]
        simp [this]

theorem filterLoop_eq (gnu : Bool) (input d : BitVec w) (n : Nat) : ∀ (f : Filter w) (ch : BitVec w) (i : Nat),
    i + n = w → f.count.length = w → (gnu = true ∨ (bit f (w - 1)).flips (input.getLsbD (w - 1)) d = false) →
    ∃ f' c, filterLoop gnu input d f ch i n = .ok (f', c) ∧ f'.count.length = w ∧
      (∀ j, j < w → bit f' j = if i ≤ j then (bit f j).next (input.getLsbD j) d else bit f j) ∧
      (∀ j, j < w → c.getLsbD j = (ch.getLsbD j || (decide (i ≤ j) && (bit f j).flips (input.getLsbD j) d))) := by
  induction n with
  | zero =>
    intro f ch i hin hl _
    refine ⟨f, ch, rfl, hl, ?_, ?_⟩
    · intro j hj; rw [if_neg (by omega)]
    · intro j hj; simp; intro h; omega
  | succ n ih =>
    intro f ch i hin hl hg
    rw [filterLoop, nth_eq _ _ (by omega), Res.ok_bind]
    obtain ⟨f1, c1, e1, l1, p1, q1⟩ := filterSingle_eq gnu f (if input.getLsbD i then 1 else 0) i d (input.getLsbD i)
      (bool_ite _) (by omega) hl (by
        rcases hg with h | h
        · exact Or.inl h
        · right
          by_cases hi31 : i < w - 1
          · exact Or.inl hi31
          · have : i = w - 1 := by omega
            subst this; exact Or.inr h)
    rw [e1, Res.ok_bind]
    simp only
    by_cases hn : n = 0
    · subst hn
      refine ⟨f1, ch ||| c1, rfl, l1, ?_, ?_⟩
      · intro j hj
        rw [p1 j hj]
        by_cases hji : j = i
        · subst hji; simp
        · rw [if_neg hji, if_neg (by omega)]
      · intro j hj
        rw [BitVec.getLsbD_or, q1 j hj]
        by_cases hji : j = i
        · subst hji; simp
        · have h3 : ¬ i ≤ j := by omega
          simp [hji, h3]
    · obtain ⟨f2, c2, e2, l2, p2, q2⟩ := ih f1 (ch ||| c1) (i + 1) (by omega) l1 (by
        rcases hg with h | h
        · exact Or.inl h
        · right; rw [p1 (w - 1) (by omega), if_neg (by omega)]; exact h)
      refine ⟨f2, c2, e2, l2, ?_, ?_⟩
      · intro j hj
        rw [p2 j hj, p1 j hj]
        by_cases hji : j = i
        · subst hji; rw [if_neg (by omega), if_pos rfl, if_pos (by omega)]
        · by_cases h4 : i ≤ j
          · rw [if_pos (by omega), if_neg hji, if_pos h4]
          · rw [if_neg (by omega), if_neg hji, if_neg h4]
      · intro j hj
        rw [q2 j hj, BitVec.getLsbD_or, q1 j hj, p1 j hj]
        by_cases hji : j = i
        · subst hji; simp [show ¬ j + 1 ≤ j by omega]
        · by_cases h4 : i ≤ j
          · have h5 : i + 1 ≤ j := by omega
            simp [hji, h4, h5]
          · have h5 : ¬ i + 1 ≤ j := by omega
            simp [hji, h4, h5]

/-- `debounce_filter`, bit by bit. -/
theorem filter_eq (gnu : Bool) (f : Filter w) (input d : BitVec w) (hl : f.count.length = w)
    (hg : gnu = true ∨ (bit f (w - 1)).flips (input.getLsbD (w - 1)) d = false) :
    ∃ f' c, filter gnu f input d = .ok (f', c) ∧ f'.count.length = w ∧
      (∀ j, j < w → bit f' j = (bit f j).next (input.getLsbD j) d) ∧
      (∀ j, j < w → c.getLsbD j = (bit f j).flips (input.getLsbD j) d) := by
  obtain ⟨f', c, e, l, p, q⟩ := filterLoop_eq gnu input d w f 0 0 (Nat.zero_add _) hl hg
  refine ⟨f', c, e, l, ?_, ?_⟩
  · intro j hj; rw [p j hj, if_pos (Nat.zero_le _)]
  · intro j hj; rw [q j hj]; simp

theorem clearLoop_eq (n : Nat) : ∀ (l : List (BitVec w)) (i : Nat), i + n ≤ l.length →
    ∃ l', clearLoop l i n = .ok l' ∧ l'.length = l.length ∧
      ∀ j, l'.getD j 0 = if i ≤ j ∧ j < i + n then 0 else l.getD j 0 := by
  induction n with
  | zero =>
    intro l i _
    refine ⟨l, rfl, rfl, ?_⟩
    intro j; rw [if_neg (by omega)]
  | succ n ih =>
    intro l i h
    rw [clearLoop, wr, if_pos (by omega), Res.ok_bind]
    obtain ⟨l', e, hl, p⟩ := ih (l.set i 0) (i + 1) (by simp; omega)
    refine ⟨l', e, by simpa using hl, ?_⟩
    intro j
    rw [p, getD_set _ _ _ _ (by omega)]
    by_cases hji : j = i
    · subst hji; simp
    · by_cases h1 : i ≤ j ∧ j < i + (n + 1)
      · rw [if_pos h1, if_pos (by omega)]
      · rw [if_neg h1, if_neg (by omega), if_neg hji]

theorem init_eq (f : Filter w) (hl : f.count.length = w) :
    ∃ f', init f = .ok f' ∧ f'.count.length = w ∧ ∀ j, j < w → bit f' j = ⟨false, false, 0⟩ := by
  obtain ⟨l', e, h, p⟩ := clearLoop_eq w f.count 0 (by omega)
  rw [init, e]
  refine ⟨_, rfl, by simp [h, hl], ?_⟩
  intro j hj
  simp only [bit, p j]
  simp [hj]

theorem set_bit (f : Filter w) (v : BitVec w) (j : Nat) : bit (set f v) j = ⟨v.getLsbD j, v.getLsbD j, (bit f j).cnt⟩ := rfl

end Gel.Debounce
