import Verif.Pulse.Api
import Verif.Debounce.Rule

/-!
# Pulse counter: lemmas
-/
namespace Gel.Pulse

variable {w : Nat}

open Debounce (Bit nth_eq ite_inj getD_set rd_getD getLsbD_one_shift shl_one bool_ite)

/-- The part of the filter that belongs to input `i`, as in the debounce filter. -/
def bit (f : Filter w) (i : Nat) : Bit w := ⟨f.oldInput.getLsbD i, f.oldInput.getLsbD i, f.filters.getD i 0⟩

/-- Whether an input with level `o` that changes is counted. -/
def edge (t : Kind) (o : Bool) : Bool :=
  match t with
  | .high => o
  | .low => !o
  | .other => false

/-- Whether a call counts a pulse. -/
def counted (t : Kind) (s : Bit w) (b : Bool) (d : BitVec w) : Bool := s.flips b d && edge t s.old

theorem nth_eq' (x : BitVec w) (i : Nat) (hi : i < w) : nth x i = .ok (if x.getLsbD i then 1 else 0) :=
  Debounce.nth_eq x i hi

theorem counts_eq (hw : 0 < w) (t : Kind) (o b : Bool) (h : b ≠ o) :
    counts t (if o then 1 else 0 : BitVec w) (if b then 1 else 0) = edge t o := by
  have h1 := Debounce.one_ne hw
  simp only [BitVec.ofNat_eq_ofNat] at h1
  have h2 := h1.symm
  cases t <;> cases o <;> cases b <;> simp_all [counts, edge]

theorem setNth_eq (gnu : Bool) (x : BitVec w) (i : Nat) (b : Bool) (hi : i < w) (hg : gnu = true ∨ i < w - 1) :
    ∃ y, setNth gnu x i (if b then 1 else 0) = .ok y ∧ ∀ j, j < w → y.getLsbD j = if j = i then b else x.getLsbD j := by
  rw [setNth, shl_one gnu i hi hg]
  refine ⟨_, rfl, ?_⟩
  intro j hj
  rw [BitVec.getLsbD_or, BitVec.getLsbD_and, BitVec.getLsbD_not, getLsbD_one_shift i j hi]
  cases b
  · by_cases h : j = i <;> simp [h, hj]
  · rw [if_pos rfl, show (1 : BitVec w) = 1#w from rfl, getLsbD_one_shift i j hi]
    by_cases h : j = i <;> simp [h, hj]

/-- The sizes of the arrays. -/
def WF (f : Filter w) : Prop := f.filters.length = w ∧ f.count.length = w

theorem filterStep_eq (gnu : Bool) (f : Filter w) (ch : Int) (input d : BitVec w) (i : Nat) (hi : i < w) (hl : WF f)
    (hg : gnu = true ∨ i < w - 1 ∨ (bit f i).flips (input.getLsbD i) d = false) :
    ∃ f', filterStep gnu f ch input d i =
        .ok (f', if counted f.type (bit f i) (input.getLsbD i) d then 1 else ch) ∧ WF f' ∧ f'.type = f.type ∧
      (∀ j, j < w → bit f' j = if j = i then (bit f i).next (input.getLsbD i) d else bit f j) ∧
      (∀ j, f'.count.getD j 0 = f.count.getD j 0 +
        if j = i ∧ counted f.type (bit f i) (input.getLsbD i) d then 1 else 0) := by
  obtain ⟨hl1, hl2⟩ := hl
  have hi' : i < f.filters.length := by omega
  have hi2 : i < f.count.length := by omega
  rw [filterStep, nth_eq' _ _ hi, nth_eq' _ _ hi]
  generalize input.getLsbD i = b at *
  simp only [Res.ok_bind, ite_inj (show 0 < w by omega)]
  by_cases h1 : b = f.oldInput.getLsbD i
  · have hc : counted f.type (bit f i) b d = false := by simp [counted, Bit.flips, bit, h1]
    rw [if_pos h1, wr, if_pos hi', hc]
    refine ⟨_, rfl, ⟨by simp [hl1], hl2⟩, rfl, ?_, by simp⟩
    intro j hj
    rw [bit, getD_set _ _ _ _ hi']
    by_cases hj : j = i
    · subst hj; simp [Bit.next, bit, h1]
    · simp [hj, bit]
  · rw [if_neg h1, rd_getD _ _ hi']
    simp only [Res.ok_bind]
    have hw : (if 0 < f.filters.getD i 0 then f.filters.getD i 0 - 1 else d) =
        if (bit f i).cnt = 0 then d else (bit f i).cnt - 1 := by
      show (if 0 < f.filters.getD i 0 then f.filters.getD i 0 - 1 else d) =
        if f.filters.getD i 0 = 0 then d else f.filters.getD i 0 - 1
      generalize f.filters.getD i 0 = x
      by_cases h0 : x = 0
      · subst h0; rfl
      · rw [if_pos (show 0 < x from (BitVec.pos_iff_ne_zero _).2 h0), if_neg h0]
    rw [hw, wr, if_pos hi', Res.ok_bind, rd_getD _ _ (by simpa using hi'), Res.ok_bind, getD_set _ _ _ _ hi', if_pos rfl]
    set c := (if (bit f i).cnt = 0 then d else (bit f i).cnt - 1) with hc
    by_cases h2 : c = 0
    · have hfl : (bit f i).flips b d = true := by
        rw [Bit.flips, ← hc, h2]; simp [bit, h1]
      have hct : counted f.type (bit f i) b d = edge f.type (f.oldInput.getLsbD i) := by
        rw [counted, hfl, Bool.true_and]; rfl
      have hg' : gnu = true ∨ i < w - 1 := by
        rcases hg with h | h | h
        · exact Or.inl h
        · exact Or.inr h
        · rw [hfl] at h; cases h
      obtain ⟨y, e, p⟩ := setNth_eq gnu f.oldInput i b hi hg'
      rw [if_pos h2, rd_getD _ _ hi2, Res.ok_bind, wr, if_pos hi2, Res.ok_bind, e, Res.ok_bind, counts_eq (by omega) _ _ _ h1, hct]
      refine ⟨_, rfl, ⟨by simp [hl1], by simp [hl2]⟩, rfl, ?_, ?_⟩
      · intro j hj
        rw [bit, getD_set _ _ _ _ hi']
        simp only [p j hj]
        by_cases hji : j = i
        · subst hji
          simp only [if_pos, Bit.next, ← hc, h2]
          rw [if_neg (by simpa [bit] using h1)]
        · simp [hji, bit]
      · intro j
        rw [getD_set _ _ _ _ hi2]
        by_cases hji : j = i
        · subst hji
          by_cases he : edge f.type (f.oldInput.getLsbD j) = true
          · simp [he]
          · simp [he]
        · simp [hji]
    · have hfl : (bit f i).flips b d = false := by
        rw [Bit.flips, ← hc, beq_eq_false_iff_ne.2 h2, Bool.and_false]
      have hct : counted f.type (bit f i) b d = false := by rw [counted, hfl, Bool.false_and]
      rw [if_neg h2, hct]
      refine ⟨_, rfl, ⟨by simp [hl1], hl2⟩, rfl, ?_, by simp⟩
      intro j hj
      rw [bit, getD_set _ _ _ _ hi']
      by_cases hji : j = i
      · subst hji
        simp only [if_pos, Bit.next, ← hc, if_neg h2]
        rw [if_neg (by simpa [bit] using h1)]
        simp [bit]
      · simp [hji, bit]

theorem filterLoop_eq (gnu : Bool) (input d : BitVec w) (n : Nat) : ∀ (f : Filter w) (ch : Int) (i : Nat),
    i + n = w → WF f → (gnu = true ∨ (bit f (w - 1)).flips (input.getLsbD (w - 1)) d = false) →
    ∃ f' ch', filterLoop gnu input d f ch i n = .ok (f', ch') ∧ WF f' ∧ f'.type = f.type ∧
      (∀ j, j < w → bit f' j = if i ≤ j then (bit f j).next (input.getLsbD j) d else bit f j) ∧
      (∀ j, j < w → f'.count.getD j 0 = f.count.getD j 0 +
        if i ≤ j ∧ counted f.type (bit f j) (input.getLsbD j) d then 1 else 0) ∧
      ((∃ j, i ≤ j ∧ j < w ∧ counted f.type (bit f j) (input.getLsbD j) d = true) → ch' = 1) ∧
      ((¬ ∃ j, i ≤ j ∧ j < w ∧ counted f.type (bit f j) (input.getLsbD j) d = true) → ch' = ch) := by
  induction n with
  | zero =>
    intro f ch i hin hl _
    refine ⟨f, ch, rfl, hl, rfl, ?_, ?_, ?_, fun _ => rfl⟩
    · intro j hj; rw [if_neg (by omega)]
    · intro j hj; rw [if_neg (by omega)]; simp
    · rintro ⟨j, h1, h2, -⟩; omega
  | succ n ih =>
    intro f ch i hin hl hg
    obtain ⟨f1, e1, l1, t1, p1, q1⟩ := filterStep_eq gnu f ch input d i (by omega) hl (by
        rcases hg with h | h
        · exact Or.inl h
        · right
          by_cases hi31 : i < w - 1
          · exact Or.inl hi31
          · have : i = w - 1 := by omega
            subst this; exact Or.inr h)
    rw [filterLoop, e1, Res.ok_bind]
    simp only
    have hrest : ∀ j, i + 1 ≤ j → j < w → bit f1 j = bit f j := by
      intro j h1 h2; rw [p1 j h2, if_neg (by omega)]
    have hgn : n = 0 ∨ gnu = true ∨ (bit f1 (w - 1)).flips (input.getLsbD (w - 1)) d = false := by
      by_cases hn : n = 0
      · exact Or.inl hn
      · right
        rcases hg with h | h
        · exact Or.inl h
        · right; rw [hrest (w - 1) (by omega) (by omega)]; exact h
    have hfin : ∃ f' ch', filterLoop gnu input d f1 (if counted f.type (bit f i) (input.getLsbD i) d then 1 else ch)
          (i + 1) n = .ok (f', ch') ∧ WF f' ∧ f'.type = f1.type ∧
        (∀ j, j < w → bit f' j = if i + 1 ≤ j then (bit f1 j).next (input.getLsbD j) d else bit f1 j) ∧
        (∀ j, j < w → f'.count.getD j 0 = f1.count.getD j 0 +
          if i + 1 ≤ j ∧ counted f1.type (bit f1 j) (input.getLsbD j) d then 1 else 0) ∧
        ((∃ j, i + 1 ≤ j ∧ j < w ∧ counted f1.type (bit f1 j) (input.getLsbD j) d = true) → ch' = 1) ∧
        ((¬ ∃ j, i + 1 ≤ j ∧ j < w ∧ counted f1.type (bit f1 j) (input.getLsbD j) d = true) →
          ch' = if counted f.type (bit f i) (input.getLsbD i) d then 1 else ch) := by
      rcases hgn with hn | hn
      · subst hn
        refine ⟨_, _, rfl, l1, rfl, ?_, ?_, ?_, fun _ => rfl⟩
        · intro j hj; rw [if_neg (by omega)]
        · intro j hj; rw [if_neg (by omega)]; simp
        · rintro ⟨j, h1, h2, -⟩; omega
      · exact ih f1 _ (i + 1) (by omega) l1 hn
    obtain ⟨f2, ch2, e2, l2, t2, p2, q2, r2, s2⟩ := hfin
    refine ⟨f2, ch2, e2, l2, t2.trans t1, ?_, ?_, ?_, ?_⟩
    · intro j hj
      rw [p2 j hj, p1 j hj]
      by_cases hji : j = i
      · subst hji; rw [if_neg (by omega), if_pos rfl, if_pos (by omega)]
      · by_cases h4 : i ≤ j
        · rw [if_pos (by omega), if_neg hji, if_pos h4]
        · rw [if_neg (by omega), if_neg hji, if_neg h4]
    · intro j hj
      rw [q2 j hj, q1 j, t1, p1 j hj]
      by_cases hji : j = i
      · subst hji
        rw [if_neg (show ¬ (j + 1 ≤ j ∧ _) by omega)]
        simp
      · rw [if_neg hji]
        by_cases h4 : i ≤ j
        · have h5 : i + 1 ≤ j := by omega
          simp [hji, h4, h5]
        · have h5 : ¬ i + 1 ≤ j := by omega
          simp [hji, h4, h5]
    · rintro ⟨j, h1, h2, h3⟩
      by_cases hex : ∃ j, i + 1 ≤ j ∧ j < w ∧ counted f1.type (bit f1 j) (input.getLsbD j) d = true
      · exact r2 hex
      · rw [s2 hex]
        have hji : j = i := by
          by_contra hne
          exact hex ⟨j, by omega, h2, by rw [t1, hrest j (by omega) h2]; exact h3⟩
        subst hji
        rw [if_pos h3]
    · intro hno
      have hex : ¬ ∃ j, i + 1 ≤ j ∧ j < w ∧ counted f1.type (bit f1 j) (input.getLsbD j) d = true := by
        rintro ⟨j, h1, h2, h3⟩
        rw [t1, hrest j h1 h2] at h3
        exact hno ⟨j, by omega, h2, h3⟩
      rw [s2 hex, if_neg]
      intro h3
      exact hno ⟨i, Nat.le_refl _, by omega, h3⟩

/-- `pulse_filter`, input by input. -/
theorem filter_eq (gnu : Bool) (f : Filter w) (input d : BitVec w) (hl : WF f)
    (hg : gnu = true ∨ (bit f (w - 1)).flips (input.getLsbD (w - 1)) d = false) :
    ∃ f' r, filter gnu f input d = .ok (f', r) ∧ WF f' ∧ f'.type = f.type ∧
      (∀ j, j < w → bit f' j = (bit f j).next (input.getLsbD j) d) ∧
      (∀ j, j < w → f'.count.getD j 0 = f.count.getD j 0 +
        if counted f.type (bit f j) (input.getLsbD j) d then 1 else 0) ∧
      ((∃ j, j < w ∧ counted f.type (bit f j) (input.getLsbD j) d = true) → r = 1) ∧
      ((¬ ∃ j, j < w ∧ counted f.type (bit f j) (input.getLsbD j) d = true) → r = 0) := by
  obtain ⟨f', r, e, l, t, p, q, r1, r2⟩ := filterLoop_eq gnu input d w f 0 0 (Nat.zero_add _) hl hg
  refine ⟨f', r, e, l, t, ?_, ?_, ?_, ?_⟩
  · intro j hj; rw [p j hj, if_pos (Nat.zero_le _)]
  · intro j hj; rw [q j hj]; simp
  · rintro ⟨j, h1, h2⟩; exact r1 ⟨j, Nat.zero_le _, h1, h2⟩
  · intro h; exact r2 (fun ⟨j, _, h1, h2⟩ => h ⟨j, h1, h2⟩)

theorem clear_eq (f : Filter w) (hl : WF f) (i : Int) :
    ∃ f', clear f i = .ok f' ∧ WF f' ∧ f'.type = f.type ∧ f'.oldInput = f.oldInput ∧ f'.filters = f.filters ∧
      ∀ j : Nat, j < w → f'.count.getD j 0 = if (j : Int) = i then 0 else f.count.getD j 0 := by
  rw [clear]
  by_cases h : i < 0 ∨ w ≤ i
  · rw [if_pos h]
    refine ⟨f, rfl, hl, rfl, rfl, rfl, ?_⟩
    intro j hj; rw [if_neg (by omega)]
  · rw [if_neg h, wr, if_pos (by have := hl.2; omega)]
    refine ⟨_, rfl, ⟨hl.1, by simp [hl.2]⟩, rfl, rfl, rfl, ?_⟩
    intro j hj
    rw [getD_set _ _ _ _ (by have := hl.2; omega)]
    by_cases hji : (j : Int) = i
    · rw [if_pos (by omega), if_pos hji]
    · rw [if_neg (by omega), if_neg hji]

theorem clears_eq (l : List Int) : ∀ (f : Filter w), WF f →
    ∃ f', clears f l = .ok f' ∧ WF f' ∧ f'.type = f.type ∧ f'.oldInput = f.oldInput ∧ f'.filters = f.filters ∧
      ∀ j : Nat, j < w → f'.count.getD j 0 = if (j : Int) ∈ l then 0 else f.count.getD j 0 := by
  induction l with
  | nil => intro f hl; exact ⟨f, rfl, hl, rfl, rfl, rfl, by simp⟩
  | cons i l ih =>
    intro f hl
    obtain ⟨f1, e1, l1, t1, o1, s1, c1⟩ := clear_eq f hl i
    obtain ⟨f2, e2, l2, t2, o2, s2, c2⟩ := ih f1 l1
    refine ⟨f2, by rw [clears, e1, Res.ok_bind, e2], l2, t2.trans t1, o2.trans o1, s2.trans s1, ?_⟩
    intro j hj
    rw [c2 j hj, c1 j hj]
    by_cases h1 : (j : Int) ∈ l
    · rw [if_pos h1, if_pos (by simp [h1])]
    · by_cases h2 : (j : Int) = i
      · rw [if_neg h1, if_pos h2, if_pos (by simp [h2])]
      · rw [if_neg h1, if_neg h2, if_neg (by simp [h1, h2])]

theorem init_eq (f : Filter w) (hl : WF f) (t : Kind) (v : BitVec w) :
    ∃ f', init f t v = .ok f' ∧ WF f' ∧ f'.type = t ∧ f'.oldInput = v ∧ f'.filters = f.filters ∧
      ∀ j, j < w → f'.count.getD j 0 = 0 := by
  have key : ∀ (n : Nat) (g : Filter w) (i : Nat), i + n = w → WF g →
      ∃ f', initLoop g i n = .ok f' ∧ WF f' ∧ f'.type = g.type ∧ f'.oldInput = g.oldInput ∧ f'.filters = g.filters ∧
        ∀ j : Nat, j < w → f'.count.getD j 0 = if i ≤ j then 0 else g.count.getD j 0 := by
    intro n
    induction n with
    | zero =>
      intro g i h hg
      refine ⟨g, rfl, hg, rfl, rfl, rfl, ?_⟩
      intro j hj; rw [if_neg (by omega)]
    | succ n ih =>
      intro g i h hg
      obtain ⟨f1, e1, l1, t1, o1, s1, c1⟩ := clear_eq g hg i
      obtain ⟨f2, e2, l2, t2, o2, s2, c2⟩ := ih f1 (i + 1) (by omega) l1
      refine ⟨f2, by rw [initLoop, e1, Res.ok_bind, e2], l2, t2.trans t1, o2.trans o1, s2.trans s1, ?_⟩
      intro j hj
      rw [c2 j hj, c1 j hj]
      by_cases h1 : i + 1 ≤ j
      · rw [if_pos h1, if_pos (by omega)]
      · by_cases h2 : j = i
        · rw [if_neg h1, if_pos (by omega), if_pos (by omega)]
        · rw [if_neg h1, if_neg (by omega), if_neg (by omega)]
  obtain ⟨f', e, l, t', o, s, c⟩ := key w { f with oldInput := v, type := t } 0 (Nat.zero_add _) hl
  exact ⟨f', e, l, t', o, s, fun j hj => by rw [c j hj, if_pos (Nat.zero_le _)]⟩

end Gel.Pulse
