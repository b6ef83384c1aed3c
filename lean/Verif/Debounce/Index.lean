import Verif.Debounce.Exact

/-!
# Every index: property C246

`debounce_read` checks its index (debounce.h:23); `debounce_filter_single` does not.
-/
namespace Gel.Debounce

variable {w : Nat}

/-- **C246** (partial). For every index `debounce_read` has a result: 0 or 1 for an input, -1 for any other index. For an input
`debounce_filter_single` changes nothing that is read of the others. Missing: other indices (`C246_wrong`). -/
theorem C246_partial (f : Filter w) (hl : f.count.length = w) (i : Nat) :
    (∃ v, read f i = .ok v ∧ (i < w → v = if (value f).getLsbD i then 1 else 0) ∧ (w ≤ i → v = -1)) ∧
    (i < w → ∀ input d, ∃ g c, filterSingle true f input i d = .ok (g, c) ∧ g.count.length = w ∧
      (∀ j, j ≠ i → read g j = read f j) ∧ ∀ j, j ≠ i → c.getLsbD j = false) := by
  have hread : ∀ (f : Filter w) (j : Nat), read f j = .ok (if w ≤ j then -1 else if f.buffered.getLsbD j then 1 else 0) := by
    intro f j
    by_cases hj : w ≤ j
    · rw [read, if_pos hj, if_pos hj]
    · rw [read, if_neg hj, if_neg hj, nth_eq _ _ (by omega)]
      have hw : 0 < w := by omega
      have h1 : (1#w).toNat = 1 := by rw [BitVec.toNat_ofNat, Nat.mod_eq_of_lt (Nat.one_lt_two_pow (by omega))]
      cases f.buffered.getLsbD j
      · simp [pure]
      · simp [h1, pure]
  constructor
  · refine ⟨_, hread f i, fun h => by rw [if_neg (by omega)]; rfl, fun h => by rw [if_pos h]⟩
  · intro hi input d
    obtain ⟨g, c, e, l, p, q⟩ := filterSingle_eq true f input i d _ (bool_cases input) hi hl (Or.inl rfl)
    refine ⟨g, c, e, l, fun j hj => ?_, fun j hj => ?_⟩
    · rw [hread, hread]
      by_cases hw : w ≤ j
      · rw [if_pos hw, if_pos hw]
      · rw [if_neg hw, if_neg hw]
        have := congrArg Bit.buf (p j (by omega))
        rw [if_neg hj] at this
        simp only [bit] at this
        rw [this]
    · by_cases hw : j < w
      · rw [q j hw]; simp [hj]
      · exact BitVec.getLsbD_of_ge c j (by omega)

/-- **C246 is false of the code**: with any other index `debounce_filter_single` is undefined, whatever the filter, the sample and the
debounce value, with either meaning of the shifts. -/
theorem C246_wrong (gnu : Bool) (f : Filter w) (input : BitVec w) (i : Nat) (hi : w ≤ i) (d : BitVec w) :
    filterSingle gnu f input i d = .ub := by
  rw [filterSingle, nth, shrU, if_neg (by omega)]
  rfl

/-- **C246**, exactly. With GCC's shifts a call is defined if and only if the index is that of an input. With those of strict C it must
also not be a change of the last input. -/
theorem C246_exact (f : Filter w) (hl : f.count.length = w) (input : BitVec w) (i : Nat) (d : BitVec w) :
    ((∃ r, filterSingle true f input i d = .ok r) ↔ i < w) ∧
    ((∃ r, filterSingle false f input i d = .ok r) ↔
      i < w ∧ (i = w - 1 → ∀ g c, filterSingle true f input i d = .ok (g, c) → c = 0)) := by
  by_cases hi : i < w
  · obtain ⟨g, c, e, l, p, q⟩ := filterSingle_eq true f input i d _ (bool_cases input) hi hl (Or.inl rfl)
    refine ⟨⟨fun _ => hi, fun _ => ⟨_, e⟩⟩, ?_⟩
    constructor
    · rintro ⟨r, hr⟩
      refine ⟨hi, fun hw g' c' e' => ?_⟩
      rw [e] at e'
      cases e'
      by_cases hf : (bit f (w - 1)).flips (decide (input ≠ 0)) d = true
      · rw [hw, single_ub (by omega) f input d _ (bool_cases input) hl hf] at hr
        cases hr
      · apply BitVec.eq_of_getLsbD_eq
        intro j hj
        rw [q j hj, hw, Bool.eq_false_iff.2 hf]
        simp
    · rintro ⟨-, hc⟩
      have hg : false = true ∨ i < w - 1 ∨ (bit f i).flips (decide (input ≠ 0)) d = false := by
        by_cases h1 : i < w - 1
        · exact .inr (.inl h1)
        · have hw : i = w - 1 := by omega
          have h0 := hc hw g c e
          have := q i hi
          rw [h0] at this
          simp at this
          exact .inr (.inr (by simpa using this))
      obtain ⟨g', c', e', -⟩ := filterSingle_eq false f input i d _ (bool_cases input) hi hl hg
      exact ⟨_, e'⟩
  · have h1 := C246_wrong true f input i (by omega) d
    have h2 := C246_wrong false f input i (by omega) d
    exact ⟨⟨fun ⟨r, hr⟩ => (by rw [h1] at hr; cases hr), fun h => absurd h hi⟩,
      ⟨fun ⟨r, hr⟩ => (by rw [h2] at hr; cases hr), fun h => absurd h.1 hi⟩⟩

-- four inputs: index 3 works, 4 is undefined for writing and -1 for reading
example : ∃ f : Filter 4, init (⟨0, 0, [7, 7, 7, 7]⟩ : Filter 4) = .ok f ∧ filterSingle true f 1 3 0 = .ok (⟨8, 8, [0, 0, 0, 0]⟩, 8) ∧
    filterSingle false f 1 3 0 = .ub ∧ filterSingle true f 1 4 0 = .ub ∧ read f 4 = .ok (-1) := ⟨_, rfl, by decide⟩

end Gel.Debounce
