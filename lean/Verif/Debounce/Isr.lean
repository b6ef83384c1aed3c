import Verif.Debounce.Exact

/-!
# Debounce: reading from an interrupt handler in the midst of debounce_filter (C169)

`debounce_read` and `debounce_value` look at `buffered` only, which each iteration of the loop in `debounce_filter` stores at
most once. What a handler sees is therefore the filter after some number of iterations.
-/
namespace Gel.Debounce

variable {w : Nat}

/-- The filter after `k` iterations of the loop of `debounce_filter`, debounce.c:25-26. -/
def midway (f : Filter w) (input d : BitVec w) (k : Nat) : Res (Filter w) := do
  let (g, _) ← filterLoop true input d f 0 0 k
  pure g

/-- After all iterations it is what the call leaves. -/
theorem midway_all (f : Filter w) (input d : BitVec w) :
    midway f input d w = (filter true f input d >>= fun r => .ok r.1) := rfl

theorem loop_part (input d : BitVec w) (n : Nat) : ∀ (f : Filter w) (ch : BitVec w) (i : Nat),
    i + n ≤ w → f.count.length = w →
    ∃ f' c, filterLoop true input d f ch i n = .ok (f', c) ∧ f'.count.length = w ∧
      (∀ j, j < w → bit f' j = if i ≤ j ∧ j < i + n then (bit f j).next (input.getLsbD j) d else bit f j) := by
  induction n with
  | zero =>
    intro f ch i _ hl
    refine ⟨f, ch, rfl, hl, fun j _ => ?_⟩
    rw [if_neg (by omega)]
  | succ n ih =>
    intro f ch i hin hl
    have hi : i < w := by omega
    obtain ⟨f1, c1, e1, l1, p1, -⟩ := filterSingle_eq true f (if input.getLsbD i then 1 else 0) i d _ (bool_ite _) hi hl (Or.inl rfl)
    obtain ⟨f2, c2, e2, l2, p2⟩ := ih f1 (ch ||| c1) (i + 1) (by omega) l1
    refine ⟨f2, c2, ?_, l2, fun j hj => ?_⟩
    · rw [filterLoop, nth_eq _ _ hi, Res.ok_bind, e1, Res.ok_bind]
      exact e2
    · rw [p2 j hj, p1 j hj]
      by_cases h : j = i
      · subst h
        rw [if_neg (by omega), if_pos rfl, if_pos (by omega)]
      · rw [if_neg h]
        by_cases h' : i ≤ j ∧ j < i + (n + 1)
        · rw [if_pos h', if_pos (by omega)]
        · rw [if_neg h', if_neg (by omega)]

/-- **C169**, exact: after `k` iterations the first `k` inputs have the level they have after the call, the others the one
they had before. -/
theorem C169_exact (f : Filter w) (hl : f.count.length = w) (input d : BitVec w) (k : Nat) (hk : k ≤ w) :
    ∃ m g c, midway f input d k = .ok m ∧ filter true f input d = .ok (g, c) ∧
      ∀ i, i < w → (value m).getLsbD i = if i < k then (value g).getLsbD i else (value f).getLsbD i := by
  obtain ⟨m, c1, e1, -, p1⟩ := loop_part input d k f 0 0 (by omega) hl
  obtain ⟨g, c2, e2, -, p2, -⟩ := filter_eq true f input d hl (Or.inl rfl)
  refine ⟨m, g, c2, by rw [midway, e1]; rfl, e2, fun i hi => ?_⟩
  have h1 : (bit m i).buf = _ := congrArg Bit.buf (p1 i hi)
  have h2 : (bit g i).buf = _ := congrArg Bit.buf (p2 i hi)
  by_cases h : i < k
  · rw [if_pos (by omega)] at h1
    rw [if_pos h]
    exact h1.trans h2.symm
  · rw [if_neg (by omega)] at h1
    rw [if_neg h]
    exact h1

/-- **C169**, proved part: `debounce_read` of any index in the midst of a call returns what it returns before or after the
call. Missing: `debounce_value`, for which it is false. -/
theorem C169_read_partial (f : Filter w) (hl : f.count.length = w) (input d : BitVec w) (k : Nat) (hk : k ≤ w) (i : Nat) :
    ∃ m g c, midway f input d k = .ok m ∧ filter true f input d = .ok (g, c) ∧ (read m i = read f i ∨ read m i = read g i) := by
  obtain ⟨m, g, c, e1, e2, h⟩ := C169_exact f hl input d k hk
  refine ⟨m, g, c, e1, e2, ?_⟩
  by_cases hi : w ≤ i
  · left; rw [read, read, if_pos hi, if_pos hi]
  · have hi' : i < w := by omega
    have := h i hi'
    simp only [value] at this
    rw [read, read, read, if_neg hi, if_neg hi, if_neg hi, nth_eq _ _ hi', nth_eq _ _ hi', nth_eq _ _ hi', this]
    by_cases hik : i < k
    · right; rw [if_pos hik]
    · left; rw [if_neg hik]

/-- **C169**, where it fails: if a call changes two inputs, there is a point in its midst where `debounce_value` is neither the
value before nor the one after: the first has changed and the second has not. -/
theorem C169_value_wrong (f g : Filter w) (hl : f.count.length = w) (input d c : BitVec w)
    (hg : filter true f input d = .ok (g, c)) (i j : Nat) (hij : i < j) (hj : j < w)
    (hi' : (value g).getLsbD i ≠ (value f).getLsbD i) (hj' : (value g).getLsbD j ≠ (value f).getLsbD j) :
    ∃ k m, midway f input d k = .ok m ∧ value m ≠ value f ∧ value m ≠ value g := by
  obtain ⟨m, g', c', e1, e2, h⟩ := C169_exact f hl input d j (by omega)
  rw [hg] at e2
  cases e2
  refine ⟨j, m, e1, fun he => ?_, fun he => ?_⟩
  · have := h i (by omega)
    rw [if_pos hij, he] at this
    exact hi' this.symm
  · have := h j hj
    rw [if_neg (by omega), he] at this
    exact hj' this

/-- Inputs 0 and 1 change together; in between only input 0 has changed. -/
example : let f : Filter 8 := ⟨0, 0, List.replicate 8 0⟩
    (filter true f 3 0 >>= fun r => .ok (value r.1)) = .ok 3 ∧
    (midway f 3 0 1 >>= fun m => .ok (value m)) = .ok 1 := by decide

end Gel.Debounce
