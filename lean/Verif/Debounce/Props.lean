import Verif.Debounce.Rule
import Verif.Debounce.Api
import Mathlib.Tactic.ByContra
import Mathlib.Tactic.Choose

/-!
# Debounce: properties C25 to C27, C90 and C91
-/
namespace Gel.Debounce

variable {w : Nat}

open Spec

/-! ## Histories -/

theorem run_bits (f : Filter w) (hl : f.count.length = w) (ins ds : Nat → BitVec w) :
    ∃ fs : Nat → Filter w, fs 0 = f ∧ ∀ k, run true f ins ds k = .ok (fs k) ∧ (fs k).count.length = w ∧
      ∀ i, i < w → bit (fs (k + 1)) i = (bit (fs k) i).next ((ins k).getLsbD i) (ds k) := by
  have hrun : ∀ k, ∃ g, run true f ins ds k = .ok g ∧ g.count.length = w := by
    intro k
    induction k with
    | zero => exact ⟨f, rfl, hl⟩
    | succ k ih =>
      obtain ⟨g, hg, hgl⟩ := ih
      obtain ⟨g', c, e, l, -⟩ := filter_eq true g (ins k) (ds k) hgl (Or.inl rfl)
      exact ⟨g', by rw [run, hg, Res.ok_bind, e]; rfl, l⟩
  choose fs hfs using hrun
  refine ⟨fs, (Res.ok.inj (hfs 0).1).symm, fun k => ⟨(hfs k).1, (hfs k).2, ?_⟩⟩
  obtain ⟨g', c, e, l, p, -⟩ := filter_eq true (fs k) (ins k) (ds k) (hfs k).2 (Or.inl rfl)
  have h1 := (hfs (k + 1)).1
  rw [run, (hfs k).1, Res.ok_bind, e] at h1
  have : g' = fs (k + 1) := Res.ok.inj h1
  rw [← this]; exact p

/-- Levels from a filter whose counters are clear. -/
theorem run_rule (f : Filter w) (hl : f.count.length = w)
    (h0 : ∀ i, i < w → (bit f i).cnt = 0 ∧ (bit f i).buf = (bit f i).old) (ins ds : Nat → BitVec w) :
    ∃ fs : Nat → Filter w, fs 0 = f ∧ (∀ k, run true f ins ds k = .ok (fs k)) ∧ ∀ i, i < w → ∀ k,
      RuleVarying (fun k => (ds k).toNat) (fun k => (ins k).getLsbD i) (fun k => (value (fs k)).getLsbD i) k := by
  obtain ⟨fs, f0, h⟩ := run_bits f hl ins ds
  refine ⟨fs, f0, fun k => (h k).1, ?_⟩
  intro i hi k
  have hbuf : ∀ k, (bit (fs k) i).buf = (bit (fs k) i).old := by
    intro k
    induction k with
    | zero => rw [f0]; exact (h0 i hi).2
    | succ k ih => rw [(h k).2.2 i hi]; exact next_buf _ _ _ ih
  have := bits_rule (fun k => bit (fs k) i) (fun k => (ins k).getLsbD i) ds (fun k => (h k).2.2 i hi)
    (by simp only [f0]; exact (h0 i hi).1) k
  have e : (fun k => (value (fs k)).getLsbD i) = fun k => (bit (fs k) i).old := by
    funext k; exact hbuf k
  rw [e]; exact this

theorem init_clear {f g : Filter w} (hl : f.count.length = w) (hg : init f = .ok g) :
    g.count.length = w ∧ ∀ i, i < w → bit g i = ⟨false, false, 0⟩ := by
  obtain ⟨f', e, l, p⟩ := init_eq f hl
  rw [hg] at e
  cases e
  exact ⟨l, p⟩

/-- **C25.** After `debounce_filter_init`, with the same debounce value `d` in every call, the level of each of the w
inputs starts at 0 and changes exactly at the (d+1)-th consecutive sample that differs from it. A negative `int` counts
as its conversion to `unsigned int`. -/
theorem C25_rule (f g : Filter w) (hl : f.count.length = w) (hg : init f = .ok g) (d : BitVec w) (ins : Nat → BitVec w) :
    ∃ fs : Nat → Filter w, (∀ k, run true g ins (fun _ => d) k = .ok (fs k)) ∧ value (fs 0) = 0 ∧
      ∀ i, i < w → ∀ k, Rule d.toNat (fun k => (ins k).getLsbD i) (fun k => (value (fs k)).getLsbD i) k := by
  obtain ⟨l, p⟩ := init_clear hl hg
  obtain ⟨fs, f0, hr, h⟩ := run_rule g l (fun i hi => by rw [p i hi]; exact ⟨rfl, rfl⟩) ins fun _ => d
  refine ⟨fs, hr, ?_, fun i hi k => rule_of_varying (h i hi) k⟩
  rw [f0]
  apply BitVec.eq_of_getLsbD_eq
  intro i hi
  rw [show (value g).getLsbD i = (bit g i).buf from rfl, p i hi]; simp

/-- **C90.** The same with a debounce value that may change from call to call: a run of differing samples needs as many
further samples as the value given in its first call says. -/
theorem C90_varying (f g : Filter w) (hl : f.count.length = w) (hg : init f = .ok g) (ds ins : Nat → BitVec w) :
    ∃ fs : Nat → Filter w, (∀ k, run true g ins ds k = .ok (fs k)) ∧ value (fs 0) = 0 ∧
      ∀ i, i < w → ∀ k, RuleVarying (fun k => (ds k).toNat) (fun k => (ins k).getLsbD i)
        (fun k => (value (fs k)).getLsbD i) k := by
  obtain ⟨l, p⟩ := init_clear hl hg
  obtain ⟨fs, f0, hr, h⟩ := run_rule g l (fun i hi => by rw [p i hi]; exact ⟨rfl, rfl⟩) ins ds
  refine ⟨fs, hr, ?_, h⟩
  rw [f0]
  apply BitVec.eq_of_getLsbD_eq
  intro i hi
  rw [show (value g).getLsbD i = (bit g i).buf from rfl, p i hi]; simp

/-- Garbage to initialise from. -/
def junk : Filter 32 := ⟨7, 9, List.replicate 32 5⟩

/-- With d = 2 the third differing sample changes the level, and an interruption starts the count anew. -/
example : ((do
    let f ← init junk
    let (f, a) ← filter true f 0x80000001 2
    let (f, b) ← filter true f 0x80000000 2
    let (f, c) ← filter true f 0x80000001 2
    pure (f.buffered, a, b, c)) : Res _) = .ok (0x80000000, 0, 0, 0x80000000) := by decide

/-! ## C26 -/

theorem bool_cases (x : BitVec w) : bool x = if decide (x ≠ 0) then 1 else 0 := by
  unfold bool
  by_cases h : x = 0
  · subst h; simp
  · rw [if_pos (show 0 < x from (BitVec.pos_iff_ne_zero _).2 h), if_pos (by simpa using h)]

theorem reachable_inv {f : Filter w} (h : Reachable f) : f.count.length = w ∧ f.buffered = f.oldInput := by
  have key : ∀ g : Filter w, (∀ j, j < w → (bit g j).buf = (bit g j).old) → g.buffered = g.oldInput :=
    fun g hg => BitVec.eq_of_getLsbD_eq hg
  induction h with
  | init f g hl hg =>
    obtain ⟨l, p⟩ := init_clear hl hg
    exact ⟨l, key g fun j hj => by rw [p j hj]⟩
  | set f v _ ih => exact ⟨ih.1, rfl⟩
  | filter f g input d c _ hf ih =>
    obtain ⟨g', c', e, l, p, -⟩ := filter_eq true f input d ih.1 (Or.inl rfl)
    rw [hf] at e
    cases e
    refine ⟨l, key g fun j hj => ?_⟩
    rw [p j hj]
    exact next_buf _ _ _ (by simp [bit, ih.2])
  | single f g input d c i _ hi hf ih =>
    obtain ⟨g', c', e, l, p, -⟩ := filterSingle_eq true f input i d _ (bool_cases input) hi ih.1 (Or.inl rfl)
    rw [hf] at e
    cases e
    refine ⟨l, key g fun j hj => ?_⟩
    rw [p j hj]
    split_ifs
    · exact next_buf _ _ _ (by simp [bit, ih.2])
    · simp [bit, ih.2]

/-- **C26.** From every reachable state `debounce_filter` returns the bitmap of the levels it changed,
`debounce_filter_single` changes and reports at most the input it is given, and `debounce_read` reports the levels,
rejecting indices of w and more. -/
theorem C26_reports (f : Filter w) (h : Reachable f) :
    (∀ input d, ∃ g c, filter true f input d = .ok (g, c) ∧ c = value f ^^^ value g) ∧
    (∀ input i d, i < w → ∃ g c, filterSingle true f input i d = .ok (g, c) ∧ c = value f ^^^ value g ∧
      ∀ j, j ≠ i → (value g).getLsbD j = (value f).getLsbD j) ∧
    (∀ i, read f i = .ok (if i < w then (if (value f).getLsbD i then 1 else 0) else -1)) := by
  obtain ⟨hl, hb⟩ := reachable_inv h
  have hbo : ∀ j, (bit f j).buf = (bit f j).old := fun j => by simp [bit, hb]
  have hlev : ∀ (s : Bit w) (b : Bool) (d : BitVec w), s.buf = s.old → s.flips b d = (s.buf ^^ (s.next b d).buf) := by
    intro s b d hs
    rw [next_buf s b d hs, hs, next_old]
    cases hf : s.flips b d
    · simp
    · have : b ≠ s.old := by
        simp only [Bit.flips, Bool.and_eq_true, bne_iff_ne] at hf; exact hf.1
      cases b <;> cases hso : s.old <;> simp_all
  refine ⟨?_, ?_, ?_⟩
  · intro input d
    obtain ⟨g, c, e, l, p, q⟩ := filter_eq true f input d hl (Or.inl rfl)
    refine ⟨g, c, e, ?_⟩
    apply BitVec.eq_of_getLsbD_eq
    intro j hj
    rw [q j hj, BitVec.getLsbD_xor, hlev _ _ _ (hbo j), ← p j hj]; rfl
  · intro input i d hi
    obtain ⟨g, c, e, l, p, q⟩ := filterSingle_eq true f input i d _ (bool_cases input) hi hl (Or.inl rfl)
    refine ⟨g, c, e, ?_, ?_⟩
    · apply BitVec.eq_of_getLsbD_eq
      intro j hj
      have hp := p j hj
      rw [q j hj, BitVec.getLsbD_xor, hlev _ _ _ (hbo i)]
      by_cases hji : j = i
      · subst hji
        rw [if_pos rfl] at hp
        rw [← hp]; simp [bit, value]
      · rw [if_neg hji] at hp
        have : (value g).getLsbD j = (value f).getLsbD j := congrArg Bit.buf hp
        simp [hji, this]
    · intro j hji
      by_cases hj : j < w
      · have hp := p j hj
        rw [if_neg hji] at hp
        exact congrArg Bit.buf hp
      · rw [BitVec.getLsbD_of_ge _ _ (by omega), BitVec.getLsbD_of_ge _ _ (by omega)]
  · intro i
    rw [read]
    by_cases hi : i < w
    · rw [if_neg (by omega), if_pos hi, nth_eq _ _ hi]
      rw [show f.buffered = value f from rfl]
      by_cases hv : (value f).getLsbD i = true
      · rw [if_pos hv, if_pos hv, Res.ok_bind, one_toNat (by omega)]; rfl
      · rw [if_neg hv, if_neg hv, Res.ok_bind]; simp
    · rw [if_pos (by omega), if_neg hi]

/-- **C26**, independence: the levels of one input are the same in two histories in which that input had the same
samples, whatever the other inputs did. -/
theorem C26_independent (f0 g0 f g : Filter w) (hf0 : f0.count.length = w) (hg0 : g0.count.length = w)
    (hf : init f0 = .ok f) (hg : init g0 = .ok g) (i : Nat) (hi : i < w) (ins ins' ds : Nat → BitVec w)
    (h : ∀ k, (ins k).getLsbD i = (ins' k).getLsbD i) (k : Nat) :
    ∃ a b, run true f ins ds k = .ok a ∧ run true g ins' ds k = .ok b ∧
      (value a).getLsbD i = (value b).getLsbD i := by
  obtain ⟨lf, pf⟩ := init_clear hf0 hf
  obtain ⟨lg, pg⟩ := init_clear hg0 hg
  obtain ⟨fs, f0, hr⟩ := run_bits f lf ins ds
  obtain ⟨gs, g0, hs⟩ := run_bits g lg ins' ds
  refine ⟨fs k, gs k, (hr k).1, (hs k).1, ?_⟩
  have : bit (fs k) i = bit (gs k) i := by
    induction k with
    | zero => rw [f0, g0, pf i hi, pg i hi]
    | succ k ih => rw [(hr k).2.2 i hi, (hs k).2.2 i hi, ih, h]
  exact congrArg Bit.buf this

example : ((do
    let f ← init junk
    let (f, a) ← filter true f 0x5 0
    let (g, b) ← filter true f 0x6 0
    let r ← read g 2
    let e ← read g 32
    pure (a, b, value g, r, e)) : Res _) = .ok (5, 3, 6, 1, -1) := by decide

/-! ## C27 -/

/-- **C27** (partial). If the last `debounce_filter` before `debounce_filter_set v` was passed the levels it left
(nothing was pending), then after the set the levels are `v` and obey the rule counting from the set. Missing: sets
while a change is pending, where the claim is false (`C27_set_wrong`). -/
theorem C27_set_partial (f g : Filter w) (h : Reachable f) (input d0 c v : BitVec w)
    (hf : filter true f input d0 = .ok (g, c)) (hq : value g = input) (d : BitVec w) (ins : Nat → BitVec w) :
    ∃ fs : Nat → Filter w, (∀ k, run true (set g v) ins (fun _ => d) k = .ok (fs k)) ∧ value (fs 0) = v ∧
      ∀ i, i < w → ∀ k, Rule d.toNat (fun k => (ins k).getLsbD i) (fun k => (value (fs k)).getLsbD i) k := by
  obtain ⟨hl, hb⟩ := reachable_inv h
  obtain ⟨g', c', e, l, p, -⟩ := filter_eq true f input d0 hl (Or.inl rfl)
  rw [hf] at e
  cases e
  have hz : ∀ i, i < w → (bit g i).cnt = 0 := by
    intro i hi
    have h1 : (bit g i).buf = input.getLsbD i := by rw [← hq]; rfl
    have h2 : (bit f i).buf = (bit f i).old := by simp [bit, hb]
    rw [p i hi] at h1 ⊢
    revert h1
    simp only [Bit.next]
    split_ifs <;> simp_all [eq_comm]
  obtain ⟨fs, f0, hr, hrule⟩ := run_rule (set g v) l (fun i hi => ⟨hz i hi, rfl⟩) ins fun _ => d
  exact ⟨fs, hr, by rw [f0]; rfl, fun i hi k => rule_of_varying (hrule i hi) k⟩

/-- **C27**, where it fails: for every debounce value `d > 0`, after `d` samples of all ones and a set to all ones, the
very first sample of zeros changes every input. -/
theorem C27_set_wrong (f g : Filter w) (hl : f.count.length = w) (hg : init f = .ok g) (d : BitVec w) (hd : d ≠ 0) :
    ∃ a b c, run true g (fun _ => BitVec.allOnes w) (fun _ => d) d.toNat = .ok a ∧
      filter true (set a (BitVec.allOnes w)) 0 d = .ok (b, c) ∧
      value (set a (BitVec.allOnes w)) = BitVec.allOnes w ∧ value b = 0 ∧ c = BitVec.allOnes w := by
  obtain ⟨l, p⟩ := init_clear hl hg
  obtain ⟨fs, f0, h⟩ := run_bits g l (fun _ => BitVec.allOnes w) fun _ => d
  have ones : ∀ i, i < w → (BitVec.allOnes w).getLsbD i = true := fun i hi => by
    rw [BitVec.getLsbD_allOnes]; simpa using hi
  have hd0 : d.toNat ≠ 0 := fun h0 => hd (BitVec.eq_of_toNat_eq h0)
  have hk : ∀ k, k < d.toNat → ∀ i, i < w → bit (fs (k + 1)) i = ⟨false, false, BitVec.ofNat w (d.toNat - k)⟩ := by
    intro k
    induction k with
    | zero =>
      intro _ i hi
      rw [(h 0).2.2 i hi, f0, p i hi, ones i hi]
      simp only [Bit.next, if_true, if_neg hd]
      simp
    | succ k ih =>
      intro hk i hi
      rw [(h (k + 1)).2.2 i hi, ih (by omega) i hi, ones i hi]
      have hlt := d.isLt
      have e1 : BitVec.ofNat w (d.toNat - k) ≠ 0 := by
        intro h0
        have := congrArg BitVec.toNat h0
        rw [BitVec.toNat_ofNat, Nat.mod_eq_of_lt (by omega)] at this
        simp at this; omega
      have e2 : BitVec.ofNat w (d.toNat - k) - 1 = BitVec.ofNat w (d.toNat - (k + 1)) := by
        apply BitVec.eq_of_toNat_eq
        rw [BitVec.toNat_sub, BitVec.toNat_ofNat, BitVec.toNat_ofNat, one_toNat (by omega),
          Nat.mod_eq_of_lt (a := d.toNat - k) (by omega), Nat.mod_eq_of_lt (a := d.toNat - (k + 1)) (by omega),
          show 2 ^ w - 1 + (d.toNat - k) = d.toNat - (k + 1) + 2 ^ w by omega, Nat.add_mod_right,
          Nat.mod_eq_of_lt (by omega)]
      have e3 : BitVec.ofNat w (d.toNat - (k + 1)) ≠ 0 := by
        intro h0
        have := congrArg BitVec.toNat h0
        rw [BitVec.toNat_ofNat, Nat.mod_eq_of_lt (by omega)] at this
        simp at this; omega
      simp only [Bit.next, if_neg e1, e2, if_neg e3]
      simp
  have ha := hk (d.toNat - 1) (by omega)
  rw [Nat.sub_add_cancel (by omega), show d.toNat - (d.toNat - 1) = 1 by omega] at ha
  obtain ⟨b, c, e, lb, pb, qb⟩ := filter_eq true (set (fs d.toNat) (BitVec.allOnes w)) 0 d (h d.toNat).2.1 (Or.inl rfl)
  have hbit : ∀ i, i < w → bit (set (fs d.toNat) (BitVec.allOnes w)) i = ⟨true, true, 1⟩ := by
    intro i hi
    rw [set_bit, ha i hi, ones i hi]; rfl
  refine ⟨fs d.toNat, b, c, (h _).1, e, rfl, ?_, ?_⟩
  · apply BitVec.eq_of_getLsbD_eq
    intro i hi
    rw [show (value b).getLsbD i = (bit b i).buf from rfl, pb i hi, hbit i hi]
    have := one_ne (w := w) (by omega)
    simp only [BitVec.ofNat_eq_ofNat] at this
    simp [Bit.next, this]
  · apply BitVec.eq_of_getLsbD_eq
    intro i hi
    rw [qb i hi, hbit i hi, ones i hi]
    have := one_ne (w := w) (by omega)
    simp only [BitVec.ofNat_eq_ofNat] at this
    simp [Bit.flips, this]

/-- With nothing pending the rule is kept (d = 1: two samples), with something pending it is not. -/
example : ((do
    let f ← init junk
    let (f, _) ← filter true f 1 0
    let f := set f 2
    let (f, a) ← filter true f 1 1
    let (_, b) ← filter true f 1 1
    pure (a, b)) : Res _) = .ok (0, 3) := by decide

/-! ## C91 -/

theorem ext_bits {f g : Filter w} (hf : f.count.length = w) (hg : g.count.length = w)
    (h : ∀ j, j < w → bit f j = bit g j) : f = g := by
  obtain ⟨fo, fb, fc⟩ := f
  obtain ⟨go, gb, gc⟩ := g
  have h1 : fo = go := BitVec.eq_of_getLsbD_eq fun j hj => congrArg Bit.old (h j hj)
  have h2 : fb = gb := BitVec.eq_of_getLsbD_eq fun j hj => congrArg Bit.buf (h j hj)
  have h3 : fc = gc := by
    apply List.ext_getElem (by simp only at hf hg; omega)
    intro j hj hj'
    have := congrArg Bit.cnt (h j (by simp only at hf; omega))
    simpa [bit, hj, hj'] using this
  rw [h1, h2, h3]

theorem single_ub (hw : 0 < w) (f : Filter w) (input d : BitVec w) (b : Bool) (hb : bool input = if b then 1 else 0)
    (hl : f.count.length = w) (hf : (bit f (w - 1)).flips b d = true) : filterSingle false f input (w - 1) d = .ub := by
  simp only [Bit.flips, Bool.and_eq_true, bne_iff_ne, beq_iff_eq] at hf
  obtain ⟨h1, h2⟩ := hf
  have hi' : (w - 1) < f.count.length := by omega
  have hww : (if 0 < f.count.getD (w - 1) 0 then f.count.getD (w - 1) 0 - 1 else d) =
      if (bit f (w - 1)).cnt = 0 then d else (bit f (w - 1)).cnt - 1 := by
    show (if 0 < f.count.getD (w - 1) 0 then f.count.getD (w - 1) 0 - 1 else d) =
      if f.count.getD (w - 1) 0 = 0 then d else f.count.getD (w - 1) 0 - 1
    generalize f.count.getD (w - 1) 0 = x
    by_cases h0 : x = 0
    · subst h0; rfl
    · rw [if_pos (show 0 < x from (BitVec.pos_iff_ne_zero _).2 h0), if_neg h0]
  rw [filterSingle, nth_eq _ _ (by omega), hb]
  simp only [Res.ok_bind, ite_inj hw]
  rw [if_neg (show ¬ b = f.oldInput.getLsbD (w - 1) from h1), rd_getD _ _ hi', Res.ok_bind, hww, wr, if_pos hi', Res.ok_bind,
    rd_getD _ _ (by simpa using hi'), Res.ok_bind, getD_set _ _ _ _ hi', if_pos rfl, if_pos h2]
  rw [setNth, one_shift_ub hw]; rfl

theorem loop_ub (input d : BitVec w) (n : Nat) : ∀ (f : Filter w) (ch : BitVec w) (i : Nat), i + (n + 1) = w →
    f.count.length = w → (bit f (w - 1)).flips (input.getLsbD (w - 1)) d = true →
    filterLoop false input d f ch i (n + 1) = .ub := by
  induction n with
  | zero =>
    intro f ch i hi hl hf
    have : i = w - 1 := by omega
    subst this
    rw [filterLoop, nth_eq _ _ (by omega), Res.ok_bind, single_ub (by omega) _ _ _ _ (bool_ite _) hl hf]; rfl
  | succ n ih =>
    intro f ch i hi hl hf
    obtain ⟨f1, c1, e1, l1, p1, -⟩ := filterSingle_eq false f (if input.getLsbD i then 1 else 0) i d (input.getLsbD i)
      (bool_ite _) (by omega) hl (Or.inr (Or.inl (by omega)))
    rw [filterLoop, nth_eq _ _ (by omega), Res.ok_bind, e1, Res.ok_bind]
    simp only
    refine ih f1 _ (i + 1) (by omega) l1 ?_
    rw [p1 (w - 1) (by omega), if_neg (by omega)]; exact hf

/-- **C91** (partial). With the shifts of strict C, `debounce_filter` behaves as it does with GCC's, as long as input `w - 1`
does not change; a call that would change input `w - 1` is undefined. Missing: calls that change input `w - 1`, for which the
claim is false. -/
theorem C91_strict_partial (hw : 0 < w) (f : Filter w) (h : Reachable f) (input d : BitVec w) (g : Filter w) (c : BitVec w)
    (hg : filter true f input d = .ok (g, c)) :
    filter false f input d =
      if (value g).getLsbD (w - 1) = (value f).getLsbD (w - 1) then filter true f input d else .ub := by
  obtain ⟨hl, hb⟩ := reachable_inv h
  obtain ⟨g', c', e, l, p, q⟩ := filter_eq true f input d hl (Or.inl rfl)
  rw [hg] at e
  cases e
  have hbo : (bit f (w - 1)).buf = (bit f (w - 1)).old := by simp [bit, hb]
  have hiff : (value g).getLsbD (w - 1) = (value f).getLsbD (w - 1) ↔ (bit f (w - 1)).flips (input.getLsbD (w - 1)) d = false := by
    rw [show (value g).getLsbD (w - 1) = (bit g (w - 1)).buf from rfl, show (value f).getLsbD (w - 1) = (bit f (w - 1)).buf from rfl,
      p (w - 1) (by omega), next_buf _ _ _ hbo, hbo, ← Bool.not_eq_true, flips_iff]
    simp
  by_cases hc : (value g).getLsbD (w - 1) = (value f).getLsbD (w - 1)
  · rw [if_pos hc, hg]
    obtain ⟨g2, c2, e2, l2, p2, q2⟩ := filter_eq false f input d hl (Or.inr (hiff.1 hc))
    rw [e2, ext_bits l2 l fun j hj => by rw [p2 j hj, p j hj]]
    congr 2
    exact BitVec.eq_of_getLsbD_eq fun j hj => by rw [q2 j hj, q j hj]
  · rw [if_neg hc]
    rw [hiff, Bool.not_eq_false] at hc
    have := loop_ub input d (w - 1) f 0 0 (by omega) hl hc
    rwa [Nat.sub_add_cancel hw] at this

example : ((do let f ← init junk; filter false f 0x7fffffff 0) : Res _) ≠ .ub ∧
    ((do let f ← init junk; filter false f 0x80000000 0) : Res _) = .ub := by decide

/-- With 16-bit integers the filter has 16 inputs and the last is input 15. -/
example : let f0 : Filter 16 := ⟨7, 9, List.replicate 16 3⟩
    ((do let f ← init f0; let (f, a) ← filter true f 0x8001 0; pure (value f, a)) : Res _) = .ok (0x8001, 0x8001) ∧
    ((do let f ← init f0; let (f, a) ← filter false f 0x7fff 0; pure (value f, a)) : Res _) = .ok (0x7fff, 0x7fff) ∧
    ((do let f ← init f0; let (f, a) ← filter false f 0x8000 0; pure (value f, a)) : Res _) = .ub := by decide

end Gel.Debounce
