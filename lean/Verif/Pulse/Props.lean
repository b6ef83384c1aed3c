import Verif.Pulse.Lemmas
import Verif.Pulse.Spec
import Mathlib.Tactic.Choose

/-!
# Pulse counter: properties C28, C29 and the pulse counter part of C91
-/
namespace Gel.Pulse

variable {w : Nat}

open Debounce (Bit next_old flips_iff bits_rule rule_of_varying)
open Debounce.Spec (Rule)
open Spec

/-- The level at which a pulse of each kind is. -/
def Kind.pol : Kind → Bool
  | .low => false
  | _ => true

/-- Which pulses a kind counts. -/
theorem edge_pol (t : Kind) (ht : t ≠ .other) (o : Bool) : edge t o = (o == t.pol) := by
  cases t <;> cases o <;> simp_all [edge, Kind.pol]

theorem flips_ne {s : Bit w} {b : Bool} {d : BitVec w} (h : s.flips b d = true) : (s.next b d).old ≠ s.old :=
  (flips_iff s b d).1 h

theorem counted_iff (t : Kind) (ht : t ≠ .other) (s : Bit w) (b : Bool) (d : BitVec w) :
    counted t s b d = true ↔ s.old = t.pol ∧ (s.next b d).old ≠ t.pol := by
  rw [counted, Bool.and_eq_true, flips_iff, edge_pol t ht, beq_iff_eq]
  constructor
  · rintro ⟨h1, h2⟩; rw [← h2]; exact ⟨rfl, h1⟩
  · rintro ⟨h1, h2⟩; rw [h1]; exact ⟨h2, rfl⟩

/-- The states of a history. -/
theorem run_states (f : Filter w) (hl : WF f) (ins : Nat → BitVec w) (cl : Nat → List Int) (d : BitVec w) :
    ∃ (fs : Nat → Filter w) (rs : Nat → Int), fs 0 = f ∧ ∀ k, run true f ins cl d k = .ok (fs k) ∧ WF (fs k) ∧
      (fs k).type = f.type ∧ ret true f ins cl d k = .ok (rs k) ∧
      (∀ i, i < w → bit (fs (k + 1)) i = (bit (fs k) i).next ((ins k).getLsbD i) d) ∧
      (∀ i : Nat, i < w → (fs (k + 1)).count.getD i 0 = (if (i : Int) ∈ cl k then 0 else (fs k).count.getD i 0) +
        if counted f.type (bit (fs k) i) ((ins k).getLsbD i) d then 1 else 0) ∧
      (rs k = 0 ∨ rs k = 1) ∧
      (rs k = 1 ↔ ∃ i, i < w ∧ counted f.type (bit (fs k) i) ((ins k).getLsbD i) d = true) := by
  have hstep : ∀ g, WF g → ∀ k, ∃ g1 g2 r, clears g (cl k) = .ok g1 ∧ filter true g1 (ins k) d = .ok (g2, r) ∧ WF g2 ∧
      g2.type = g.type ∧
      (∀ i, i < w → bit g2 i = (bit g i).next ((ins k).getLsbD i) d) ∧
      (∀ i : Nat, i < w → g2.count.getD i 0 = (if (i : Int) ∈ cl k then 0 else g.count.getD i 0) +
        if counted g.type (bit g i) ((ins k).getLsbD i) d then 1 else 0) ∧
      (r = 0 ∨ r = 1) ∧ (r = 1 ↔ ∃ i, i < w ∧ counted g.type (bit g i) ((ins k).getLsbD i) d = true) := by
    intro g hg k
    obtain ⟨g1, e1, l1, t1, o1, s1, c1⟩ := clears_eq (cl k) g hg
    obtain ⟨g2, r, e2, l2, t2, p2, q2, r1, r2⟩ := filter_eq true g1 (ins k) d l1 (Or.inl rfl)
    have hb : ∀ i, bit g1 i = bit g i := fun i => by simp [bit, o1, s1]
    simp only [hb, t1] at p2 q2 r1 r2
    refine ⟨g1, g2, r, e1, e2, l2, t2.trans t1, p2, ?_, ?_⟩
    · intro i hi; rw [q2 i hi, c1 i hi]
    · by_cases h : ∃ i, i < w ∧ counted g.type (bit g i) ((ins k).getLsbD i) d = true
      · exact ⟨Or.inr (r1 h), fun _ => h, fun _ => r1 h⟩
      · refine ⟨Or.inl (r2 h), fun hr => ?_, fun hx => absurd hx h⟩
        rw [r2 h] at hr; cases hr
  have hrun : ∀ k, ∃ g, run true f ins cl d k = .ok g ∧ WF g ∧ g.type = f.type := by
    intro k
    induction k with
    | zero => exact ⟨f, rfl, hl, rfl⟩
    | succ k ih =>
      obtain ⟨g, hg, hgl, ht⟩ := ih
      obtain ⟨g1, g2, r, e1, e2, l2, t2, -⟩ := hstep g hgl k
      exact ⟨g2, by rw [run, hg, Res.ok_bind, e1, Res.ok_bind, e2]; rfl, l2, t2.trans ht⟩
  choose fs hfs using hrun
  have hall : ∀ k, ∃ r, ret true f ins cl d k = .ok r ∧
      (∀ i, i < w → bit (fs (k + 1)) i = (bit (fs k) i).next ((ins k).getLsbD i) d) ∧
      (∀ i : Nat, i < w → (fs (k + 1)).count.getD i 0 = (if (i : Int) ∈ cl k then 0 else (fs k).count.getD i 0) +
        if counted f.type (bit (fs k) i) ((ins k).getLsbD i) d then 1 else 0) ∧
      (r = 0 ∨ r = 1) ∧ (r = 1 ↔ ∃ i, i < w ∧ counted f.type (bit (fs k) i) ((ins k).getLsbD i) d = true) := by
    intro k
    obtain ⟨g1, g2, r, e1, e2, l2, t2, p, q, hr⟩ := hstep (fs k) (hfs k).2.1 k
    have h1 := (hfs (k + 1)).1
    rw [run, (hfs k).1, Res.ok_bind, e1, Res.ok_bind, e2] at h1
    have : g2 = fs (k + 1) := Res.ok.inj h1
    rw [this] at p q
    rw [(hfs k).2.2] at q hr
    exact ⟨r, by rw [ret, (hfs k).1, Res.ok_bind, e1, Res.ok_bind, e2]; rfl, p, q, hr⟩
  choose rs hrs using hall
  refine ⟨fs, rs, (Res.ok.inj (hfs 0).1).symm, fun k => ⟨(hfs k).1, (hfs k).2.1, (hfs k).2.2, (hrs k).1, (hrs k).2.1,
    (hrs k).2.2.1, (hrs k).2.2.2⟩⟩

theorem level_eq (f : Filter w) (i : Nat) (hi : i < w) :
    level f i = .ok (if f.oldInput.getLsbD i then 1 else 0) := by
  rw [level, if_neg (by omega)]
  simp only [Int.toNat_natCast]
  rw [nth_eq' _ _ hi, Res.ok_bind]
  cases f.oldInput.getLsbD i
  · simp
  · rw [if_pos rfl, Debounce.one_toNat (by omega)]; rfl

theorem count_eq (f : Filter w) (hl : WF f) (i : Nat) (hi : i < w) : count f i = .ok (f.count.getD i 0).toInt := by
  rw [count, if_neg (by omega)]
  simp only [Int.toNat_natCast]
  rw [Debounce.rd_getD _ _ (by have := hl.2; omega)]; rfl

/-- **C28.** After `pulse_filter_init` of a filter whose debounce counters are zero, for each of the w inputs there is
a sequence of levels which `pulse_level` reports, which starts at the initial value and obeys the d+1 rule, such that
`pulse_count` is the number of pulses of the selected kind that ended since the last `pulse_clear`, as an `int` of `w` bits,
and a call of `pulse_filter` returns 1 if a pulse ended on some input in that call and else 0. -/
theorem C28_counts (f : Filter w) (hl : WF f) (h0 : ∀ i, i < w → f.filters.getD i 0 = 0) (t : Kind) (ht : t ≠ .other)
    (v d : BitVec w) (ins : Nat → BitVec w) (cl : Nat → List Int) :
    ∃ (g : Filter w) (fs : Nat → Filter w) (lev : Nat → Nat → Bool), init f t v = .ok g ∧
      (∀ k, run true g ins cl d k = .ok (fs k)) ∧
      (∀ i, i < w → lev i 0 = v.getLsbD i ∧ ∀ k,
        level (fs k) i = .ok (if lev i k then 1 else 0) ∧
        Rule d.toNat (fun k => (ins k).getLsbD i) (lev i) k ∧
        count (fs k) i = .ok (BitVec.ofNat w (pulses t.pol (lev i) (fun k => (i : Int) ∈ cl k) k)).toInt) ∧
      (∀ k, ∃ r, ret true g ins cl d k = .ok r ∧ (r = 0 ∨ r = 1) ∧
        (r = 1 ↔ ∃ i, i < w ∧ lev i k = t.pol ∧ lev i (k + 1) ≠ t.pol)) := by

  obtain ⟨g, e, l, tg, og, sg, cg⟩ := init_eq f hl t v
  obtain ⟨fs, rs, f0, h⟩ := run_states g l ins cl d
  have hcnt : ∀ i, i < w → ∀ k, counted g.type (bit (fs k) i) ((ins k).getLsbD i) d = true ↔
      (bit (fs k) i).old = t.pol ∧ (bit (fs (k + 1)) i).old ≠ t.pol := by
    intro i hi k
    rw [(h k).2.2.2.2.1 i hi, tg]
    exact counted_iff t ht _ _ _
  refine ⟨g, fs, fun i k => (bit (fs k) i).old, e, fun k => (h k).1, ?_, ?_⟩
  · intro i hi
    refine ⟨by simp only [f0]; rw [bit, og], fun k => ⟨level_eq _ _ hi, ?_, ?_⟩⟩
    · have h00 : (bit (fs 0) i).cnt = 0 := by rw [f0, bit, sg]; exact h0 i hi
      exact rule_of_varying (bits_rule (fun k => bit (fs k) i) (fun k => (ins k).getLsbD i) (fun _ => d)
        (fun k => (h k).2.2.2.2.1 i hi) h00) k
    · rw [count_eq _ (h k).2.1 _ hi]
      congr 2
      induction k with
      | zero => rw [f0, cg i hi]; rfl
      | succ k ih =>
        rw [(h k).2.2.2.2.2.1 i hi, ih, pulses, BitVec.ofNat_add]
        congr 1
        · by_cases hc : (i : Int) ∈ cl k
          · rw [if_pos hc, if_pos hc]; rfl
          · rw [if_neg hc, if_neg hc]
        · by_cases hc : counted g.type (bit (fs k) i) ((ins k).getLsbD i) d = true
          · rw [if_pos hc, if_pos ((hcnt i hi k).1 hc)]; rfl
          · rw [if_neg hc, if_neg (mt (hcnt i hi k).2 hc)]; rfl
  · intro k
    refine ⟨rs k, (h k).2.2.2.1, (h k).2.2.2.2.2.2.1, ?_⟩
    rw [(h k).2.2.2.2.2.2.2]
    exact exists_congr fun i => and_congr_right fun hi => hcnt i hi k

/-- **C28**, for the indices `pulse_level`, `pulse_count` and `pulse_clear` refuse. -/
theorem C28_out_of_range (f : Filter w) (i : Int) (h : i < 0 ∨ w ≤ i) :
    level f i = .ok (-1) ∧ count f i = .ok (-1) ∧ clear f i = .ok f := by
  rw [level, count, clear, if_pos h, if_pos h, if_pos h]; exact ⟨rfl, rfl, rfl⟩

/-- Clean memory to initialise from. -/
def clean : Filter 32 := ⟨.other, 9, List.replicate 32 0, List.replicate 32 5⟩

/-- Two low samples after a high level end a pulse when d = 1; the counter of the other input is not touched. -/
example : ((do
    let f ← init clean .high 3
    let (f, a) ← filter true f 2 1
    let (f, b) ← filter true f 2 1
    let (f, c) ← filter true f 3 1
    let (f, d) ← filter true f 3 1
    let n ← count f 0
    let m ← count f 1
    let f ← clear f 0
    let n' ← count f 0
    pure [a, b, c, d, n, m, n']) : Res _) = .ok [0, 1, 0, 0, 1, 0, 0] := by decide

/-! ## C29 -/

/-- **C29** (partial). `pulse_filter_init` gives the same filter whatever the memory contained, except for the debounce
counters: the result depends on the arguments and on these counters alone. Missing: arbitrary debounce counters, for
which the claim is false (`C29_init_wrong`). -/
theorem C29_init_partial (f f' : Filter w) (hl : WF f) (hl' : WF f') (h : f.filters = f'.filters) (t : Kind)
    (v : BitVec w) : init f t v = init f' t v ∧ ∃ g, init f t v = .ok g := by
  obtain ⟨g, e, l, tg, og, sg, cg⟩ := init_eq f hl t v
  obtain ⟨g', e', l', tg', og', sg', cg'⟩ := init_eq f' hl' t v
  have : g = g' := by
    obtain ⟨a, b, c, x⟩ := g
    obtain ⟨a', b', c', x'⟩ := g'
    simp only at tg og sg tg' og' sg'
    have hx : x = x' := by
      have l1 : x.length = w := l.2
      have l2 : x'.length = w := l'.2
      apply List.ext_getElem (by omega)
      intro j hj hj'
      have := (cg j (by omega)).trans (cg' j (by omega)).symm
      simpa [hj, hj'] using this
    rw [tg, og, sg, tg', og', sg', h, hx]
  rw [e, e', this]
  exact ⟨rfl, g', rfl⟩

/-- **C29**, where it fails: with memory whose debounce counters are 1, the first differing sample changes an input
after the initialisation, whatever the debounce value; with zeroed memory it changes it only if that value is 0. -/
theorem C29_init_wrong (f f' : Filter w) (hl : WF f) (hl' : WF f') (i : Nat) (hi : i < w) (h : f.filters.getD i 0 = 1)
    (h' : f'.filters.getD i 0 = 0) (t : Kind) (v input d : BitVec w) (hd : d ≠ 0)
    (hs : input.getLsbD i ≠ v.getLsbD i) :
    ∃ g g' a a' r r', init f t v = .ok g ∧ init f' t v = .ok g' ∧ filter true g input d = .ok (a, r) ∧
      filter true g' input d = .ok (a', r') ∧ level a i = .ok (if input.getLsbD i then 1 else 0) ∧
      level a' i = .ok (if v.getLsbD i then 1 else 0) := by
  obtain ⟨g, e, l, tg, og, sg, cg⟩ := init_eq f hl t v
  obtain ⟨g', e', l', tg', og', sg', cg'⟩ := init_eq f' hl' t v
  obtain ⟨a, r, ea, la, -, pa, -⟩ := filter_eq true g input d l (Or.inl rfl)
  obtain ⟨a', r', ea', la', -, pa', -⟩ := filter_eq true g' input d l' (Or.inl rfl)
  refine ⟨g, g', a, a', r, r', e, e', ea, ea', ?_, ?_⟩
  · have : a.oldInput.getLsbD i = input.getLsbD i := by
      have := congrArg Bit.old (pa i hi)
      rw [next_old] at this
      rw [show a.oldInput.getLsbD i = (bit a i).old from rfl, this, if_pos]
      simp only [Bit.flips, bit, og, sg, h]
      have h1 := Debounce.one_ne (w := w) (by omega)
      simp only [BitVec.ofNat_eq_ofNat] at h1
      simp [h1, hs]
    rw [level_eq _ _ hi, this]
  · have : a'.oldInput.getLsbD i = v.getLsbD i := by
      have := congrArg Bit.old (pa' i hi)
      rw [next_old] at this
      rw [show a'.oldInput.getLsbD i = (bit a' i).old from rfl, this, if_neg, bit, og']
      simp only [Bit.flips, bit, og', sg', h']
      simp only [Bool.and_eq_true, if_true, beq_iff_eq]
      exact fun hx => hd hx.2
    rw [level_eq _ _ hi, this]

example : ((do
    let f ← init { clean with filters := List.replicate 32 1 } .high 1
    let (f, r) ← filter true f 0 100
    let n ← count f 0
    pure (r, n)) : Res _) = .ok (1, 1) := by decide

/-! ## C91 -/

theorem step_ub (hw0 : 0 < w) (f : Filter w) (ch : Int) (input d : BitVec w) (hl : WF f)
    (hf : (bit f (w - 1)).flips (input.getLsbD (w - 1)) d = true) : filterStep false f ch input d (w - 1) = .ub := by
  simp only [Bit.flips, Bool.and_eq_true, bne_iff_ne, beq_iff_eq] at hf
  obtain ⟨h1, h2⟩ := hf
  have hi' : (w - 1) < f.filters.length := by rw [hl.1]; omega
  have hi2 : (w - 1) < f.count.length := by rw [hl.2]; omega
  have hw : (if 0 < f.filters.getD (w - 1) 0 then f.filters.getD (w - 1) 0 - 1 else d) =
      if (bit f (w - 1)).cnt = 0 then d else (bit f (w - 1)).cnt - 1 := by
    show (if 0 < f.filters.getD (w - 1) 0 then f.filters.getD (w - 1) 0 - 1 else d) =
      if f.filters.getD (w - 1) 0 = 0 then d else f.filters.getD (w - 1) 0 - 1
    generalize f.filters.getD (w - 1) 0 = x
    by_cases h0 : x = 0
    · subst h0; rfl
    · rw [if_pos (show 0 < x from (BitVec.pos_iff_ne_zero _).2 h0), if_neg h0]
  rw [filterStep, nth_eq' _ _ (by omega), nth_eq' _ _ (by omega)]
  simp only [Res.ok_bind, Debounce.ite_inj hw0]
  rw [if_neg (show ¬ input.getLsbD (w - 1) = f.oldInput.getLsbD (w - 1) from h1), Debounce.rd_getD _ _ hi', Res.ok_bind, hw, wr,
    if_pos hi', Res.ok_bind, Debounce.rd_getD _ _ (by simpa using hi'), Res.ok_bind, Debounce.getD_set _ _ _ _ hi',
    if_pos rfl, if_pos h2, Debounce.rd_getD _ _ hi2, Res.ok_bind, wr, if_pos hi2, Res.ok_bind]
  rw [setNth, Debounce.one_shift_ub hw0]; rfl

theorem loop_ub (input d : BitVec w) (n : Nat) : ∀ (f : Filter w) (ch : Int) (i : Nat), i + (n + 1) = w →
    WF f → (bit f (w - 1)).flips (input.getLsbD (w - 1)) d = true → filterLoop false input d f ch i (n + 1) = .ub := by
  induction n with
  | zero =>
    intro f ch i hi hl hf
    have : i = w - 1 := by omega
    subst this
    rw [filterLoop, step_ub (by omega) _ _ _ _ hl hf]; rfl
  | succ n ih =>
    intro f ch i hi hl hf
    obtain ⟨f1, e1, l1, t1, p1, -⟩ := filterStep_eq false f ch input d i (by omega) hl (Or.inr (Or.inl (by omega)))
    rw [filterLoop, e1, Res.ok_bind]
    simp only
    refine ih f1 _ (i + 1) (by omega) l1 ?_
    rw [p1 (w - 1) (by omega), if_neg (by omega)]; exact hf

theorem ext_bits {f g : Filter w} (hf : WF f) (hg : WF g) (ht : f.type = g.type)
    (h : ∀ j, j < w → bit f j = bit g j) (hc : ∀ j, j < w → f.count.getD j 0 = g.count.getD j 0) : f = g := by
  obtain ⟨ft, fo, fc, fn⟩ := f
  obtain ⟨gt, go, gc, gn⟩ := g
  obtain ⟨a1, a2⟩ := hf
  obtain ⟨b1, b2⟩ := hg
  simp only at a1 a2 b1 b2 ht
  have h1 : fo = go := BitVec.eq_of_getLsbD_eq fun j hj => congrArg Bit.old (h j hj)
  have h3 : fc = gc := by
    apply List.ext_getElem (by omega)
    intro j hj hj'
    have := congrArg Bit.cnt (h j (by omega))
    simpa [bit, hj, hj'] using this
  have h4 : fn = gn := by
    apply List.ext_getElem (by omega)
    intro j hj hj'
    have := hc j (by omega)
    simpa [hj, hj'] using this
  rw [ht, h1, h3, h4]

/-- **C91** (partial), for the pulse counter. With the shifts of strict C, `pulse_filter` behaves as with GCC's as long
as input `w - 1` does not change, and is undefined if it does. Missing: calls that change input `w - 1`, for which the claim is
false. -/
theorem C91_pulse_partial (hw : 0 < w) (f : Filter w) (hl : WF f) (input d : BitVec w) (g : Filter w) (r : Int)
    (hg : filter true f input d = .ok (g, r)) :
    filter false f input d = if level g (w - 1 : Nat) = level f (w - 1 : Nat) then filter true f input d else .ub := by
  obtain ⟨g', r', e, l, t, p, q, r1, r2⟩ := filter_eq true f input d hl (Or.inl rfl)
  rw [hg] at e
  cases e
  have hiff : level g (w - 1 : Nat) = level f (w - 1 : Nat) ↔ (bit f (w - 1)).flips (input.getLsbD (w - 1)) d = false := by
    rw [level_eq _ _ (by omega), level_eq _ _ (by omega),
      ← Bool.not_eq_true, flips_iff, ← p (w - 1) (by omega)]
    show _ ↔ ¬ (g.oldInput.getLsbD (w - 1) ≠ f.oldInput.getLsbD (w - 1))
    cases g.oldInput.getLsbD (w - 1) <;> cases f.oldInput.getLsbD (w - 1) <;> simp
  by_cases hc : level g (w - 1 : Nat) = level f (w - 1 : Nat)
  · rw [if_pos hc, hg]
    obtain ⟨g2, c2, e2, l2, t2, p2, q2, s1, s2⟩ := filter_eq false f input d hl (Or.inr (hiff.1 hc))
    rw [e2, ext_bits l2 l (t2.trans t.symm) (fun j hj => by rw [p2 j hj, p j hj])
      (fun j hj => by rw [q2 j hj, q j hj])]
    congr 2
    by_cases hx : ∃ j, j < w ∧ counted f.type (bit f j) (input.getLsbD j) d = true
    · rw [s1 hx, r1 hx]
    · rw [s2 hx, r2 hx]
  · rw [if_neg hc]
    rw [hiff, Bool.not_eq_false] at hc
    have := loop_ub input d (w - 1) f 0 0 (by omega) hl hc
    rwa [Nat.sub_add_cancel hw] at this

example : ((do let f ← init clean .high 0xffffffff; filter false f 0x80000000 0) : Res _) ≠ .ub ∧
    ((do let f ← init clean .high 0xffffffff; filter false f 0 0) : Res _) = .ub := by decide

/-- With 16-bit integers. -/
example : let f0 : Filter 16 := ⟨.other, 0, List.replicate 16 0, List.replicate 16 7⟩
    ((do
      let f ← init f0 .high 0xffff
      let (f, r) ← filter true f 0x0fff 0
      let n ← count f 15
      let l ← level f 15
      pure (r, n, l, f.count)) : Res _) = .ok (1, 1, 0, [0, 0, 0, 0, 0, 0, 0, 0, 0, 0, 0, 0, 1, 1, 1, 1]) ∧
    ((do let f ← init f0 .high 0xffff; let (_, r) ← filter false f 0x8fff 0; pure r) : Res _) = .ok 1 ∧
    ((do let f ← init f0 .high 0xffff; let (_, r) ← filter false f 0x7fff 0; pure r) : Res _) = .ub := by decide

end Gel.Pulse
