import Verif.Pulse.Props
import Verif.Debounce.Exact

/-!
# Pulse counter: the result of every history of calls (C141)
-/
namespace Gel.Pulse

variable {w : Nat}

open Debounce (Bit Rep)
open Debounce.Spec (Input)

/-- The calls of the interface. -/
inductive Op (w : Nat) where
  | filter (input debounce : BitVec w)
  | clear (i : Int)
  | count (i : Int)
  | level (i : Int)

/-- One call: the filter and what is returned (0 for the function that returns nothing). -/
def Op.apply (f : Filter w) : Op w → Res (Filter w × Int)
  | .filter v d => Gel.Pulse.filter true f v d
  | .clear i => do
    let f ← Gel.Pulse.clear f i
    pure (f, 0)
  | .count i => do
    let n ← Gel.Pulse.count f i
    pure (f, n)
  | .level i => do
    let n ← Gel.Pulse.level f i
    pure (f, n)

/-- What the calls of a history return. -/
def history (f : Filter w) : List (Op w) → Res (List Int)
  | [] => .ok []
  | op :: ops => do
    let r ← op.apply f
    let l ← history r.1 ops
    pure (r.2 :: l)

namespace Spec

/-- The state of the specification: the inputs, as in the debounce filter, and the number of pulses of each since its
counter was cleared. -/
structure St where
  input : Nat → Input
  count : Nat → Nat

/-- Whether a sample ends a pulse: the level changes from that of a pulse. -/
def ends (t : Kind) (r : Input) (b : Bool) (d : Nat) : Bool :=
  ((r.sample b d).level != r.level) && edge t r.level

open Classical in
/-- What a call does and returns; `w` is the number of inputs and of bits of `int`. -/
noncomputable def St.step (t : Kind) (s : St) : Op w → St × Int
  | .filter v d => (⟨fun i => (s.input i).sample (v.getLsbD i) d.toNat,
      fun i => s.count i + if ends t (s.input i) (v.getLsbD i) d.toNat then 1 else 0⟩,
      if ∃ i, i < w ∧ ends t (s.input i) (v.getLsbD i) d.toNat = true then 1 else 0)
  | .clear i => ({ s with count := fun j => if (j : Int) = i then 0 else s.count j }, 0)
  | .count i => (s, if i < 0 ∨ w ≤ i then -1 else Int.bmod (s.count i.toNat) (2 ^ w))
  | .level i => (s, if i < 0 ∨ w ≤ i then -1 else if (s.input i.toNat).level then 1 else 0)

noncomputable def St.history (t : Kind) (s : St) : List (Op w) → List Int
  | [] => []
  | op :: ops => (s.step t op).2 :: (s.step t op).1.history t ops

/-- The state after initialization with levels `v`, when the debounce counter of input `i` had the value `c i` before: as if
the first of `c i + 1` samples had been seen, unless it is 0. -/
def St.start (v : BitVec w) (c : Nat → Nat) : St :=
  ⟨fun i => ⟨v.getLsbD i, if c i = 0 then none else some (c i, 1)⟩, fun _ => 0⟩

end Spec

open Spec (St)

/-- **C141.** For every previous content of the memory, every kind of pulse and every history of calls after
`pulse_filter_init`: every call returns what the specification says. -/
theorem C141_exact (f g : Filter w) (hl : WF f) (t : Kind) (v : BitVec w) (hg : init f t v = .ok g) (ops : List (Op w)) :
    history g ops = .ok ((St.start v fun i => (f.filters.getD i 0).toNat).history t ops) := by
  have key : ∀ (ops : List (Op w)) (f : Filter w) (s : St), WF f → f.type = t →
      (∀ i, i < w → Rep (bit f i) (s.input i)) → (∀ i, i < w → (f.count.getD i 0).toNat = s.count i % 2 ^ w) →
      history f ops = .ok (s.history t ops) := by
    intro ops
    induction ops with
    | nil => intro f s _ _ _ _; rfl
    | cons op ops ih =>
      intro f s hl ht hr hc
      have hstep : ∃ f', op.apply f = .ok (f', (s.step t op).2) ∧ WF f' ∧ f'.type = t ∧
          (∀ i, i < w → Rep (bit f' i) ((s.step t op).1.input i)) ∧
          (∀ i, i < w → (f'.count.getD i 0).toNat = (s.step t op).1.count i % 2 ^ w) := by
        cases op with
        | filter v d =>
          obtain ⟨f', r, e, l, t', p, q, r1, r2⟩ := filter_eq true f v d hl (Or.inl rfl)
          have hcnt : ∀ i, i < w → counted f.type (bit f i) (v.getLsbD i) d =
              Spec.ends t (s.input i) (v.getLsbD i) d.toNat := by
            intro i hi
            rw [counted, (Debounce.rep_sample (hr i hi) _ d (by omega)).2, ht, Spec.ends, (hr i hi).2.1]
          have hret : r = (s.step t (.filter v d)).2 := by
            have hiff : (∃ j, j < w ∧ counted f.type (bit f j) (v.getLsbD j) d = true) ↔
                ∃ i, i < w ∧ Spec.ends t (s.input i) (v.getLsbD i) d.toNat = true := by
              constructor
              · rintro ⟨j, hj, h⟩; exact ⟨j, hj, by rwa [← hcnt j hj]⟩
              · rintro ⟨j, hj, h⟩; exact ⟨j, hj, by rwa [hcnt j hj]⟩
            simp only [St.step]
            split
            · next h => exact r1 (hiff.2 h)
            · next h => exact r2 (fun h' => h (hiff.1 h'))
          refine ⟨f', by rw [← hret]; exact e, l, t'.trans ht, fun i hi => ?_, fun i hi => ?_⟩
          · rw [p i hi]
            exact (Debounce.rep_sample (hr i hi) _ d (by omega)).1
          · rw [q i hi, hcnt i hi, BitVec.toNat_add, hc i hi]
            simp only [St.step]
            split
            · rw [Debounce.one_toNat (by omega), Nat.mod_add_mod]
            · simp
        | clear i =>
          obtain ⟨f', e, l, t', o, fl, q⟩ := clear_eq f hl i
          refine ⟨f', by rw [Op.apply, e]; rfl, l, t'.trans ht, fun j hj => ?_, fun j hj => ?_⟩
          · rw [bit, o, fl]; exact hr j hj
          · rw [q j hj]
            simp only [St.step]
            split
            · simp
            · exact hc j hj
        | count i =>
          refine ⟨f, ?_, hl, ht, hr, hc⟩
          simp only [Op.apply, St.step]
          by_cases h : i < 0 ∨ w ≤ i
          · rw [Gel.Pulse.count, if_pos h, if_pos h]; rfl
          · have hi : i.toNat < w := by omega
            have := count_eq f hl i.toNat hi
            rw [Int.toNat_of_nonneg (by omega)] at this
            rw [this, if_neg h, Res.ok_bind, BitVec.toInt_eq_toNat_bmod, hc _ hi]
            rw [Int.natCast_emod, Int.emod_bmod]; rfl
        | level i =>
          refine ⟨f, ?_, hl, ht, hr, hc⟩
          simp only [Op.apply, St.step]
          by_cases h : i < 0 ∨ w ≤ i
          · rw [Gel.Pulse.level, if_pos h, if_pos h]; rfl
          · have hi : i.toNat < w := by omega
            have := level_eq f i.toNat hi
            rw [Int.toNat_of_nonneg (by omega)] at this
            rw [this, if_neg h, Res.ok_bind, ← (hr _ hi).1]
            rfl
      obtain ⟨f', e, l', t', p, q⟩ := hstep
      rw [history, e, Res.ok_bind]
      simp only
      rw [ih f' _ l' t' p q]
      rfl
  obtain ⟨g', e, l, t', o, fl, q⟩ := init_eq f hl t v
  rw [hg] at e
  cases e
  refine key ops g _ l t' (fun i hi => ?_) (fun i hi => by rw [q i hi]; simp [St.start])
  rw [bit, o, fl]
  refine ⟨rfl, rfl, ?_⟩
  simp only [St.start]
  by_cases h : (f.filters.getD i 0).toNat = 0
  · rw [if_pos h]
    exact BitVec.eq_of_toNat_eq (by rw [h]; simp)
  · rw [if_neg h]
    exact ⟨by omega, by omega, rfl⟩

/-- Two inputs: the debounce counter of input 1 was 3 before. -/
example : (do
    let g ← init { clean with filters := [0, 3] ++ List.replicate 30 0 } .high 3
    history g [.filter 0 1, .filter 0 1, .level 0, .level 1, .count 1, .clear 0, .count 0, .count 32, .filter 0 1] : Res _) =
      .ok [0, 1, 0, 1, 0, 0, 0, -1, 1] := by decide

end Gel.Pulse
