import Verif.Debounce.Props

/-!
# Debounce: the result of every history of calls (C140)
-/
namespace Gel.Debounce

variable {w : Nat}

/-- The calls of the interface. -/
inductive Op (w : Nat) where
  | filter (input debounce : BitVec w)
  | single (input : BitVec w) (i : Nat) (debounce : BitVec w)
  | set (v : BitVec w)

/-- One call: the filter and what is returned (0 for the function that returns nothing). -/
def Op.apply (f : Filter w) : Op w → Res (Filter w × BitVec w)
  | .filter v d => Gel.Debounce.filter true f v d
  | .single v i d => filterSingle true f v i d
  | .set v => .ok (Gel.Debounce.set f v, 0)

/-- A history of calls: what each returns, and `debounce_value` after it. -/
def history (f : Filter w) : List (Op w) → Res (List (BitVec w × BitVec w))
  | [] => .ok []
  | op :: ops => do
    let r ← op.apply f
    let l ← history r.1 ops
    pure ((r.2, value r.1) :: l)

namespace Spec

/-- One input: its level, and, if the last samples differed from the level, the debounce value given with the first of
these samples and how many they are. -/
structure Input where
  level : Bool
  run : Option (Nat × Nat)

/-- A sample. One that agrees with the level ends the run. The (d+1)-th of a run that began with debounce value `d` changes
the level. -/
def Input.sample (s : Input) (b : Bool) (d : Nat) : Input :=
  if b = s.level then { s with run := none }
  else
    let r := s.run.getD (d, 0)
    if r.2 = r.1 then ⟨b, none⟩ else { s with run := some (r.1, r.2 + 1) }

/-- What a call does to input `i`; setting the level does not end the run. -/
def Input.step (s : Input) (i : Nat) : Op w → Input
  | .filter v d => s.sample (v.getLsbD i) d.toNat
  | .single v j d => if i = j then s.sample (decide (v ≠ 0)) d.toNat else s
  | .set v => { s with level := v.getLsbD i }

/-- Whether the call reports a change of input `i`: not when the level is set. -/
def Input.reports (s : Input) (i : Nat) (op : Op w) : Bool :=
  match op with
  | .set _ => false
  | _ => (s.step i op).level != s.level

/-- The reports and levels of input `i` in a history. -/
def Input.history (s : Input) (i : Nat) : List (Op w) → List (Bool × Bool)
  | [] => []
  | op :: ops => (s.reports i op, (s.step i op).level) :: (s.step i op).history i ops

/-- The index of an input exists. -/
def Ok : Op w → Prop
  | .single _ i _ => i < w
  | _ => True

end Spec

open Spec (Input)

/-- The state of the code represents the state of the specification. -/
def Rep (s : Bit w) (r : Input) : Prop :=
  s.buf = r.level ∧ s.old = r.level ∧
    match r.run with
    | none => s.cnt = 0
    | some (d, n) => 0 < n ∧ n ≤ d ∧ s.cnt.toNat + n = d + 1

theorem rep_sample {s : Bit w} {r : Input} (h : Rep s r) (b : Bool) (d : BitVec w) (hw : 0 < w) :
    Rep (s.next b d) (r.sample b d.toNat) ∧ s.flips b d = ((r.sample b d.toNat).level != r.level) := by
  obtain ⟨h1, h2, h3⟩ := h
  have hz : ∀ x : BitVec w, x = 0 ↔ x.toNat = 0 := fun x =>
    ⟨fun h => by rw [h]; simp, fun h => BitVec.eq_of_toNat_eq (by rw [h]; simp)⟩
  rw [Bit.next, Bit.flips, Input.sample, h2]
  by_cases hb : b = r.level
  · rw [if_pos hb, if_pos hb]
    exact ⟨⟨h1, rfl, rfl⟩, by simp [hb]⟩
  · rw [if_neg hb, if_neg hb]
    have hne : (b != r.level) = true := by simpa using hb
    rw [hne, Bool.true_and]
    rcases hr : r.run with _ | ⟨d0, n⟩
    · rw [hr] at h3
      simp only [Option.getD_none]
      simp only at h3
      rw [h3, if_pos rfl]
      by_cases hd : d = 0
      · have : d.toNat = 0 := (hz d).1 hd
        rw [if_pos hd, if_pos this.symm]
        exact ⟨⟨rfl, rfl, rfl⟩, by simp [hd, hne]⟩
      · have : d.toNat ≠ 0 := (hz d).not.1 hd
        rw [if_neg hd, if_neg (by omega)]
        exact ⟨⟨h1, rfl, by omega, by omega, by simp⟩, by simpa using hd⟩
    · rw [hr] at h3
      simp only [Option.getD_some]
      simp only at h3
      obtain ⟨n1, n2, n3⟩ := h3
      have hc : s.cnt ≠ 0 := by rw [Ne, hz]; omega
      have hsub : (s.cnt - 1).toNat = s.cnt.toNat - 1 := by
        rw [BitVec.toNat_sub_of_le, one_toNat hw]
        rw [BitVec.le_def, one_toNat hw]
        omega
      rw [if_neg hc]
      by_cases hd : n = d0
      · have hz0 : s.cnt - 1 = 0 := by rw [hz]; omega
        rw [if_pos hz0, if_pos hd]
        exact ⟨⟨rfl, rfl, rfl⟩, by rw [hz0]; simp [hne]⟩
      · have hz0 : s.cnt - 1 ≠ 0 := by rw [Ne, hz]; omega
        rw [if_neg hz0, if_neg hd]
        exact ⟨⟨h1, rfl, by omega, by omega, by simp only; omega⟩, by simpa using hz0⟩

/-- **C140.** For every history of calls of `debounce_filter`, `debounce_filter_single` and `debounce_filter_set` after
`debounce_filter_init` of arbitrary memory: every call returns, and for each input the reports and the levels are those of
its own machine. -/
theorem C140_exact (f g : Filter w) (hl : f.count.length = w) (hg : init f = .ok g) (ops : List (Op w))
    (hok : ∀ op ∈ ops, Spec.Ok op) :
    ∃ l, history g ops = .ok l ∧
      ∀ i, i < w → (l.map fun o => (o.1.getLsbD i, o.2.getLsbD i)) = Input.history ⟨false, none⟩ i ops := by
  have key : ∀ (ops : List (Op w)) (f : Filter w) (rs : Nat → Input), (∀ op ∈ ops, Spec.Ok op) → f.count.length = w →
      (∀ i, i < w → Rep (bit f i) (rs i)) → ∃ l, history f ops = .ok l ∧
        ∀ i, i < w → (l.map fun o => (o.1.getLsbD i, o.2.getLsbD i)) = (rs i).history i ops := by
    intro ops
    induction ops with
    | nil => intro f rs _ _ _; exact ⟨[], rfl, fun _ _ => rfl⟩
    | cons op ops ih =>
      intro f rs hok hl hr
      have hstep : ∃ f' c, op.apply f = .ok (f', c) ∧ f'.count.length = w ∧
          ∀ i, i < w → Rep (bit f' i) ((rs i).step i op) ∧ c.getLsbD i = (rs i).reports i op := by
        cases op with
        | filter v d =>
          obtain ⟨f', c, e, l, p, q⟩ := filter_eq true f v d hl (Or.inl rfl)
          refine ⟨f', c, e, l, fun i hi => ?_⟩
          rw [p i hi, q i hi]
          exact rep_sample (hr i hi) _ d (by omega)
        | single v j d =>
          have hj : j < w := hok _ List.mem_cons_self
          obtain ⟨f', c, e, l, p, q⟩ := filterSingle_eq true f v j d _ (bool_cases v) hj hl (Or.inl rfl)
          refine ⟨f', c, e, l, fun i hi => ?_⟩
          rw [p i hi, q i hi]
          simp only [Input.step, Input.reports]
          by_cases hij : i = j
          · subst hij
            rw [if_pos rfl, if_pos rfl, decide_eq_true rfl, Bool.true_and]
            exact rep_sample (hr i hi) _ d (by omega)
          · rw [if_neg hij, if_neg hij, decide_eq_false hij]
            exact ⟨hr i hi, by simp⟩
        | set v =>
          refine ⟨_, _, rfl, hl, fun i hi => ⟨?_, by simp [Input.reports]⟩⟩
          obtain ⟨-, -, h3⟩ := hr i hi
          exact ⟨rfl, rfl, h3⟩
      obtain ⟨f', c, e, l', p⟩ := hstep
      obtain ⟨l, el, pl⟩ := ih f' (fun i => (rs i).step i op) (fun o ho => hok o (List.mem_cons_of_mem _ ho)) l'
        (fun i hi => (p i hi).1)
      refine ⟨(c, value f') :: l, by rw [history, e, Res.ok_bind]; simp only; rw [el]; rfl, fun i hi => ?_⟩
      rw [List.map_cons, pl i hi, Input.history]
      congr 1
      rw [(p i hi).2, ← (p i hi).1.1]
      rfl
  obtain ⟨l, p⟩ := init_clear hl hg
  exact key ops g (fun _ => ⟨false, none⟩) hok l fun i hi => by rw [p i hi]; exact ⟨rfl, rfl, rfl⟩

/-- Input 0 with debounce value 1: a sample of 1, set to 1, then a sample of 0 is the second of the run, although it is the
first that differs from the level set. -/
example : (do let g ← init junk; history g [.filter 1 1, .set 1, .filter 0 1, .single 3 2 0, .filter 4 0] : Res _) =
      .ok [(0, 0), (0, 1), (1, 0), (4, 4), (0, 4)] ∧
    Input.history (w := 32) ⟨false, none⟩ 0 [.filter 1 1, .set 1, .filter 0 1, .single 3 2 0, .filter 4 0] =
      [(false, false), (false, true), (true, false), (false, false), (false, false)] := by decide

end Gel.Debounce
