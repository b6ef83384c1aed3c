import Verif.Pulse.Exact

/-!
# Pulse counter: reading and clearing while an interrupt handler samples (C168)

`pulse_filter` runs in an interrupt handler, between any two calls of the main program. `pulse_count` and `pulse_clear` make a
single access each, so it is enough to let calls of the handler come between the calls.
-/
namespace Gel.Pulse

variable {w : Nat}

open Debounce (Bit Rep)
open Debounce.Spec (Input)

/-- Calls of the handler: inputs and debounce values. -/
abbrev Ticks (w : Nat) := List (BitVec w × BitVec w)

/-- `pulse_filter` for each of them. -/
def ticks (f : Filter w) : Ticks w → Res (Filter w)
  | [] => .ok f
  | (v, d) :: l => do
    let (f, _) ← filter true f v d
    ticks f l

/-- The main program takes the count of input `i` and clears it, again and again; each time, the handler is called as in the
first list before the count is taken and as in the second between that and the clearing. What `pulse_count` returned. -/
def harvest (f : Filter w) (i : Nat) : List (Ticks w × Ticks w) → Res (List Int)
  | [] => .ok []
  | (a, b) :: l => do
    let f ← ticks f a
    let c ← count f i
    let f ← ticks f b
    let f ← clear f i
    let cs ← harvest f i l
    pure (c :: cs)

namespace Spec

/-- The samples of input `i`. -/
def samples (i : Nat) (l : Ticks w) : List (Bool × Nat) := l.map fun x => (x.1.getLsbD i, x.2.toNat)

/-- The input after samples. -/
def after (r : Input) (l : List (Bool × Nat)) : Input := l.foldl (fun r x => r.sample x.1 x.2) r

/-- The number of pulses that end with one of the samples. -/
def pulsesIn (t : Kind) (r : Input) : List (Bool × Nat) → Nat
  | [] => 0
  | (b, d) :: l => (if ends t r b d then 1 else 0) + pulsesIn t (r.sample b d) l

/-- The pulses that the main program is told of, when `n` were counted before. -/
def told (t : Kind) (i : Nat) (r : Input) (n : Nat) : List (Ticks w × Ticks w) → List Nat
  | [] => []
  | (a, b) :: l => (n + pulsesIn t r (samples i a)) :: told t i (after (after r (samples i a)) (samples i b)) 0 l

/-- The pulses that end between taking a count and clearing it. -/
def between (t : Kind) (i : Nat) (r : Input) : List (Ticks w × Ticks w) → Nat
  | [] => 0
  | (a, b) :: l => pulsesIn t (after r (samples i a)) (samples i b) +
      between t i (after (after r (samples i a)) (samples i b)) l

/-- All samples. -/
def all (l : List (Ticks w × Ticks w)) : Ticks w := (l.map fun x => x.1 ++ x.2).flatten

end Spec

open Spec

/-- The filter counts `n` pulses of kind `t` on input `i`, whose state is `r`. -/
structure Holds (f : Filter w) (i : Nat) (t : Kind) (r : Input) (n : Nat) : Prop where
  wf : WF f
  type : f.type = t
  rep : Rep (bit f i) r
  count : (f.count.getD i 0).toNat = n % 2 ^ w

theorem ticks_eq (i : Nat) (hi : i < w) (t : Kind) : ∀ (l : Ticks w) (f : Filter w) (r : Input) (n : Nat),
    Holds f i t r n → ∃ g, ticks f l = .ok g ∧ Holds g i t (after r (samples i l)) (n + pulsesIn t r (samples i l))
  | [], f, r, n, h => ⟨f, rfl, h⟩
  | (v, d) :: l, f, r, n, h => by
    obtain ⟨f', x, e, l', t', p, q, -, -⟩ := filter_eq true f v d h.wf (Or.inl rfl)
    have hs := Debounce.rep_sample h.rep (v.getLsbD i) d (by omega)
    have hc : counted f.type (bit f i) (v.getLsbD i) d = ends t r (v.getLsbD i) d.toNat := by
      rw [counted, hs.2, h.type, ends, h.rep.2.1]
    obtain ⟨g, e', hg⟩ := ticks_eq i hi t l f' (r.sample (v.getLsbD i) d.toNat)
      (n + if ends t r (v.getLsbD i) d.toNat then 1 else 0)
      ⟨l', t'.trans h.type, by rw [p i hi]; exact hs.1, by
        rw [q i hi, hc, BitVec.toNat_add, h.count]
        split
        · rw [Debounce.one_toNat (by omega), Nat.mod_add_mod]
        · simp⟩
    refine ⟨g, by rw [ticks, e, Res.ok_bind]; exact e', ?_⟩
    rw [Nat.add_assoc] at hg
    exact hg

theorem count_holds {f : Filter w} {i : Nat} (hi : i < w) {t : Kind} {r : Input} {n : Nat} (h : Holds f i t r n) :
    count f i = .ok (Int.bmod n (2 ^ w)) := by
  rw [count_eq f h.wf i hi, BitVec.toInt_eq_toNat_bmod, h.count, Int.natCast_emod, Int.emod_bmod]

/-- **C168**, exact: each count is the number of pulses since the last count was *cleared*, as an `int`: the pulses that end
between taking a count and clearing it are in none of them. -/
theorem C168_exact (i : Nat) (hi : i < w) (t : Kind) : ∀ (l : List (Ticks w × Ticks w)) (f : Filter w) (r : Input) (n : Nat),
    Holds f i t r n → harvest f i l = .ok ((told t i r n l).map fun k : Nat => Int.bmod k (2 ^ w))
  | [], _, _, _, _ => rfl
  | (a, b) :: l, f, r, n, h => by
    obtain ⟨g, e1, h1⟩ := ticks_eq i hi t a f r n h
    obtain ⟨k, e2, h2⟩ := ticks_eq i hi t b g _ _ h1
    obtain ⟨c, e3, l3, t3, o3, f3, q3⟩ := clear_eq k h2.wf i
    have h3 : Holds c i t (after (after r (samples i a)) (samples i b)) 0 :=
      ⟨l3, t3.trans h2.type, by rw [bit, o3, f3]; exact h2.rep, by rw [q3 i hi, if_pos rfl]; simp⟩
    rw [harvest, e1, Res.ok_bind, count_holds hi h1, Res.ok_bind, e2, Res.ok_bind, e3, Res.ok_bind,
      C168_exact i hi t l c _ 0 h3]
    rfl

theorem after_append (r : Input) (a b : List (Bool × Nat)) : after r (a ++ b) = after (after r a) b := List.foldl_append

theorem pulsesIn_append (t : Kind) (b : List (Bool × Nat)) : ∀ (a : List (Bool × Nat)) (r : Input),
    pulsesIn t r (a ++ b) = pulsesIn t r a + pulsesIn t (after r a) b
  | [], r => by rw [List.nil_append, pulsesIn, Nat.zero_add]; rfl
  | (x, d) :: a, r => by
    rw [List.cons_append, pulsesIn, pulsesIn, pulsesIn_append t b a, Nat.add_assoc]
    rfl

theorem samples_append (i : Nat) (a b : Ticks w) : samples i (a ++ b) = samples i a ++ samples i b := List.map_append

/-- **C168**, how many are missing: the numbers that the main program is told, together with the pulses between taking and
clearing, are all the pulses. (At least one count is taken.) -/
theorem C168_lost (i : Nat) (t : Kind) : ∀ (l : List (Ticks w × Ticks w)) (r : Input) (n : Nat), l ≠ [] →
    (told t i r n l).sum + between t i r l = n + pulsesIn t r (samples i (all l)) := by
  have key : ∀ (l : List (Ticks w × Ticks w)) (r : Input),
      (told t i r 0 l).sum + between t i r l = pulsesIn t r (samples i (all l)) := by
    intro l
    induction l with
    | nil => intro r; rfl
    | cons x l ih =>
      intro r
      obtain ⟨a, b⟩ := x
      have := ih (after (after r (samples i a)) (samples i b))
      rw [told, between, all, List.map_cons, List.flatten_cons, ← all, samples_append, pulsesIn_append, samples_append,
        pulsesIn_append, after_append, List.sum_cons, ← this]
      simp only
      omega
  intro l r n h
  cases l with
  | nil => exact absurd rfl h
  | cons x l =>
    obtain ⟨a, b⟩ := x
    have := key l (after (after r (samples i a)) (samples i b))
    rw [told, between, all, List.map_cons, List.flatten_cons, ← all, samples_append, pulsesIn_append, samples_append,
      pulsesIn_append, after_append, List.sum_cons, ← this]
    simp only
    omega

theorem bmod_small' {w k : Nat} (h : 2 * k < 2 ^ w) : Int.bmod k (2 ^ w) = k := by
  rw [Int.bmod_def]
  have h1 : ((k : Int) % ((2 ^ w : Nat) : Int)) = k := Int.emod_eq_of_lt (by omega) (by omega)
  rw [h1, if_pos (by omega)]

theorem told_bmod {l : List Nat} (h : ∀ k ∈ l, 2 * k < 2 ^ w) : ((l.map fun k : Nat => Int.bmod k (2 ^ w)).sum) = (l.sum : Int) := by
  induction l with
  | nil => rfl
  | cons k l ih =>
    rw [List.map_cons, List.sum_cons, List.sum_cons, ih fun j hj => h j (by simp [hj]), bmod_small' (h k (by simp))]
    push_cast
    rfl

/-- **C168**, proved part: if no pulse ends between taking a count and clearing it, the sum of the counts is the number of
pulses. Missing: other histories, for which it is false. (Each count must fit in an `int`.) -/
theorem C168_sum_partial (f : Filter w) (i : Nat) (hi : i < w) (t : Kind) (r : Input) (n : Nat) (h : Holds f i t r n)
    (l : List (Ticks w × Ticks w)) (hl : l ≠ []) (hs : ∀ k ∈ told t i r n l, 2 * k < 2 ^ w) (hb : between t i r l = 0) :
    ∃ cs, harvest f i l = .ok cs ∧ cs.sum = (n + pulsesIn t r (samples i (all l)) : Nat) := by
  refine ⟨_, C168_exact i hi t l f r n h, ?_⟩
  rw [told_bmod hs, ← C168_lost i t l r n hl, hb]
  rfl

/-- **C168**, where it fails: a pulse that ends between taking a count and clearing it is lost: the sum of the counts is
smaller than the number of pulses. -/
theorem C168_sum_wrong (f : Filter w) (i : Nat) (hi : i < w) (t : Kind) (r : Input) (n : Nat) (h : Holds f i t r n)
    (l : List (Ticks w × Ticks w)) (hl : l ≠ []) (hs : ∀ k ∈ told t i r n l, 2 * k < 2 ^ w) (hb : 0 < between t i r l) :
    ∃ cs, harvest f i l = .ok cs ∧ cs.sum < (n + pulsesIn t r (samples i (all l)) : Nat) := by
  refine ⟨_, C168_exact i hi t l f r n h, ?_⟩
  rw [told_bmod hs]
  have := C168_lost i t l r n hl
  exact_mod_cast (by omega)

/-- After `pulse_filter_init` of zeroed debounce counters the theorems apply, with no pulse counted. -/
theorem init_holds (f g : Filter w) (hl : WF f) (t : Kind) (v : BitVec w) (hg : init f t v = .ok g) (i : Nat) (hi : i < w)
    (h0 : f.filters.getD i 0 = 0) : Holds g i t ⟨v.getLsbD i, none⟩ 0 := by
  obtain ⟨g', e, l, t', o, fl, q⟩ := init_eq f hl t v
  rw [hg] at e
  cases e
  exact ⟨l, t', by rw [bit, o, fl]; exact ⟨rfl, rfl, h0⟩, by rw [q i hi]; simp⟩

/-! ## `pulse_filter` in the main program, `pulse_clear` in the handler -/

/-- The increment `filter->count[i]++`, pulsecounter.c:32 and 39, with a call of an interrupt handler between its load and its
store. -/
def increment (f : Filter w) (i : Nat) (isr : Filter w → Res (Filter w)) : Res (Filter w) := do
  let n ← rd f.count i
  let f ← isr f
  let c ← wr f.count i (n + 1)
  pure { f with count := c }

/-- **C168**, where it fails the other way round: a `pulse_clear` by a handler in the midst of the increment is undone. The
count is one more than it was before, as without the clearing. -/
theorem C168_clear_wrong (f : Filter w) (hl : WF f) (i : Nat) (hi : i < w) :
    ∃ g, increment f i (fun f => clear f i) = .ok g ∧ increment f i .ok = .ok g ∧
      g.count.getD i 0 = f.count.getD i 0 + 1 := by
  have hc : i < f.count.length := by have := hl.2; omega
  refine ⟨{ f with count := f.count.set i (f.count.getD i 0 + 1) }, ?_, ?_, ?_⟩
  · rw [increment, Debounce.rd_getD _ _ hc, Res.ok_bind, clear, if_neg (by omega)]
    simp only [Int.toNat_natCast]
    rw [wr, if_pos hc, Res.ok_bind]
    simp only [Res.pure_eq, Res.ok_bind]
    rw [wr, if_pos (by simpa using hc), Res.ok_bind]
    simp
  · rw [increment, Debounce.rd_getD _ _ hc, Res.ok_bind, Res.ok_bind, wr, if_pos hc]
    rfl
  · simp only
    rw [Debounce.getD_set _ _ _ _ hc, if_pos rfl]

/-- Three pulses without debouncing, one of which ends between taking a count and clearing it. -/
example : let l : List (Ticks 8 × Ticks 8) := [([(1, 0), (0, 0)], [(1, 0), (0, 0)]), ([(1, 0)], []), ([(0, 0)], [])]
    (init ⟨.other, 9, List.replicate 8 0, List.replicate 8 5⟩ .high (0 : BitVec 8) >>= fun f => harvest f 0 l) = .ok [1, 0, 1] ∧
    told .high 0 ⟨false, none⟩ 0 l = [1, 0, 1] ∧ between .high 0 ⟨false, none⟩ l = 1 ∧
    pulsesIn .high ⟨false, none⟩ (samples 0 (all l)) = 3 := by decide

end Gel.Pulse
