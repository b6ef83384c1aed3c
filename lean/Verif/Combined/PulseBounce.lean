import Verif.Combined.Bounce
import Verif.Pulse.Props

/-!
# Bouncing contacts at the inputs of a pulse counter (C236)

The contacts of C231, one at each input, in front of `pulse_filter`. A contact may be open or closed at rest; it is used again and again,
and bounces each time it is touched and let go.
-/
namespace Gel.Combined.Pulses
open Debounce.Spec Combined.Spec Pulse

/-! ## Specification -/

/-- How often the contact was let go in the first `n` cycles. -/
def releases (T : Nat → Bool) : Nat → Nat
  | 0 => 0
  | n + 1 => releases T n + if !T n && before T n then 1 else 0

/-- How many pulses have ended on an input with the level `rest` at rest: a pulse of that level ends when the contact is touched, one of the
other level when it is let go. -/
def ended (pol rest : Bool) (T : Nat → Bool) (n : Nat) : Nat := if pol = rest then presses T n else releases T n

/-- The contact was last touched or let go more than `gap` cycles before cycle `n`. -/
def AtRest (gap : Nat) (T : Nat → Bool) (n : Nat) : Prop := ∀ m, m < n → Changes T m → m + gap < n

/-! ## Levels -/

theorem presses_releases (T : Nat → Bool) : ∀ n, presses T n = releases T n + if before T n then 1 else 0
  | 0 => by simp [presses, releases, before]
  | n + 1 => by
    rw [presses, releases, presses_releases T n, before_succ]
    cases T n <;> cases before T n <;> simp

/-- The deviation of the level from that at rest obeys the same rule. -/
theorem rule_xor {d : Nat} {smp lev raw : Nat → Bool} {b : Bool} (hraw : ∀ n, smp n = (raw n != b)) {k : Nat} (h : Rule d smp lev k) :
    Rule d raw (fun n => lev n != b) k := by
  unfold Rule at h ⊢
  have e : smp = fun n => (raw n != b) := funext hraw
  subst e
  cases b
  · simpa using h
  · have e1 : ∀ n, (raw n != true) = !raw n := fun n => by cases raw n <;> rfl
    have e2 : ∀ n, (lev n != true) = !lev n := fun n => by cases lev n <;> rfl
    simp only [e1, e2] at h ⊢
    have e3 : ∀ x y : Bool, (!x) ≠ (!y) ↔ x ≠ y := by decide
    have e4 : ∀ x y : Bool, (!x) = (!y) ↔ x = y := by decide
    have e5 : ∀ x y : Bool, x ≠ (!y) ↔ (!x) ≠ y := by decide
    simp only [e3, e4, e5]
    exact h

/-- The number of pulses of a level over time, never cleared. -/
def total (pol : Bool) (lev : Nat → Bool) : Nat → Nat
  | 0 => 0
  | n + 1 => total pol lev n + if lev n = pol ∧ lev (n + 1) ≠ pol then 1 else 0

theorem total_mono (pol : Bool) (lev : Nat → Bool) {k n : Nat} (h : k ≤ n) : total pol lev k ≤ total pol lev n := by
  induction n with
  | zero => rw [show k = 0 by omega]
  | succ n ih =>
    by_cases hk : k = n + 1
    · rw [hk]
    · have := ih (by omega)
      rw [total]
      omega

theorem pulses_since (pol : Bool) (lev : Nat → Bool) (clr : Nat → Prop) [DecidablePred clr] {k : Nat} (hk : k = 0 ∨ clr k) :
    ∀ n, k < n ∨ k = 0 → (∀ j, k < j → j < n → ¬ clr j) →
      Pulse.Spec.pulses pol lev clr n = total pol lev n - total pol lev k
  | 0, h, _ => by
    rcases h with h | h
    · omega
    · subst h; simp [Pulse.Spec.pulses, total]
  | n + 1, h, hc => by
    rw [Pulse.Spec.pulses, total]
    by_cases hn : n = k
    · subst hn
      rcases hk with rfl | hk
      · simp [Pulse.Spec.pulses, total]
      · rw [if_pos hk]; omega
    · have hkn : k < n ∨ k = 0 := by omega
      have ih := pulses_since pol lev clr hk n hkn (fun j a b => hc j a (by omega))
      have hm := total_mono pol lev (show k ≤ n by omega)
      by_cases hc' : clr n
      · exact absurd hc' (hc n (by omega) (by omega))
      · rw [if_neg hc', ih]; omega

theorem total_eq (pol b : Bool) (lev : Nat → Bool) (h0 : lev 0 = b) (n : Nat) :
    total pol lev n = ended pol b (fun k => lev (k + 1) != b) n := by
  have hb : ∀ n, before (fun k => lev (k + 1) != b) n = (lev n != b) := by
    intro n
    rw [before]
    split
    · rename_i h; subst h; rw [h0]; cases b <;> rfl
    · rw [show n - 1 + 1 = n by omega]
  induction n with
  | zero => unfold ended; split <;> rfl
  | succ n ih =>
    rw [total, ih]
    unfold ended
    split
    · rename_i h
      subst h
      rw [presses, hb]
      congr 1
      cases lev n <;> cases lev (n + 1) <;> cases pol <;> simp
    · rename_i h
      rw [releases, hb]
      congr 1
      revert h
      cases lev n <;> cases lev (n + 1) <;> cases pol <;> cases b <;> simp

/-- A contact and the level behind the filter: what is counted is what has ended, or one less until the contact is at rest. -/
theorem follows_ended {B d : Nat} {T raw lev : Nat → Bool} (hB : B ≤ 2 * d + 1) (hc : Contact B T raw) (hs : Slow (B + d) T)
    (h0 : lev 0 = false) (hr : ∀ k, Rule d raw lev k) (pol b : Bool) (n : Nat) :
    ended pol b (fun k => lev (k + 1)) n ≤ ended pol b T n ∧ ended pol b T n ≤ ended pol b (fun k => lev (k + 1)) n + 1 ∧
    (AtRest (B + d) T n → ended pol b (fun k => lev (k + 1)) n = ended pol b T n) := by
  have hb : before (fun k => lev (k + 1)) n = lev n := by
    rw [before]
    split
    · rename_i h; rw [h, h0]
    · rw [show n - 1 + 1 = n by omega]
  have p1 := presses_releases (fun k => lev (k + 1)) n
  have p2 := presses_releases T n
  rw [hb] at p1
  have hf := follows hB hc hs h0 hr n
  have key : (presses (fun k => lev (k + 1)) n ≤ presses T n ∧ presses T n ≤ presses (fun k => lev (k + 1)) n + 1 ∧
      (AtRest (B + d) T n → presses (fun k => lev (k + 1)) n = presses T n)) ∧
      (releases (fun k => lev (k + 1)) n ≤ releases T n ∧ releases T n ≤ releases (fun k => lev (k + 1)) n + 1 ∧
      (AtRest (B + d) T n → releases (fun k => lev (k + 1)) n = releases T n)) := by
    rcases hf.now with ⟨h1, h⟩ | ⟨m, h1, h2, h5, h3, h6, h4⟩
    · rw [h1] at p1
      exact ⟨⟨by omega, by omega, fun _ => h⟩, by omega, by omega, fun _ => by omega⟩
    · have hnr : ¬ AtRest (B + d) T n := fun h => by have := h m h1 h2; omega
      have hl := h6 n (by omega) (Nat.le_refl _)
      have hbT : before T n = T m := by
        obtain ⟨k, rfl⟩ : ∃ k, n = k + 1 := ⟨n - 1, by omega⟩
        rw [before_succ]
        exact same_between (by omega) fun j a c => h5 j a (by omega)
      rw [hl] at p1
      rw [hbT] at p2
      unfold Changes at h2
      cases hm : T m <;> cases hbm : before T m <;> rw [hm, hbm] at h2 <;> simp only [hm, hbm, if_true, if_false, Bool.false_eq_true] at p1 p2 h4 h2 <;>
        first
        | exact absurd rfl h2
        | exact ⟨⟨by omega, by omega, fun h => absurd h hnr⟩, by omega, by omega, fun h => absurd h hnr⟩
  unfold ended
  split
  · exact key.1
  · exact key.2

/-! ## The counter -/

section
variable {w : Nat} (f : Filter w) (hl : WF f) (h0 : ∀ i, i < w → f.filters.getD i 0 = 0) (t : Kind) (ht : t ≠ .other) (v d : BitVec w)
include hl h0 ht

/-- **C236.** A pulse counter at whose inputs there are contacts that bounce for at most `2 d + 1` cycles, and rest for longer than the bouncing
and `d` cycles between two uses; `v` has the levels at rest. At every moment as many pulses are counted as have ended, or one less, and as many
if the contact is at rest. -/
theorem C236_once (ins : Nat → BitVec w) (raw T : Nat → Nat → Bool) (hins : ∀ i, i < w → ∀ n, (ins n).getLsbD i = (raw i n != v.getLsbD i))
    (cl : Nat → List Int) :
    ∃ (g : Filter w) (fs : Nat → Filter w), init f t v = .ok g ∧ (∀ n, run true g ins cl d n = .ok (fs n)) ∧
      ∀ i : Nat, i < w → ∀ B, B ≤ 2 * d.toNat + 1 → Contact B (T i) (raw i) → Slow (B + d.toNat) (T i) → ∀ n, (∀ j, 0 < j → j < n → (i : Int) ∉ cl j) →
        ∃ c, count (fs n) i = .ok (BitVec.ofNat w c).toInt ∧
          c ≤ ended t.pol (v.getLsbD i) (T i) n ∧ ended t.pol (v.getLsbD i) (T i) n ≤ c + 1 ∧
          (AtRest (B + d.toNat) (T i) n → c = ended t.pol (v.getLsbD i) (T i) n) := by
  obtain ⟨g, fs, lev, e1, e2, e3, -⟩ := C28_counts f hl h0 t ht v d ins cl
  refine ⟨g, fs, e1, e2, fun i hi B hB hc hs n hcl => ?_⟩
  obtain ⟨l0, h⟩ := e3 i hi
  refine ⟨_, (h n).2.2, ?_⟩
  rw [pulses_since t.pol (lev i) _ (k := 0) (Or.inl rfl) n (Or.inr rfl) hcl, show total t.pol (lev i) 0 = 0 from rfl, Nat.sub_zero,
    total_eq t.pol (v.getLsbD i) (lev i) l0 n]
  exact follows_ended hB hc hs (lev := fun n => lev i n != v.getLsbD i) (by rw [l0]; cases v.getLsbD i <;> rfl)
    (fun k => rule_xor (hins i hi) (h k).2.1) t.pol (v.getLsbD i) n

/-- **C236.** If the counter was cleared before the call `k` and not since, and the contact was at rest then and is now, as many pulses are
counted as have ended in between. -/
theorem C236_between (ins : Nat → BitVec w) (raw T : Nat → Nat → Bool) (hins : ∀ i, i < w → ∀ n, (ins n).getLsbD i = (raw i n != v.getLsbD i))
    (cl : Nat → List Int) :
    ∃ (g : Filter w) (fs : Nat → Filter w), init f t v = .ok g ∧ (∀ n, run true g ins cl d n = .ok (fs n)) ∧
      ∀ i : Nat, i < w → ∀ B, B ≤ 2 * d.toNat + 1 → Contact B (T i) (raw i) → Slow (B + d.toNat) (T i) → ∀ k n, k < n → (i : Int) ∈ cl k →
        (∀ j, k < j → j < n → (i : Int) ∉ cl j) → AtRest (B + d.toNat) (T i) k → AtRest (B + d.toNat) (T i) n →
        count (fs n) i = .ok (BitVec.ofNat w (ended t.pol (v.getLsbD i) (T i) n - ended t.pol (v.getLsbD i) (T i) k)).toInt := by
  obtain ⟨g, fs, lev, e1, e2, e3, -⟩ := C28_counts f hl h0 t ht v d ins cl
  refine ⟨g, fs, e1, e2, fun i hi B hB hc hs k n hkn hk hcl hrk hrn => ?_⟩
  obtain ⟨l0, h⟩ := e3 i hi
  have hfol := follows_ended hB hc hs (lev := fun n => lev i n != v.getLsbD i) (by rw [l0]; cases v.getLsbD i <;> rfl)
    (fun k => rule_xor (hins i hi) (h k).2.1) t.pol (v.getLsbD i)
  rw [(h n).2.2, pulses_since t.pol (lev i) _ (k := k) (Or.inr hk) n (Or.inl hkn) hcl,
    total_eq t.pol (v.getLsbD i) (lev i) l0 n, total_eq t.pol (v.getLsbD i) (lev i) l0 k, (hfol n).2.2 hrn, (hfol k).2.2 hrk]

/-- **C236**, why `2 d + 1`: a contact that bounces for `2 d + 2` cycles is counted twice. -/
theorem C236_long_wrong (i : Nat) (hi : i < w) (hpol : t.pol = v.getLsbD i) : ∃ (ins : Nat → BitVec w) (raw T : Nat → Bool),
    (∀ n, (ins n).getLsbD i = (raw n != v.getLsbD i)) ∧ Contact (2 * d.toNat + 2) T raw ∧ (∀ gap, Slow gap T) ∧
    ∃ (g : Filter w) (fs : Nat → Filter w), init f t v = .ok g ∧ (∀ n, run true g ins (fun _ => []) d n = .ok (fs n)) ∧
      ∀ n, 3 * d.toNat + 3 ≤ n → ended t.pol (v.getLsbD i) T n = 1 ∧ count (fs n) i = .ok (BitVec.ofNat w 2).toInt := by
  have hch : ∀ m, Changes (fun _ => true) m ↔ m = 0 := by
    intro m
    rw [Changes, before]
    by_cases h : m = 0 <;> simp [h]
  have hins : ∀ n, (if badRaw d.toNat n then v ^^^ BitVec.twoPow w i else v).getLsbD i = (badRaw d.toNat n != v.getLsbD i) := by
    intro n
    cases badRaw d.toNat n
    · cases h : v.getLsbD i <;> simp [h]
    · simp only [if_true]
      rw [BitVec.getLsbD_xor, BitVec.getLsbD_twoPow]
      cases v.getLsbD i <;> simp [hi]
  refine ⟨fun n => if badRaw d.toNat n then v ^^^ BitVec.twoPow w i else v, badRaw d.toNat, fun _ => true, hins, fun n hn => ?_,
    fun gap m m' h a b => ?_, ?_⟩
  · have h1 : ¬ n < 2 * d.toNat + 2 := fun h => hn 0 (by omega) (by omega) ((hch 0).2 rfl)
    simp [badRaw]; omega
  · rw [hch] at a b; omega
  · obtain ⟨g, fs, lev, e1, e2, e3, -⟩ := C28_counts f hl h0 t ht v d (fun n => if badRaw d.toNat n then v ^^^ BitVec.twoPow w i else v) (fun _ => [])
    refine ⟨g, fs, e1, e2, fun n hn => ⟨?_, ?_⟩⟩
    · rw [ended, if_pos hpol]
      have key : ∀ n, presses (fun _ => true) (n + 1) = 1 := by
        intro n
        induction n with
        | zero => rfl
        | succ n ih => rw [presses, ih, before_succ]; rfl
      rw [show n = n - 1 + 1 by omega]; exact key _
    · obtain ⟨l0, h⟩ := e3 i hi
      have e : (fun n => lev i n != v.getLsbD i) = badLev d.toNat :=
        funext (det (by rw [l0]; cases v.getLsbD i <;> simp [badLev]) (fun k => rule_xor hins (h k).2.1) (bad_rule d.toNat))
      rw [(h n).2.2, pulses_since t.pol (lev i) _ (k := 0) (Or.inl rfl) n (Or.inr rfl) (by simp), show total t.pol (lev i) 0 = 0 from rfl,
        Nat.sub_zero, total_eq t.pol (v.getLsbD i) (lev i) l0 n, ended, if_pos hpol]
      have e' : (fun k => lev i (k + 1) != v.getLsbD i) = fun k => badLev d.toNat (k + 1) := funext fun k => congrFun e (k + 1)
      rw [e', bad_count, if_pos (by omega), if_pos (by omega)]

end

/-! ## Example: input 1 rests at 1, debounce 2, touched at cycle 2 and let go at cycle 12 (the contact of C231)

Pulses of level 0, counted when the contact is let go. -/

def exIns (n : Nat) : BitVec 8 := if exRaw n then 0 else 2

example : (List.range 20).map (fun n => match (do
      let f ← init (⟨.other, 9, List.replicate 8 0, List.replicate 8 5⟩ : Filter 8) .low 2
      let f ← run true f exIns (fun _ => []) 2 n
      count f 1) with | .ok c => c | _ => -1) =
    (List.range 20).map (fun n => if n ≤ 18 then 0 else 1) ∧ ended false true exFinger 13 = 1 ∧ ended true true exFinger 13 = 1 := by
  decide +kernel

end Gel.Combined.Pulses
