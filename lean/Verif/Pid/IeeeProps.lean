import Verif.Pid.IeeeModel
import Verif.Float.Bound

/-!
# PID with floating point types: properties C187 and C188
-/
namespace Gel.Pid.Fp
open Gel.Ieee

variable {f : Fmt} {n d : Nat} {a c : ℤ}

namespace Spec

/-- The format has room for a controller with `n` samples, values up to `2^a` and gains up to `2^c`. -/
structure Fits (f : Fmt) (n : Nat) (a c : ℤ) : Prop where
  eb : 2 ≤ f.eb
  small : f.qmin ≤ a + 1 ∧ f.qmin ≤ a + 1 + c
  bits : (n : ℤ) + 3 ≤ 2 ^ f.p
  large : ((n : ℚ) + 3) * 2 ^ (a + 1) ≤ f.max
  largeOut : ((n : ℚ) + 3) * 2 ^ (a + 1 + c) ≤ f.max

/-- A call with finite values up to these bounds. -/
def Ok (a c : ℤ) : Op → Prop
  | .input v => Within (2 ^ a) v
  | .set (.sp v) => Within (2 ^ a) v
  | .set (.tune kp ki kd) => Within (2 ^ c) kp ∧ Within (2 ^ c) ki ∧ Within (2 ^ c) kd
  | .set _ => True

def isInput : Op → Bool
  | .input _ => true
  | .set _ => false

end Spec
open Spec

/-- What a history of such calls keeps. -/
structure Good (f : Fmt) (n d : Nat) (a c : ℤ) (p : Pid Val) : Prop where
  sp : Within (2 ^ a) p.sp
  input : Within (2 ^ a) p.input
  kp : ∃ k, p.kp = mul f k ∧ Within (2 ^ c) k
  ki : ∃ k, p.ki = mul f k ∧ Within (2 ^ c) k
  kd : ∃ k, p.kd = mul f k ∧ Within (2 ^ c) k
  hist : ∀ x ∈ p.hist, Within (2 ^ (a + 1)) x
  dhist : ∀ x ∈ p.dhist, Within (2 ^ (a + 1)) x
  len : p.hist.length = n
  dlen : p.dhist.length = d
  index : p.index < n
  dindex : p.dindex < d

theorem zero_within {B : ℚ} (h : 0 ≤ B) : Within B zero := ⟨0, rfl, by simpa using h⟩

theorem pow_succ_two (a : ℤ) : (2 : ℚ) ^ (a + 1) = 2 ^ a + 2 ^ a := by
  rw [zpow_add₀ (by norm_num)]; ring

theorem sub_within (h : Fits f n a c) {v w : Val} (hv : Within (2 ^ a) v) (hw : Within (2 ^ a) w) :
    Within (2 ^ (a + 1)) (sub f v w) := by
  have hz := two_zpow_pos (a + 1)
  have hb := h.bits
  refine add_within h.eb hv hw.neg (m := 1) (e := a + 1) ?_ h.small.1 (by simp) ?_ (le_of_eq (pow_succ_two a).symm)
  · simp only [abs_one]; omega
  · have := h.large
    have hn : (0 : ℚ) ≤ n := Nat.cast_nonneg n
    nlinarith

theorem init_good (hn : 0 < n) (hd : 0 < d) : Good f n d a c (init f n d) := by
  have ha := (two_zpow_pos a).le
  have hc := (two_zpow_pos c).le
  have ha1 := (two_zpow_pos (a + 1)).le
  refine ⟨zero_within ha, zero_within ha, ⟨_, rfl, zero_within hc⟩, ⟨_, rfl, zero_within hc⟩, ⟨_, rfl, zero_within hc⟩, ?_, ?_,
    by simp [init], by simp [init], hn, hd⟩
  · intro x hx
    rw [List.eq_of_mem_replicate hx]
    exact zero_within ha1
  · intro x hx
    rw [List.eq_of_mem_replicate hx]
    exact zero_within ha1

theorem set_good {p : Pid Val} (hn : 0 < n) (h : Good f n d a c p) (s : Setting) (hs : Ok a c (.set s)) :
    Good f n d a c (set f n p s) := by
  obtain ⟨h1, h2, h3, h4, h5, h6, h7, h8, h9, h10, h11⟩ := h
  cases s with
  | tune kp ki kd => exact ⟨h1, h2, ⟨_, rfl, hs.1⟩, ⟨_, rfl, hs.2.1⟩, ⟨_, rfl, hs.2.2⟩, h6, h7, h8, h9, h10, h11⟩
  | sp x => exact ⟨hs, h2, h3, h4, h5, h6, h7, h8, h9, h10, h11⟩
  | clear =>
    refine ⟨h1, h2, h3, h4, h5, ?_, h7, by simp [set, clear], h9, hn, h11⟩
    intro x hx
    rw [List.eq_of_mem_replicate hx]
    exact zero_within (two_zpow_pos _).le
  | _ => exact ⟨h1, h2, h3, h4, h5, h6, h7, h8, h9, h10, h11⟩

/-- What `updateSign` changes. -/
theorem updateSign_cases (n : Nat) (p : Pid Val) (e : Val) :
    (∃ s, updateSign n p e = { p with sign := s }) ∨
    (∃ s, updateSign n p e = clear n { p with sign := s }) := by
  rw [updateSign]
  by_cases h1 : p.sign ≠ (if less zero e then 1 else if less e zero then -1 else p.sign)
  · simp only [if_pos h1]
    by_cases h2 : p.auto = true
    · simp only [if_pos h2]; exact Or.inr ⟨_, rfl⟩
    · simp only [if_neg h2]; exact Or.inl ⟨_, rfl⟩
  · simp only [if_neg h1]
    exact Or.inl ⟨p.sign, rfl⟩

theorem entry_cases (p : Pid Val) (e : Val) : entry p e = none ∨ entry p e = some e ∨ entry p e = some zero := by
  rw [entry]
  split
  · split
    · exact Or.inr (Or.inl rfl)
    · exact Or.inr (Or.inr rfl)
  · split
    · split
      · exact Or.inr (Or.inl rfl)
      · exact Or.inr (Or.inr rfl)
    · exact Or.inl rfl

theorem store_ok {l : List Val} {i : Nat} (hi : i < l.length) (o : Option Val) :
    store l i o = .ok (match o with | none => l | some x => l.set i x) := by
  cases o with
  | none => rfl
  | some x => simp [store, wr, hi]

theorem mem_set_of {l : List Val} {i : Nat} {x y : Val} (h : y ∈ l.set i x) : y = x ∨ y ∈ l := by
  rcases List.mem_or_eq_of_mem_set h with h | h
  · exact Or.inr h
  · exact Or.inl h

theorem input_good {p : Pid Val} (hf : Fits f n a c) (hn : 0 < n) (hd : 0 < d) (h : Good f n d a c p) (v : Val)
    (hv : Within (2 ^ a) v) : ∃ p', addInput f n d p v = .ok p' ∧ Good f n d a c p' := by
  have hold : Within (2 ^ (a + 1)) (error f p) := sub_within hf h.sp h.input
  have herr : Within (2 ^ (a + 1)) (error f { p with input := v }) := sub_within hf h.sp hv
  have hz : Within (2 ^ (a + 1)) zero := zero_within (two_zpow_pos _).le
  have hsome : ∀ (q : Pid Val) x, entry q (error f { p with input := v }) = some x → Within (2 ^ (a + 1)) x := by
    intro q x hx
    rcases entry_cases q (error f { p with input := v }) with e | e | e <;> rw [e] at hx
    · cases hx
    · cases hx; exact herr
    · cases hx; exact hz
  have hq : ∃ q, updateSign n { p with input := v } (error f { p with input := v }) = q ∧ Good f n d a c q ∧ q.first = p.first := by
    rcases updateSign_cases n { p with input := v } (error f { p with input := v }) with ⟨s, e⟩ | ⟨s, e⟩
    · exact ⟨_, e, ⟨h.sp, hv, h.kp, h.ki, h.kd, h.hist, h.dhist, h.len, h.dlen, h.index, h.dindex⟩, rfl⟩
    · refine ⟨_, e, ⟨h.sp, hv, h.kp, h.ki, h.kd, ?_, h.dhist, by simp [clear], h.dlen, hn, h.dindex⟩, rfl⟩
      intro x hx
      rw [List.eq_of_mem_replicate hx]
      exact hz
  obtain ⟨q, eq, hgq, hfirst⟩ := hq
  rw [addInput]
  simp only [eq]
  rw [store_ok (by rw [hgq.len]; exact hgq.index), Res.ok_bind]
  generalize hh : (match entry q (error f { p with input := v }) with | none => q.hist | some x => q.hist.set q.index x) = l
  have hl : ∀ x ∈ l, Within (2 ^ (a + 1)) x := by
    intro x hx
    rw [← hh] at hx
    cases e : entry q (error f { p with input := v }) with
    | none => rw [e] at hx; exact hgq.hist x hx
    | some y =>
      rw [e] at hx
      rcases mem_set_of hx with rfl | hx
      · exact hsome q x e
      · exact hgq.hist x hx
  have hll : l.length = n := by
    rw [← hh]
    cases entry q (error f { p with input := v }) with
    | none => exact hgq.len
    | some y => simpa using hgq.len
  rw [addOld]
  cases hff : q.first with
  | false =>
    exact ⟨_, rfl, hgq.sp, hgq.input, hgq.kp, hgq.ki, hgq.kd, hl, hgq.dhist, hll, hgq.dlen, Nat.mod_lt _ hn, hgq.dindex⟩
  | true =>
    rw [if_pos rfl, wr, if_pos (show q.dindex < q.dhist.length by rw [hgq.dlen]; exact hgq.dindex), Res.ok_bind]
    refine ⟨_, rfl, hgq.sp, hgq.input, hgq.kp, hgq.ki, hgq.kd, hl, ?_, hll, by simpa using hgq.dlen, Nat.mod_lt _ hn,
      Nat.mod_lt _ hd⟩
    intro x hx
    rcases mem_set_of hx with rfl | hx
    · exact hold
    · exact hgq.dhist x hx

theorem run_good (hf : Fits f n a c) (hn : 0 < n) (hd : 0 < d) (os : List Op) : ∀ p, Good f n d a c p → (∀ o ∈ os, Ok a c o) →
    ∃ p', run f n d p os = .ok p' ∧ Good f n d a c p' := by
  induction os with
  | nil => exact fun p h _ => ⟨p, rfl, h⟩
  | cons o os ih =>
    intro p h ho
    obtain ⟨q, e, hq⟩ : ∃ q, step f n d p o = .ok q ∧ Good f n d a c q := by
      cases o with
      | input v => exact input_good hf hn hd h v (ho (.input v) (by simp))
      | set s => exact ⟨_, rfl, set_good hn h s (ho (.set s) (by simp))⟩
    obtain ⟨p', e', hp'⟩ := ih q hq fun x hx => ho x (by simp [hx])
    exact ⟨p', by rw [run, e, Res.ok_bind, e'], hp'⟩

theorem sum_within (hf : Fits f n a c) (l : List Val) (hl : l.length = n) (hw : ∀ x ∈ l, Within (2 ^ (a + 1)) x) :
    ∃ s, sumFrom f l n 0 zero = .ok s ∧ Within (n * 2 ^ (a + 1)) s := by
  have key : ∀ (k i : Nat) (acc : Val), i + k = n → Within (i * 2 ^ (a + 1)) acc →
      ∃ s, sumFrom f l k i acc = .ok s ∧ Within (n * 2 ^ (a + 1)) s := by
    intro k
    induction k with
    | zero =>
      intro i acc hi h
      have : i = n := by omega
      subst this
      exact ⟨acc, rfl, h⟩
    | succ k ih =>
      intro i acc hi h
      have hlt : i < l.length := by omega
      rw [sumFrom, rd, List.getElem?_eq_getElem hlt, Res.ok_bind]
      refine ih (i + 1) _ (by omega) ?_
      have hb := hf.bits
      refine add_within hf.eb h (hw _ (List.getElem_mem hlt)) (m := (i + 1 : Nat)) (e := a + 1) ?_ hf.small.1 (by push_cast; ring) ?_ ?_
      · rw [abs_of_nonneg (by omega)]
        omega
      · have hz := two_zpow_pos (a + 1)
        have hc : ((i + 1 : Nat) : ℚ) ≤ n + 3 := by
          have : i + 1 ≤ n + 3 := by omega
          exact_mod_cast this
        exact (mul_le_mul_of_nonneg_right hc hz.le).trans hf.large
      · push_cast
        linarith
  exact key n 0 zero (by omega) (by simpa using zero_within (le_refl (0 : ℚ)))

/-- **C187.** With bounded setpoints, inputs and gains, every history of calls gives finite outputs within a fixed bound: no infinity,
no NaN, no access outside the arrays. -/
theorem C187_finite (hf : Fits f n a c) (hn : 0 < n) (hd : 0 < d) (os : List Op) (ho : ∀ o ∈ os, Ok a c o) :
    ∃ p v, run f n d (init f n d) os = .ok p ∧ compute f n d p = .ok v ∧ Within ((n + 3) * 2 ^ (a + 1 + c)) v := by
  obtain ⟨p, e, hp⟩ := run_good hf hn hd os _ (init_good hn hd) ho
  obtain ⟨s, es, hs⟩ := sum_within hf p.hist hp.len hp.hist
  obtain ⟨kp, ekp, hkp⟩ := hp.kp
  obtain ⟨ki, eki, hki⟩ := hp.ki
  obtain ⟨kd, ekd, hkd⟩ := hp.kd
  have hb := hf.bits
  have hz := two_zpow_pos (a + 1 + c)
  have hz1 := two_zpow_pos (a + 1)
  have hmul : ∀ r : ℚ, 2 ^ c * (r * 2 ^ (a + 1)) = r * 2 ^ (a + 1 + c) := by
    intro r
    rw [zpow_add₀ (by norm_num) (a + 1) c]
    ring
  have hn0 : (0 : ℚ) ≤ n := Nat.cast_nonneg n
  have hbound : ∀ r : ℚ, r ≤ n + 3 → r * 2 ^ (a + 1 + c) ≤ f.max := fun r hr =>
    (mul_le_mul_of_nonneg_right hr hz.le).trans hf.largeOut
  have herr : Within (1 * 2 ^ (a + 1)) (error f p) := by
    rw [one_mul]; exact sub_within hf hp.sp hp.input
  have hP : Within (1 * 2 ^ (a + 1 + c)) (computeP f p) := by
    rw [computeP, ekp]
    exact mul_within hf.eb hkp herr (m := 1) (e := a + 1 + c) (by simp only [abs_one]; omega) hf.small.2 (by simp)
      (hbound 1 (by linarith)) (le_of_eq (hmul 1))
  have hI : Within (n * 2 ^ (a + 1 + c)) (p.ki s) := by
    rw [eki]
    exact mul_within hf.eb hki hs (m := n) (e := a + 1 + c) (by rw [abs_of_nonneg (by omega)]; omega) hf.small.2 (by simp)
      (hbound n (by linarith)) (le_of_eq (hmul n))
  have hD : ∃ k, computeD f d p = .ok k ∧ Within (2 * 2 ^ (a + 1 + c)) k := by
    have hzero : Within (2 * 2 ^ (a + 1 + c)) zero := zero_within (by positivity)
    rw [computeD]
    by_cases h0 : p.dsize = 0
    · rw [if_pos h0]; exact ⟨_, rfl, hzero⟩
    · rw [if_neg h0]
      have hlt : (if p.dsize = d then p.dindex else 0) < p.dhist.length := by
        rw [hp.dlen]; split
        · exact hp.dindex
        · exact hd
      rw [rd, List.getElem?_eq_getElem hlt, Res.ok_bind]
      by_cases ht : p.dthr = true ∧ less p.dlow (absF (error f p)) = true
      · rw [if_pos ht]; exact ⟨_, rfl, hzero⟩
      · rw [if_neg ht, ekd]
        refine ⟨_, rfl, ?_⟩
        have hx := hp.dhist _ (List.getElem_mem hlt)
        have hs : Within (2 * 2 ^ (a + 1)) (sub f (error f p) p.dhist[if p.dsize = d then p.dindex else 0]) := by
          refine add_within hf.eb herr hx.neg (m := 2) (e := a + 1) (by rw [abs_of_nonneg (by omega)]; omega) hf.small.1 (by simp) ?_
            (le_of_eq (by ring))
          exact (mul_le_mul_of_nonneg_right (by linarith) hz1.le).trans hf.large
        exact mul_within hf.eb hkd hs (m := 2) (e := a + 1 + c) (by rw [abs_of_nonneg (by omega)]; omega) hf.small.2 (by simp)
          (hbound 2 (by linarith)) (le_of_eq (hmul 2))
  obtain ⟨k, eD, hk⟩ := hD
  have hPI : Within ((n + 1) * 2 ^ (a + 1 + c)) (add f (computeP f p) (p.ki s)) :=
    add_within hf.eb hP hI (m := n + 1) (e := a + 1 + c) (by rw [abs_of_nonneg (by omega)]; omega) hf.small.2 (by push_cast; ring)
      (hbound _ (by linarith)) (le_of_eq (by ring))
  refine ⟨p, add f (add f (computeP f p) (p.ki s)) k, e, ?_, ?_⟩
  · simp only [compute, computeI, es, eD, Res.ok_bind, Res.pure_eq]
  · exact add_within hf.eb hPI hk (m := n + 3) (e := a + 1 + c) (by rw [abs_of_nonneg (by omega)]; omega) hf.small.2
      (by push_cast; ring) (hbound _ (le_refl _)) (le_of_eq (by ring))

/-- A `float` controller with 200 samples, values up to 2^20 and gains up to 2^10 has room. -/
example : Fits binary32 200 20 10 := by
  refine ⟨by decide, by decide, by decide, ?_, ?_⟩ <;> norm_num [Fmt.max, binary32, Fmt.p, Fmt.qmin]

/-! ## C188 -/

structure Shape (n d : Nat) (p : Pid Val) : Prop where
  len : p.hist.length = n
  dlen : p.dhist.length = d
  index : p.index < n
  dindex : p.dindex < d

theorem Good.shape {p : Pid Val} (h : Good f n d a c p) : Shape n d p := ⟨h.len, h.dlen, h.index, h.dindex⟩

/-- The history with an entry stored at the index, if there is one. -/
def stored (q : Pid Val) (e : Val) : List Val :=
  match entry q e with
  | none => q.hist
  | some x => q.hist.set q.index x

theorem updateSign_keeps (n : Nat) (p : Pid Val) (e : Val) : (updateSign n p e).sp = p.sp ∧ (updateSign n p e).input = p.input ∧
    (updateSign n p e).kp = p.kp ∧ (updateSign n p e).ki = p.ki ∧ (updateSign n p e).kd = p.kd ∧
    (updateSign n p e).dhist = p.dhist ∧ (updateSign n p e).dindex = p.dindex ∧ (updateSign n p e).first = p.first ∧
    (updateSign n p e).lowEn = p.lowEn ∧ (updateSign n p e).highEn = p.highEn ∧
    (((updateSign n p e).hist = p.hist ∧ (updateSign n p e).index = p.index) ∨
      ((updateSign n p e).hist = List.replicate n zero ∧ (updateSign n p e).index = 0)) := by
  rcases updateSign_cases n p e with ⟨s, h⟩ | ⟨s, h⟩ <;> rw [h]
  · exact ⟨rfl, rfl, rfl, rfl, rfl, rfl, rfl, rfl, rfl, rfl, Or.inl ⟨rfl, rfl⟩⟩
  · exact ⟨rfl, rfl, rfl, rfl, rfl, rfl, rfl, rfl, rfl, rfl, Or.inr ⟨rfl, rfl⟩⟩

/-- What an input changes, whatever its value. -/
theorem addInput_desc (hn : 0 < n) (hd : 0 < d) {p : Pid Val} (h : Shape n d p) (v : Val) :
    ∃ q p', q = updateSign n { p with input := v } (error f { p with input := v }) ∧ addInput f n d p v = .ok p' ∧ Shape n d p' ∧
      p'.sp = p.sp ∧ p'.input = v ∧ p'.kp = p.kp ∧ p'.ki = p.ki ∧ p'.kd = p.kd ∧ p'.first = true ∧
      p'.lowEn = p.lowEn ∧ p'.highEn = p.highEn ∧
      p'.hist = stored q (error f { p with input := v }) ∧ p'.index = (q.index + 1) % n ∧ q.index < n ∧
      ((p.first = false ∧ p'.dhist = p.dhist ∧ p'.dindex = p.dindex) ∨
        (p.first = true ∧ p'.dhist = p.dhist.set p.dindex (error f p) ∧ p'.dindex = (p.dindex + 1) % d)) := by
  obtain ⟨k1, k2, k3, k4, k5, k6, k7, k8, k9, k10, k11⟩ := updateSign_keeps n { p with input := v } (error f { p with input := v })
  generalize hq : updateSign n { p with input := v } (error f { p with input := v }) = q at *
  simp only at k1 k2 k3 k4 k5 k6 k7 k8 k9 k10 k11
  have hqi : q.index < n := by
    rcases k11 with ⟨-, e⟩ | ⟨-, e⟩ <;> rw [e]
    · exact h.index
    · exact hn
  have hql : q.hist.length = n := by
    rcases k11 with ⟨e, -⟩ | ⟨e, -⟩ <;> rw [e]
    · exact h.len
    · simp
  have hst : store q.hist q.index (entry q (error f { p with input := v })) = .ok (stored q (error f { p with input := v })) := by
    rw [store_ok (by rw [hql]; exact hqi), stored]
  have hsl : (stored q (error f { p with input := v })).length = n := by
    rw [stored]
    cases entry q (error f { p with input := v }) with
    | none => exact hql
    | some y => simpa using hql
  refine ⟨q, ?_⟩
  rw [addInput]
  simp only [hq]
  rw [hst, Res.ok_bind, addOld]
  cases hf : p.first with
  | false =>
    have hf' : q.first = false := k8.trans hf
    simp only [hf', Bool.false_eq_true, if_false]
    exact ⟨_, trivial, rfl, ⟨hsl, k6 ▸ h.dlen, Nat.mod_lt _ hn, k7 ▸ h.dindex⟩, k1, k2, k3, k4, k5, rfl, k9, k10, rfl, rfl, hqi,
      Or.inl ⟨trivial, k6, k7⟩⟩
  | true =>
    have hf' : q.first = true := k8.trans hf
    have hw : wr q.dhist q.dindex (error f p) = .ok (q.dhist.set q.dindex (error f p)) := by
      rw [wr, if_pos (by rw [k6, k7, h.dlen]; exact h.dindex)]
    simp only [hf', if_true, hw, Res.ok_bind]
    refine ⟨_, trivial, rfl, ⟨hsl, ?_, Nat.mod_lt _ hn, Nat.mod_lt _ hd⟩, k1, k2, k3, k4, k5, rfl, k9, k10, rfl, rfl, hqi,
      Or.inr ⟨trivial, ?_, ?_⟩⟩
    · simp only [List.length_set, k6, h.dlen]
    · simp only [k6, k7]
    · simp only [k7]

theorem set_shape (hn : 0 < n) {p : Pid Val} (h : Shape n d p) (s : Setting) : Shape n d (set f n p s) := by
  obtain ⟨h1, h2, h3, h4⟩ := h
  cases s with
  | clear => exact ⟨by simp [set, clear], h2, hn, h4⟩
  | _ => exact ⟨h1, h2, h3, h4⟩

theorem run_shape (hn : 0 < n) (hd : 0 < d) (os : List Op) : ∀ p, Shape n d p → ∃ p', run f n d p os = .ok p' ∧ Shape n d p' := by
  induction os with
  | nil => exact fun p h => ⟨p, rfl, h⟩
  | cons o os ih =>
    intro p h
    obtain ⟨q, e, hq⟩ : ∃ q, step f n d p o = .ok q ∧ Shape n d q := by
      cases o with
      | input v =>
        obtain ⟨_, p', -, e, hs, -⟩ := addInput_desc (f := f) hn hd h v
        exact ⟨p', e, hs⟩
      | set s => exact ⟨_, rfl, set_shape hn h s⟩
    obtain ⟨p', e', hp'⟩ := ih q hq
    exact ⟨p', by rw [run, e, Res.ok_bind, e'], hp'⟩

theorem less_nan (v : Val) : less v .nan = false ∧ less .nan v = false := by
  constructor <;> cases v <;> (try rename_i x; cases x) <;> rfl

theorem entry_ne_nan (p : Pid Val) (e : Val) : entry p e ≠ some .nan := by
  intro h
  by_cases he : e = .nan
  · subst he
    simp [entry, (less_nan zero).1, (less_nan zero).2] at h
  · rcases entry_cases p e with h' | h' | h' <;> rw [h'] at h <;> simp [zero] at h
    exact he h

/-- **C188.** No NaN ever gets into the integral history, whatever the inputs, the setpoints and the gains are. -/
theorem C188_history (hn : 0 < n) (hd : 0 < d) (os : List Op) :
    ∃ p, run f n d (init f n d) os = .ok p ∧ ∀ x ∈ p.hist, x ≠ .nan := by
  have key : ∀ (os : List Op) (p : Pid Val), Shape n d p → (∀ x ∈ p.hist, x ≠ .nan) →
      ∃ p', run f n d p os = .ok p' ∧ ∀ x ∈ p'.hist, x ≠ .nan := by
    intro os
    induction os with
    | nil => exact fun p _ h => ⟨p, rfl, h⟩
    | cons o os ih =>
      intro p h hx
      have hrep : ∀ x ∈ List.replicate n zero, x ≠ .nan := by
        intro x hx
        rw [List.eq_of_mem_replicate hx]
        exact fun h => Val.noConfusion h
      obtain ⟨p1, e, h1, hx1⟩ : ∃ p1, step f n d p o = .ok p1 ∧ Shape n d p1 ∧ ∀ x ∈ p1.hist, x ≠ .nan := by
        cases o with
        | set s =>
          refine ⟨_, rfl, set_shape hn h s, ?_⟩
          cases s with
          | clear => exact hrep
          | _ => exact hx
        | input v =>
          obtain ⟨q, p', eq, e, hs, -, -, -, -, -, -, -, -, eh, -, -, -⟩ := addInput_desc (f := f) hn hd h v
          refine ⟨p', e, hs, ?_⟩
          have hq : ∀ x ∈ q.hist, x ≠ .nan := by
            have := (updateSign_keeps n { p with input := v } (error f { p with input := v })).2.2.2.2.2.2.2.2.2.2
            rw [← eq] at this
            rcases this with ⟨e, -⟩ | ⟨e, -⟩ <;> rw [e]
            · exact hx
            · exact hrep
          intro x hx'
          rw [eh, stored] at hx'
          cases ee : entry q (error f { p with input := v }) with
          | none => rw [ee] at hx'; exact hq x hx'
          | some y =>
            rw [ee] at hx'
            rcases mem_set_of hx' with rfl | hx'
            · rintro rfl
              exact entry_ne_nan _ _ ee
            · exact hq x hx'
      obtain ⟨p', e', hp'⟩ := ih p1 h1 hx1
      exact ⟨p', by rw [run, e, Res.ok_bind, e'], hp'⟩
  refine key os _ ⟨by simp [init], by simp [init], hn, hd⟩ ?_
  intro x hx
  rw [List.eq_of_mem_replicate hx]
  exact fun h => Val.noConfusion h

namespace Spec

/-- Every input of the history is different from the setpoint at that time, in the sense that the error is not zero. -/
def Nonzero (f : Fmt) (n d : Nat) : Pid Val → List Op → Prop
  | _, [] => True
  | p, .input v :: os => error f { p with input := v } ≠ zero ∧ ∀ q, addInput f n d p v = .ok q → Nonzero f n d q os
  | p, .set s :: os => Nonzero f n d (set f n p s) os

end Spec

/-- After one input of any value and `j` good ones: what may still be bad, and where. -/
structure Rec (f : Fmt) (n d : Nat) (a c : ℤ) (nz : Bool) (j : Nat) (p : Pid Val) : Prop where
  sp : Within (2 ^ a) p.sp
  input : 0 < j → Within (2 ^ a) p.input
  kp : ∃ k, p.kp = mul f k ∧ Within (2 ^ c) k
  ki : ∃ k, p.ki = mul f k ∧ Within (2 ^ c) k
  kd : ∃ k, p.kd = mul f k ∧ Within (2 ^ c) k
  first : p.first = true
  shape : Shape n d p
  hist : ∀ k x, p.hist[k]? = some x → Within (2 ^ (a + 1)) x ∨ (nz = true ∧ j < n ∧ p.index = (k + 1 + j) % n)
  dhist : ∀ k x, p.dhist[k]? = some x → Within (2 ^ (a + 1)) x ∨ (0 < j ∧ j ≤ d ∧ p.dindex = (k + j) % d)

theorem getElem?_set_cases {l : List Val} {i k : Nat} {x y : Val} (h : (l.set i x)[k]? = some y) :
    (k = i ∧ y = x) ∨ (k ≠ i ∧ l[k]? = some y) := by
  by_cases e : k = i
  · subst e
    rw [List.getElem?_set] at h
    simp only [if_true] at h
    split at h
    · exact Or.inl ⟨rfl, (Option.some.inj h).symm⟩
    · cases h
  · rw [List.getElem?_set_ne (Ne.symm e)] at h
    exact Or.inr ⟨e, h⟩

/-- The first, bad input. -/
theorem rec_start (hf : Fits f n a c) (hn : 0 < n) (hd : 0 < d) {p : Pid Val} (h : Good f n d a c p) (v : Val) (nz : Bool)
    (hnz : nz = true ∨ v = .nan) : ∃ p', addInput f n d p v = .ok p' ∧ Rec f n d a c nz 0 p' := by
  obtain ⟨q, p', eq, e, hs, e1, e2, e3, e4, e5, e6, -, -, eh, ei, hqi, ed⟩ := addInput_desc (f := f) hn hd h.shape v
  have hz : Within (2 ^ (a + 1)) zero := zero_within (two_zpow_pos _).le
  have hq : ∀ x ∈ q.hist, Within (2 ^ (a + 1)) x := by
    have := (updateSign_keeps n { p with input := v } (error f { p with input := v })).2.2.2.2.2.2.2.2.2.2
    rw [← eq] at this
    rcases this with ⟨e, -⟩ | ⟨e, -⟩ <;> rw [e]
    · exact h.hist
    · intro x hx
      rw [List.eq_of_mem_replicate hx]
      exact hz
  refine ⟨p', e, e1 ▸ h.sp, by simp, e3 ▸ h.kp, e4 ▸ h.ki, e5 ▸ h.kd, e6, hs, ?_, ?_⟩
  · intro k x hx
    rw [eh, stored] at hx
    cases ee : entry q (error f { p with input := v }) with
    | none =>
      rw [ee] at hx
      exact Or.inl (hq x (List.mem_of_getElem? hx))
    | some y =>
      rw [ee] at hx
      rcases getElem?_set_cases hx with ⟨rfl, rfl⟩ | ⟨-, hx⟩
      · rcases hnz with hnz | rfl
        · exact Or.inr ⟨hnz, hn, ei⟩
        · exfalso
          have : error f { p with input := .nan } = .nan := by
            obtain ⟨x, ex, -⟩ := h.sp
            simp [error, sub, ex, neg, add]
          rw [this] at ee
          simp [entry, (less_nan zero).1, (less_nan zero).2] at ee
      · exact Or.inl (hq x (List.mem_of_getElem? hx))
  · intro k x hx
    refine Or.inl ?_
    rcases ed with ⟨-, ed, -⟩ | ⟨-, ed, -⟩ <;> rw [ed] at hx
    · exact h.dhist x (List.mem_of_getElem? hx)
    · rcases getElem?_set_cases hx with ⟨-, rfl⟩ | ⟨-, hx⟩
      · exact sub_within hf h.sp h.input
      · exact h.dhist x (List.mem_of_getElem? hx)

/-- A good one. -/
theorem rec_input (hf : Fits f n a c) (hn : 0 < n) (hd : 0 < d) {p : Pid Val} {nz : Bool} {j : Nat} (h : Rec f n d a c nz j p) (v : Val)
    (hv : Within (2 ^ a) v) (he : nz = true → error f { p with input := v } ≠ zero) :
    ∃ p', addInput f n d p v = .ok p' ∧ Rec f n d a c nz (j + 1) p' := by
  obtain ⟨q, p', eq, e, hs, e1, e2, e3, e4, e5, e6, -, -, eh, ei, hqi, ed⟩ := addInput_desc (f := f) hn hd h.shape v
  have hz : Within (2 ^ (a + 1)) zero := zero_within (two_zpow_pos _).le
  have herr : Within (2 ^ (a + 1)) (error f { p with input := v }) := sub_within hf h.sp hv
  have hk := (updateSign_keeps n { p with input := v } (error f { p with input := v })).2.2.2.2.2.2.2.2.2.2
  rw [← eq] at hk
  have hentry : ∀ y, entry q (error f { p with input := v }) = some y → Within (2 ^ (a + 1)) y := by
    intro y hy
    rcases entry_cases q (error f { p with input := v }) with e | e | e <;> rw [e] at hy
    · cases hy
    · cases hy; exact herr
    · cases hy; exact hz
  have hsome : nz = true → entry q (error f { p with input := v }) ≠ none := by
    intro hnz hnone
    obtain ⟨x, ex, -⟩ := herr
    rw [ex] at hnone
    have hx0 : x ≠ 0 := by
      rintro rfl
      exact he hnz ex
    rcases lt_or_gt_of_ne hx0 with hx | hx
    · have h1 : less zero (.fin x) = false := by simp [less, zero, hx.le]
      have h2 : less (.fin x) zero = true := by simp [less, zero, hx]
      simp only [entry, h1, h2, if_true, Bool.false_eq_true, if_false] at hnone
      split at hnone <;> cases hnone
    · have h1 : less zero (.fin x) = true := by simp [less, zero, hx]
      simp only [entry, h1, if_true] at hnone
      split at hnone <;> cases hnone
  refine ⟨p', e, e1 ▸ h.sp, fun _ => e2 ▸ hv, e3 ▸ h.kp, e4 ▸ h.ki, e5 ▸ h.kd, e6, hs, ?_, ?_⟩
  · intro k x hx
    rw [eh, stored] at hx
    rcases hk with ⟨hh, hi⟩ | ⟨hh, hi⟩
    · cases ee : entry q (error f { p with input := v }) with
      | none =>
        rw [ee, hh] at hx
        rcases h.hist k x hx with h1 | ⟨h1, -, -⟩
        · exact Or.inl h1
        · exact absurd ee (hsome h1)
      | some y =>
        rw [ee] at hx
        rcases getElem?_set_cases hx with ⟨-, rfl⟩ | ⟨hne, hx⟩
        · exact Or.inl (hentry _ ee)
        · rw [hh] at hx
          rcases h.hist k x hx with h1 | ⟨h1, h2, h3⟩
          · exact Or.inl h1
          · refine Or.inr ⟨h1, ?_, ?_⟩
            · rcases Nat.lt_or_ge (j + 1) n with h4 | h4
              · exact h4
              · exfalso
                apply hne
                have hkl : k < p.hist.length := (List.getElem?_eq_some_iff.1 hx).1
                rw [h.shape.len] at hkl
                have : k + 1 + j = k + n := by omega
                rw [hi]
                simp only [h3, this, Nat.add_mod_right, Nat.mod_eq_of_lt hkl]
            · rw [ei, hi]
              simp only [h3, Nat.mod_add_mod]
              rfl
    · refine Or.inl ?_
      have hq : ∀ x ∈ q.hist, Within (2 ^ (a + 1)) x := by
        rw [hh]
        intro x hx
        rw [List.eq_of_mem_replicate hx]
        exact hz
      cases ee : entry q (error f { p with input := v }) with
      | none => rw [ee] at hx; exact hq x (List.mem_of_getElem? hx)
      | some y =>
        rw [ee] at hx
        rcases getElem?_set_cases hx with ⟨-, rfl⟩ | ⟨-, hx⟩
        · exact hentry _ ee
        · exact hq x (List.mem_of_getElem? hx)
  · intro k x hx
    rcases ed with ⟨hfst, -, -⟩ | ⟨-, ed, edi⟩
    · rw [h.first] at hfst
      cases hfst
    · rw [ed] at hx
      rcases getElem?_set_cases hx with ⟨rfl, rfl⟩ | ⟨hne, hx⟩
      · rcases Nat.eq_zero_or_pos j with rfl | hj
        · exact Or.inr ⟨by omega, hd, edi⟩
        · exact Or.inl (sub_within hf h.sp (h.input hj))
      · rcases h.dhist k x hx with h1 | ⟨h1, h2, h3⟩
        · exact Or.inl h1
        · refine Or.inr ⟨by omega, ?_, ?_⟩
          · rcases Nat.lt_or_ge j d with h4 | h4
            · omega
            · exfalso
              apply hne
              have hkl : k < p.dhist.length := (List.getElem?_eq_some_iff.1 hx).1
              rw [h.shape.dlen] at hkl
              have : j = d := by omega
              rw [h3, this, Nat.add_mod_right, Nat.mod_eq_of_lt hkl]
          · rw [edi, h3, Nat.mod_add_mod]
            rfl

theorem rec_set (hn : 0 < n) {p : Pid Val} {nz : Bool} {j : Nat} (h : Rec f n d a c nz j p) (s : Setting) (hs : Ok a c (.set s)) :
    Rec f n d a c nz j (set f n p s) := by
  have hsh := set_shape (f := f) hn h.shape s
  obtain ⟨h1, h2, h3, h4, h5, h6, h7, h8, h9⟩ := h
  cases s with
  | tune kp ki kd => exact ⟨h1, h2, ⟨_, rfl, hs.1⟩, ⟨_, rfl, hs.2.1⟩, ⟨_, rfl, hs.2.2⟩, h6, hsh, h8, h9⟩
  | sp x => exact ⟨hs, h2, h3, h4, h5, h6, hsh, h8, h9⟩
  | clear =>
    refine ⟨h1, h2, h3, h4, h5, h6, hsh, ?_, h9⟩
    intro k x hx
    rw [List.eq_of_mem_replicate (List.mem_of_getElem? hx)]
    exact Or.inl (zero_within (two_zpow_pos _).le)
  | _ => exact ⟨h1, h2, h3, h4, h5, h6, hsh, h8, h9⟩

theorem rec_run (hf : Fits f n a c) (hn : 0 < n) (hd : 0 < d) {nz : Bool} (os : List Op) : ∀ (p : Pid Val) (j : Nat), Rec f n d a c nz j p →
    (∀ o ∈ os, Ok a c o) → (nz = true → Nonzero f n d p os) →
    ∃ p', run f n d p os = .ok p' ∧ Rec f n d a c nz (j + os.countP isInput) p' := by
  induction os with
  | nil => exact fun p j h _ _ => ⟨p, rfl, h⟩
  | cons o os ih =>
    intro p j h ho hnz
    cases o with
    | input v =>
      obtain ⟨p1, e1, h1⟩ := rec_input hf hn hd h v (ho (.input v) (by simp)) (fun hh => (hnz hh).1)
      obtain ⟨p2, e2, h2⟩ := ih p1 (j + 1) h1 (fun o h => ho o (by simp [h])) (fun hh => (hnz hh).2 p1 e1)
      refine ⟨p2, by rw [run, step, e1, Res.ok_bind, e2], ?_⟩
      rw [List.countP_cons_of_pos (by rfl)]
      rwa [show j + (os.countP isInput + 1) = j + 1 + os.countP isInput by omega]
    | set s =>
      obtain ⟨p2, e2, h2⟩ := ih _ j (rec_set hn h s (ho (.set s) (by simp))) (fun o h => ho o (by simp [h])) (fun hh => hnz hh)
      refine ⟨p2, by rw [run, step, Res.ok_bind, e2], ?_⟩
      rwa [List.countP_cons_of_neg (by simp [isInput])]

theorem rec_end {p : Pid Val} {nz : Bool} {j : Nat} (h : Rec f n d a c nz j p) (hj : d < j) (hjn : nz = true → n ≤ j) :
    Good f n d a c p := by
  refine ⟨h.sp, h.input (by omega), h.kp, h.ki, h.kd, ?_, ?_, h.shape.len, h.shape.dlen, h.shape.index, h.shape.dindex⟩
  · intro x hx
    obtain ⟨k, hk⟩ := List.getElem?_of_mem hx
    rcases h.hist k x hk with h1 | ⟨h1, h2, -⟩
    · exact h1
    · have := hjn h1; omega
  · intro x hx
    obtain ⟨k, hk⟩ := List.getElem?_of_mem hx
    rcases h.dhist k x hk with h1 | ⟨-, h2, -⟩
    · exact h1
    · omega

/-- **C188.** A controller in good state that gets a NaN is in good state again after `d + 1` more inputs within the bounds, with any
settings in between; so its outputs are those of C187. -/
theorem C188_nan (hf : Fits f n a c) (hn : 0 < n) (hd : 0 < d) {p : Pid Val} (h : Good f n d a c p) (os : List Op)
    (ho : ∀ o ∈ os, Ok a c o) (hc : d < os.countP isInput) :
    ∃ p', run f n d p (.input .nan :: os) = .ok p' ∧ Good f n d a c p' := by
  obtain ⟨p1, e1, h1⟩ := rec_start hf hn hd h .nan false (Or.inr rfl)
  obtain ⟨p2, e2, h2⟩ := rec_run hf hn hd os p1 0 h1 ho (by simp)
  exact ⟨p2, by rw [run, step, e1, Res.ok_bind, e2], rec_end h2 (by omega) (by simp)⟩

/-- **C188, partial.** After an input of any value, an infinity too, it is in good state again after `n` and `d + 1` more inputs within
the bounds, none of which may be equal to the setpoint. Missing: inputs equal to the setpoint (`C188_inf_wrong`). -/
theorem C188_any_partial (hf : Fits f n a c) (hn : 0 < n) (hd : 0 < d) {p : Pid Val} (h : Good f n d a c p) (v : Val) (os : List Op)
    (ho : ∀ o ∈ os, Ok a c o) (hc : d < os.countP isInput) (hcn : n ≤ os.countP isInput)
    (hnz : ∀ q, addInput f n d p v = .ok q → Nonzero f n d q os) :
    ∃ p', run f n d p (.input v :: os) = .ok p' ∧ Good f n d a c p' := by
  obtain ⟨p1, e1, h1⟩ := rec_start hf hn hd h v true (Or.inl rfl)
  obtain ⟨p2, e2, h2⟩ := rec_run hf hn hd os p1 0 h1 ho (fun _ => hnz p1 e1)
  exact ⟨p2, by rw [run, step, e1, Res.ok_bind, e2], rec_end h2 (by omega) (by intro; omega)⟩

namespace Spec
def Finite (v : Val) : Prop := ∃ x, v = .fin x
end Spec

theorem add_finite {v w : Val} (h : Finite (add f v w)) : Finite v ∧ Finite w := by
  obtain ⟨x, hx⟩ := h
  cases v with
  | fin a => cases w with
    | fin b => exact ⟨⟨a, rfl⟩, ⟨b, rfl⟩⟩
    | inf t => simp [add] at hx
    | nan => simp [add] at hx
  | inf s => cases w with
    | fin b => simp [add] at hx
    | inf t => simp only [add] at hx; split at hx <;> cases hx
    | nan => simp [add] at hx
  | nan => cases w <;> simp [add] at hx

theorem mul_finite {v w : Val} (h : Finite (mul f v w)) : Finite w := by
  obtain ⟨x, hx⟩ := h
  cases w with
  | fin b => exact ⟨b, rfl⟩
  | inf t =>
    cases v with
    | fin a => simp only [mul] at hx; split at hx <;> cases hx
    | inf s => simp [mul] at hx
    | nan => simp [mul] at hx
  | nan => cases v <;> simp [mul] at hx

theorem sum_finite (l : List Val) : ∀ (k i : Nat) (acc s : Val), sumFrom f l k i acc = .ok s → Finite s →
    Finite acc ∧ ∀ j x, i ≤ j → j < i + k → l[j]? = some x → Finite x := by
  intro k
  induction k with
  | zero =>
    intro i acc s h hs
    cases h
    exact ⟨hs, fun j x h1 h2 => by omega⟩
  | succ k ih =>
    intro i acc s h hs
    rw [sumFrom, Res.bind_eq_ok] at h
    obtain ⟨y, hy, h⟩ := h
    obtain ⟨h1, h2⟩ := ih _ _ _ h hs
    obtain ⟨h3, h4⟩ := add_finite h1
    refine ⟨h3, fun j x hj1 hj2 hx => ?_⟩
    by_cases e : j = i
    · subst e
      rw [rd, hx] at hy
      cases hy
      exact h4
    · exact h2 j x (by omega) (by omega) hx

/-- An infinite entry makes the output infinite or NaN, for all gains. -/
theorem compute_infinite {p : Pid Val} (hs : Shape n d p) (hk : ∃ k, p.ki = mul f k) {i : Nat} {x : Val} (hx : p.hist[i]? = some x)
    (hnf : ¬ Finite x) {v : Val} (hv : compute f n d p = .ok v) : ¬ Finite v := by
  intro hfin
  rw [compute, Res.bind_eq_ok] at hv
  obtain ⟨it, hi, hv⟩ := hv
  rw [Res.bind_eq_ok] at hv
  obtain ⟨k, -, hv⟩ := hv
  cases hv
  have h1 := (add_finite (add_finite hfin).1).2
  rw [computeI, Res.bind_eq_ok] at hi
  obtain ⟨s, es, hi⟩ := hi
  cases hi
  obtain ⟨kk, ek⟩ := hk
  rw [ek] at h1
  have h2 := sum_finite p.hist n 0 zero s es (mul_finite h1)
  refine hnf (h2.2 i x (by omega) ?_ hx)
  have := (List.getElem?_eq_some_iff.1 hx).1
  rw [hs.len] at this
  omega

/-- **C188 is false of the code** for infinite inputs: one of them, without thresholds, and any number of inputs equal to the setpoint
after it: the output is infinite or NaN for ever, even with a gain of zero. -/
theorem C188_inf_wrong (hf : Fits f n a c) (hn : 0 < n) (hd : 0 < d) {p : Pid Val} (h : Good f n d a c p) (hl : p.lowEn = false) (hh : p.highEn = false)
    (s : Bool) (m : Nat) :
    ∃ p', run f n d p (.input (.inf s) :: List.replicate m (.input p.sp)) = .ok p' ∧
      ∀ v, compute f n d p' = .ok v → ¬ Finite v := by
  obtain ⟨q, p1, eq, e, hs, e1, -, -, e4, -, -, -, -, eh, -, hqi, -⟩ := addInput_desc (f := f) hn hd h.shape (.inf s)
  obtain ⟨x, ex, -⟩ := h.sp
  have herr : error f { p with input := .inf s } = .inf (!s) := by simp [error, sub, ex, neg, add]
  have hku := updateSign_keeps n { p with input := .inf s } (error f { p with input := .inf s })
  rw [← eq] at hku
  have hql : q.lowEn = false := hku.2.2.2.2.2.2.2.2.1.trans hl
  have hqh : q.highEn = false := hku.2.2.2.2.2.2.2.2.2.1.trans hh
  have hqlen : q.hist.length = n := by
    rcases hku.2.2.2.2.2.2.2.2.2.2 with ⟨e, -⟩ | ⟨e, -⟩ <;> rw [e]
    · exact h.len
    · simp
  have hent : entry q (.inf (!s)) = some (.inf (!s)) := by
    cases s <;> simp [entry, less, zero, hql, hqh]
  have hget : p1.hist[q.index]? = some (.inf (!s)) := by
    rw [eh, herr, stored, hent]
    simp [hqlen, hqi]
  have hki1 : ∃ k, p1.ki = mul f k := by
    obtain ⟨k, ek, -⟩ := h.ki
    exact ⟨k, e4.trans ek⟩
  have key : ∀ (m : Nat) (r : Pid Val), Shape n d r → (∃ k, r.ki = mul f k) → r.sp = p.sp → r.hist[q.index]? = some (.inf (!s)) →
      ∃ p', run f n d r (List.replicate m (.input p.sp)) = .ok p' ∧ ∀ v, compute f n d p' = .ok v → ¬ Finite v := by
    intro m
    induction m with
    | zero =>
      intro r h1 h2 h3 h4
      exact ⟨r, rfl, fun v hv => compute_infinite h1 h2 h4 (by rintro ⟨y, hy⟩; cases hy) hv⟩
    | succ m ih =>
      intro r h1 h2 h3 h4
      obtain ⟨q', r', eq', er, hs', e1', -, -, e4', -, -, -, -, eh', -, -, -⟩ := addInput_desc (f := f) hn hd h1 p.sp
      have h0 : error f { r with input := p.sp } = zero := by
        simp only [error, sub, h3, ex, neg, add, add_neg_cancel, zero]
        refine round_exact hf.eb (m := 0) (e := f.qmin) (by simp) (le_refl _) (by simp) ?_
        rw [abs_zero]
        exact (by have := two_zpow_pos (a + 1); positivity : (0 : ℚ) ≤ (n + 3) * 2 ^ (a + 1)).trans hf.large
      have hu : updateSign n { r with input := p.sp } zero = { r with input := p.sp } := by
        simp [updateSign, less, zero]
      rw [h0, hu] at eq'
      have heh : r'.hist = r.hist := by
        rw [eh', h0, eq', stored]
        simp [entry, less, zero]
      obtain ⟨p', ep, hp'⟩ := ih r' hs' (by rw [e4']; exact h2) (e1'.trans h3) (by rw [heh]; exact h4)
      exact ⟨p', by rw [List.replicate_succ, run, step, er, Res.ok_bind, ep], hp'⟩
  obtain ⟨p', ep, hp'⟩ := key m p1 hs hki1 e1 hget
  exact ⟨p', by rw [run, step, e, Res.ok_bind, ep], hp'⟩

/-- Setpoint 1, gains 1, one sample and a derivative over one: the reading NaN gives NaN. -/
example : let p := run binary32 1 1 (init binary32 1 1) [.set (.tune (.fin 1) (.fin 1) (.fin 1)), .set (.sp (.fin 1)), .input .nan]
    (∃ q v, p = .ok q ∧ compute binary32 1 1 q = .ok v ∧ ¬ Finite v) := by
  refine ⟨_, .nan, rfl, rfl, ?_⟩
  rintro ⟨x, hx⟩
  cases hx

end Gel.Pid.Fp
