import Verif.Pid.IntProps
import Mathlib.Data.List.Induction

/-!
# PID with types narrower than `int`, and thresholds given as `size_t`: properties C179 and C180

`pid_control_type_t` and `pid_output_type_t` are signed integers of `wc` and `wo` bits, both so much narrower than `int` that all
arithmetic on them, which C does in `int`, is exact (8 or 16 bits with an `int` of 32). Every conversion back wraps, as it does
with gcc and clang.
-/
namespace Gel.Pid

/-- `calc_error`, pid.c:8-10, converts to the control type, and `pid_current_error`, pid.c:130-132, to the output type. -/
def errorN (wc wo : Nat) (p : Pid Int) : Int := wrapS wo (wrapS wc (p.sp - p.input))

/-- `pid_add_input`, pid.c:25-65. `ABS` and the comparisons are done in `int`; what is stored is converted to the control type. -/
def addInputN (wc wo n d : Nat) (p : Pid Int) (v : Int) : Res (Pid Int) := do
  let old := errorN wc wo p
  let e := errorN wc wo { p with input := v }
  let q := updateSign n { p with input := v } e
  let h ← store q.hist q.index ((entry q e).map (wrapS wc))
  addOld d { q with hist := h, index := (q.index + 1) % n } (wrapS wc old)

/-- The loop of pid.c:82-83: the sum is converted to the output type each time. -/
def sumFromN (wo : Nat) (a : List Int) : Nat → Nat → Int → Res Int
  | 0, _, acc => .ok acc
  | k + 1, i, acc => do
    let x ← rd a i
    sumFromN wo a k (i + 1) (wrapS wo (acc + x))

/-- `pid_compute_p`, pid.c:73-76: a conversion from float that does not fit is undefined. -/
def computePN (wc wo : Nat) (p : Pid Int) : Res Int := chkS wo (p.kp (errorN wc wo p))

/-- `pid_compute_i`, pid.c:79-87. -/
def computeIN (wo n : Nat) (p : Pid Int) : Res Int := do
  let s ← sumFromN wo p.hist n 0 0
  chkS wo (p.ki s)

/-- `pid_compute_d`, pid.c:90-118. -/
def computeDN (wc wo d : Nat) (p : Pid Int) : Res Int :=
  if p.dsize = 0 then .ok 0
  else do
    let x ← rd p.dhist (if p.dsize = d then p.dindex else 0)
    if p.dthr = true ∧ p.dlow < abs (errorN wc wo p) then pure 0
    else chkS wo (p.kd (wrapS wo (errorN wc wo p - x)))

/-- `pid_compute`, pid.c:121-127. -/
def computeN (wc wo n d : Nat) (p : Pid Int) : Res Int := do
  let t ← computePN wc wo p
  let i ← computeIN wo n p
  let k ← computeDN wc wo d p
  pure (wrapS wo (t + i + k))

def stepN (wc wo n d : Nat) (p : Pid Int) : Op Int → Res (Pid Int)
  | .input v => addInputN wc wo n d p v
  | .set s => .ok (set n p s)

/-- A history of settings (with values of the types) and inputs. -/
def runN (wc wo n d : Nat) (p : Pid Int) : List (Op Int) → Res (Pid Int)
  | [] => .ok p
  | o :: os => do
    let p ← stepN wc wo n d p o
    runN wc wo n d p os

theorem wrapS_bmod (w : Nat) (x : Int) : wrapS w x = x.bmod (2 ^ w) := by
  rw [wrapS, BitVec.toInt_ofInt]

theorem wrapS_within {w : Nat} {b x : Int} (h : Within b x) (hw : 0 < w) (hb : b < 2 ^ (w - 1)) : wrapS w x = x := by
  obtain ⟨k, rfl⟩ : ∃ k, w = k + 1 := ⟨w - 1, by omega⟩
  obtain ⟨h1, h2⟩ := h
  rw [wrapS_bmod]
  have e : ((2 ^ (k + 1) : Nat) : Int) = 2 * 2 ^ k := by push_cast; rw [Int.pow_succ]; omega
  rw [Nat.add_sub_cancel] at hb
  exact Int.bmod_eq_of_le (by rw [e]; omega) (by rw [e]; omega)

theorem errorN_eq {wc wo : Nat} {b : Int} {p : Pid Int} (h : Bounded b p) (hc0 : 0 < wc) (ho0 : 0 < wo)
    (hc : 2 * b < 2 ^ (wc - 1)) (ho : 2 * b < 2 ^ (wo - 1)) : errorN wc wo p = error p := by
  have := h.error
  rw [errorN, show p.sp - p.input = error p from rfl, wrapS_within this hc0 hc, wrapS_within this ho0 ho]

theorem addInputN_eq {wc wo n d : Nat} {b v : Int} {p : Pid Int} (h : Bounded b p) (hv : Within b v) (hc0 : 0 < wc) (ho0 : 0 < wo)
    (hc : 2 * b < 2 ^ (wc - 1)) (ho : 2 * b < 2 ^ (wo - 1)) : addInputN wc wo n d p v = addInput n d p v := by
  have h1 : Bounded b { p with input := v } := ⟨h.sp, hv, h.hist, h.dhist⟩
  obtain ⟨u1, u2, -, -⟩ := updateSign_fields n { p with input := v } (error { p with input := v })
  have he : error (updateSign n { p with input := v } (error { p with input := v })) = error { p with input := v } := by
    rw [error, u1, u2]
    rfl
  have hm : ∀ q : Pid Int, (entry q (error { p with input := v })).map (wrapS wc) = entry q (error { p with input := v }) := by
    intro q
    cases e : entry q (error { p with input := v }) with
    | none => rfl
    | some x => simp [wrapS_within (entry_within h1.error e) hc0 hc]
  rw [addInputN, addInput]
  simp only [errorN_eq h hc0 ho0 hc ho, errorN_eq h1 hc0 ho0 hc ho, hm, he, wrapS_within h.error hc0 hc]

/-- **C179, partial.** As long as setpoints and inputs are within `b` of zero and `2b` is representable in both types, every history
gives the controller of exact arithmetic. Missing: larger values, for which it is false (`C179_error_wrong`). -/
theorem C179_history_partial (wc wo n d : Nat) (b : Int) (hb0 : 0 ≤ b) (hc0 : 0 < wc) (ho0 : 0 < wo) (hc : 2 * b < 2 ^ (wc - 1))
    (ho : 2 * b < 2 ^ (wo - 1)) (ops : List (Op Int)) (hops : ∀ o ∈ ops, OpWithin b o) :
    runN wc wo n d (init n d) ops = run n d (init n d) ops := by
  have hpre := fun pre (h : ∀ o ∈ pre, OpWithin b o) => (C105_history wc n d b hb0 hc pre h).2
  have hrun : ∀ (xs : List (Op Int)) (p : Pid Int) (y : Op Int), run n d p (xs ++ [y]) = run n d p xs >>= fun q => step n d q y := by
    intro xs
    induction xs with
    | nil => intro p y; simp only [List.nil_append, run, Res.ok_bind]; cases step n d p y <;> rfl
    | cons x xs ih => intro p y; simp only [List.cons_append, run]; cases step n d p x <;> simp [ih]
  have hrunN : ∀ (xs : List (Op Int)) (p : Pid Int) (y : Op Int),
      runN wc wo n d p (xs ++ [y]) = runN wc wo n d p xs >>= fun q => stepN wc wo n d q y := by
    intro xs
    induction xs with
    | nil => intro p y; simp only [List.nil_append, runN, Res.ok_bind]; cases stepN wc wo n d p y <;> rfl
    | cons x xs ih => intro p y; simp only [List.cons_append, runN]; cases stepN wc wo n d p x <;> simp [ih]
  induction ops using List.reverseRecOn with
  | nil => rfl
  | append_singleton ops o ih =>
    have ho1 : ∀ o ∈ ops, OpWithin b o := fun o h => hops o (by simp [h])
    rw [hrun, hrunN, ih ho1]
    cases e : run n d (init n d) ops with
    | ok p =>
      have hp := hpre ops ho1 p e
      simp only [Res.ok_bind]
      cases o with
      | set s => rfl
      | input v => exact addInputN_eq hp (hops (.input v) (by simp)) hc0 ho0 hc ho
    | ub => rfl
    | abort => rfl
    | diverge => rfl

theorem wrapS_add_wrapS (w : Nat) (x y : Int) : wrapS w (wrapS w x + y) = wrapS w (x + y) := by
  simp only [wrapS_bmod, Int.bmod_add_bmod]

/-- **C179.** The sum of the stored errors wraps only once: whatever overflows on the way, the result is the exact sum if that is
representable, and never undefined. -/
theorem C179_sum (wo : Nat) (a : List Int) (hw : 0 < wo) : sumFromN wo a a.length 0 0 = .ok (wrapS wo a.sum) := by
  have key : ∀ (k i : Nat) (acc : Int), i + k = a.length → wrapS wo acc = acc →
      sumFromN wo a k i acc = .ok (wrapS wo (acc + (a.drop i).sum)) := by
    intro k
    induction k with
    | zero => intro i acc hi hacc; simp [sumFromN, List.drop_eq_nil_of_le (show a.length ≤ i by omega), hacc]
    | succ k ih =>
      intro i acc hi hacc
      have hlt : i < a.length := by omega
      have hidem : wrapS wo (wrapS wo (acc + a[i])) = wrapS wo (acc + a[i]) := by
        have := wrapS_add_wrapS wo (acc + a[i]) 0
        simpa using this
      rw [sumFromN, rd, List.getElem?_eq_getElem hlt, Res.ok_bind, ih (i + 1) _ (by omega) hidem, wrapS_add_wrapS,
        List.drop_eq_getElem_cons hlt, List.sum_cons, Int.add_assoc]
  have h0 : wrapS wo 0 = 0 := by rw [wrapS_bmod]; simp
  simpa using key a.length 0 0 (by omega) h0

/-- **C179.** The output under the bounds of C105: that of exact arithmetic. -/
theorem C179_compute_partial (wc wo n d : Nat) (b g : Int) (p : Pid Int) (h : Bounded b p) (hn : p.hist.length = n)
    (hc0 : 0 < wc) (ho0 : 0 < wo) (hc : 2 * b < 2 ^ (wc - 1)) (hb : (n : Int) * (2 * b) < 2 ^ (wo - 1))
    (hb4 : 4 * b < 2 ^ (wo - 1)) (hg : 3 * g < 2 ^ (wo - 1))
    (hkp : ∀ x, Within (2 * b) x → Within g (p.kp x)) (hki : ∀ x, Within (n * (2 * b)) x → Within g (p.ki x))
    (hkd : ∀ x, Within (4 * b) x → Within g (p.kd x)) :
    computeN wc wo n d p = compute n d p := by
  have hb0 : 0 ≤ b := by
    obtain ⟨h1, h2⟩ := h.sp
    omega
  have hg0 : 0 ≤ g := by
    obtain ⟨h1, h2⟩ := hkp 0 ⟨by omega, by omega⟩
    omega
  have he := errorN_eq h hc0 ho0 hc (by omega)
  have hsum : ∀ s, sumFrom p.hist n 0 0 = .ok s → Within (n * (2 * b)) s := by
    intro s hs
    have := sumFrom_within p.hist h.hist n 0 0 s ⟨by simp, by simp⟩ hs
    simpa using this
  have hder : ∀ x, rd p.dhist (if p.dsize = d then p.dindex else 0) = .ok x → Within (4 * b) (error p - x) := by
    intro x hr
    have hx : x ∈ p.dhist := by
      rw [rd] at hr
      split at hr
      next y hy =>
        cases hr
        exact List.mem_of_getElem? hy
      · cases hr
    obtain ⟨h1, h2⟩ := h.error
    obtain ⟨h3, h4⟩ := h.dhist x hx
    rw [Within]
    omega
  have hex : ∀ (k i : Nat) (acc : Int), i + k = p.hist.length → sumFrom p.hist k i acc = .ok (acc + (p.hist.drop i).sum) := by
    intro k
    induction k with
    | zero => intro i acc hi; simp [sumFrom, List.drop_eq_nil_of_le (show p.hist.length ≤ i by omega)]
    | succ k ih =>
      intro i acc hi
      have hlt : i < p.hist.length := by omega
      rw [sumFrom, rd, List.getElem?_eq_getElem hlt, Res.ok_bind, ih (i + 1) _ (by omega), List.drop_eq_getElem_cons hlt,
        List.sum_cons, Int.add_assoc]
  have hs : sumFrom p.hist n 0 0 = .ok p.hist.sum := by simpa using hex n 0 0 (by omega)
  have hws := hsum _ hs
  have hP : computePN wc wo p = .ok (computeP p) := by
    rw [computePN, he, chkS_within (hkp _ h.error) (by omega)]
    rfl
  have hI : computeIN wo n p = .ok (p.ki p.hist.sum) := by
    have := C179_sum wo p.hist ho0
    rw [hn] at this
    rw [computeIN, this, Res.ok_bind, wrapS_within hws ho0 hb, chkS_within (hki _ hws) (by omega)]
  have hI' : computeI n p = .ok (p.ki p.hist.sum) := by rw [computeI, hs]; rfl
  have hD : computeDN wc wo d p = computeD d p := by
    rw [computeDN, computeD, he]
    by_cases h0 : p.dsize = 0
    · rw [if_pos h0, if_pos h0]
    · rw [if_neg h0, if_neg h0]
      cases hr : rd p.dhist (if p.dsize = d then p.dindex else 0) with
      | ok x =>
        have hw := hder x hr
        rw [Res.ok_bind, Res.ok_bind, wrapS_within hw ho0 hb4, chkS_within (hkd _ hw) (by omega)]
        rfl
      | ub => rfl
      | abort => rfl
      | diverge => rfl
  have hDw : ∀ k, computeD d p = .ok k → Within g k := by
    intro k hk
    have h0 : Within g 0 := ⟨by omega, by omega⟩
    rw [computeD] at hk
    by_cases hz : p.dsize = 0
    · rw [if_pos hz] at hk; cases hk; exact h0
    · rw [if_neg hz] at hk
      obtain ⟨x, hr, hk⟩ := Res.bind_eq_ok.1 hk
      split at hk <;> cases hk
      · exact h0
      · exact hkd _ (hder x hr)
  rw [computeN, compute, hP, hI, hI', hD]
  cases hk : computeD d p with
  | ok k =>
    obtain ⟨a1, a2⟩ := hkp _ h.error
    obtain ⟨b1, b2⟩ := hki _ hws
    obtain ⟨c1, c2⟩ := hDw k hk
    simp only [Res.ok_bind, Res.pure_eq]
    rw [wrapS_within (b := 3 * g) ⟨by rw [computeP]; omega, by rw [computeP]; omega⟩ ho0 hg]
  | ub => rfl
  | abort => rfl
  | diverge => rfl

/-- **C179 is false of the code** for large differences: with both types of `w` bits, an input below the setpoint by
`2^(w-1)` or more, but less than `2^w`, is taken for one above it. -/
theorem C179_error_wrong (w : Nat) (hw : 0 < w) (p : Pid Int) (h1 : 2 ^ (w - 1) ≤ p.sp - p.input) (h2 : p.sp - p.input < 2 ^ w) :
    errorN w w p = p.sp - p.input - 2 ^ w ∧ errorN w w p < 0 := by
  obtain ⟨k, rfl⟩ : ∃ k, w = k + 1 := ⟨w - 1, by omega⟩
  rw [Nat.add_sub_cancel] at h1
  have e : (2 : Int) ^ (k + 1) = 2 * 2 ^ k := by rw [Int.pow_succ]; omega
  have hx : errorN (k + 1) (k + 1) p = p.sp - p.input - 2 ^ (k + 1) := by
    have h3 : wrapS (k + 1) (p.sp - p.input) = p.sp - p.input - 2 ^ (k + 1) := by
      have hs : wrapS (k + 1) (p.sp - p.input) = wrapS (k + 1) (p.sp - p.input - 2 ^ (k + 1)) := by
        rw [wrapS_bmod, wrapS_bmod]
        have := Int.sub_bmod_right (p.sp - p.input) (2 ^ (k + 1))
        push_cast at this
        exact this.symm
      have e' : ((2 ^ (k + 1) : Nat) : Int) = 2 * 2 ^ k := by push_cast; exact e
      rw [hs, wrapS_bmod, Int.bmod_eq_of_le (by rw [e', e]; omega) (by rw [e', e]; omega)]
    rw [errorN, h3]
    have e' : ((2 ^ (k + 1) : Nat) : Int) = 2 * 2 ^ k := by push_cast; exact e
    rw [wrapS_bmod, Int.bmod_eq_of_le (by rw [e', e]; omega) (by rw [e', e]; omega)]
  exact ⟨hx, by rw [hx]; omega⟩

/-- A controller with `int16_t`: set to 30000, at -10000, it sees an error of -25536 and turns the wrong way. -/
example : (runN 16 16 2 1 (init 2 1) [.set (.tune (fun x => x) (fun _ => 0) (fun _ => 0)), .set (.sp 30000), .input (-10000)] >>=
    computeN 16 16 2 1) = .ok (-25536) ∧
    (runN 16 16 2 1 (init 2 1) [.set (.tune (fun x => x) (fun _ => 0) (fun _ => 0)), .set (.sp 15000), .input (-10000)] >>=
    computeN 16 16 2 1) = .ok 25000 := by decide

/-- The sum overflows on the way, not in the end. -/
example : sumFromN 8 [100, 100, -100] 3 0 0 = .ok 100 ∧ sumFromN 8 [100, 100, 0] 3 0 0 = .ok (-56) := by decide

/-! ## C180 -/

/-- `pid_set_integral_low_threshold` and `pid_set_integral_high_threshold`, pid.c:156-163: a `size_t` converted to the output type
of `w` bits. -/
def lowT (w : Nat) (t : Nat) : Op Int := .set (.low (wrapS w t))
def highT (w : Nat) (t : Nat) : Op Int := .set (.high (wrapS w t))

/-- What an error contributes when the threshold of its sign is enabled and was set to `t`. -/
def Spec.contribution (t : Nat) (err : Int) : Int := if |err| < t then err else 0

/-- **C180, partial.** For thresholds that are representable in the output type: errors whose magnitude is below the threshold are
stored, others count as 0. Missing: larger thresholds, for which it is false (`C180_large_wrong`). -/
theorem C180_threshold_partial (w n : Nat) (hw : 0 < w) (t : Nat) (ht : (t : Int) < 2 ^ (w - 1)) (p : Pid Int) (err : Int) :
    (∀ q, (do let q ← stepW w n d p (lowT w t); stepW w n d q (.set (.lowEn true))) = .ok q → 0 < err →
      entry q err = some (Spec.contribution t err)) ∧
    (∀ q, (do let q ← stepW w n d p (highT w t); stepW w n d q (.set (.highEn true))) = .ok q → err < 0 →
      entry q err = some (Spec.contribution t err)) := by
  have hT : wrapS w t = t := wrapS_within (b := t) ⟨by omega, by omega⟩ hw ht
  constructor
  · intro q hq he
    cases hq
    simp only [lowT, stepW, set, hT, entry, if_pos he, abs, Spec.contribution, abs_of_pos he]
    split_ifs with h1 h2 h2 <;> simp_all
  · intro q hq he
    cases hq
    simp only [highT, stepW, set, hT, entry, if_pos he, if_neg (show ¬ 0 < err by omega), abs, Spec.contribution, abs_of_neg he]
    split_ifs with h1 h2 h2 <;> simp_all

/-- **C180 is false of the code** for larger ones: from `2^(w-1)` to `2^w - 1` no error counts at all. -/
theorem C180_large_wrong (w n : Nat) (hw : 0 < w) (t : Nat) (h1 : (2 : Int) ^ (w - 1) ≤ t) (h2 : (t : Int) < 2 ^ w) (p : Pid Int)
    (err : Int) :
    (∀ q, (do let q ← stepW w n d p (lowT w t); stepW w n d q (.set (.lowEn true))) = .ok q → 0 < err → entry q err = some 0) ∧
    (∀ q, (do let q ← stepW w n d p (highT w t); stepW w n d q (.set (.highEn true))) = .ok q → err < 0 →
      entry q err = some 0) := by
  have hT : wrapS w t < 0 := by
    have := C179_error_wrong w hw { (init n d : Pid Int) with sp := t, input := 0 } (by simpa using h1) (by simpa using h2)
    obtain ⟨k, rfl⟩ : ∃ k, w = k + 1 := ⟨w - 1, by omega⟩
    have hh := this.2
    simp only [errorN, Int.sub_zero] at hh
    have hid : wrapS (k + 1) (wrapS (k + 1) (t : Int)) = wrapS (k + 1) t := by
      have := wrapS_add_wrapS (k + 1) t 0
      simpa using this
    rwa [hid] at hh
  constructor
  · intro q hq he
    cases hq
    simp only [lowT, stepW, set, entry, if_pos he, abs]
    rw [if_neg (by simp; omega)]
  · intro q hq he
    cases hq
    simp only [highT, stepW, set, entry, if_pos he, if_neg (show ¬ 0 < err by omega), abs]
    rw [if_neg (by simp; omega)]

/-- With `int`: a threshold of 3000000000, meant to admit everything, admits nothing; 100 works. -/
example : (runW 32 2 1 (init 2 1) [lowT 32 3000000000, .set (.lowEn true), .set (.sp 50), .input 20] >>= fun p => .ok p.hist) =
      .ok [0, 0] ∧
    (runW 32 2 1 (init 2 1) [lowT 32 100, .set (.lowEn true), .set (.sp 50), .input 20] >>= fun p => .ok p.hist) =
      .ok [30, 0] := by decide

end Gel.Pid
