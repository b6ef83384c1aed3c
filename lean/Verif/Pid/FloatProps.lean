import Verif.Pid.FloatModel
import Verif.Pid.General
import Verif.Pid.IntProps

/-!
# PID with integer types and float gains: C125, C126
-/
namespace Gel.Pid
open Gel.Round

/-! ## One product -/

theorem gain_exact_int {p : Nat} (hp : 0 < p) {k : ℚ} {x : Int} (hx : |x| ≤ 2 ^ p) :
    gain p k x = trunc (rnd p (k * x)) := by
  rw [gain, rnd_of_isFloat hp (isFloat_int hx)]

/-- **C125.** If the integer and the exact product have at most `p` bits, the result is the exact product, truncated. -/
theorem C125_exact (p : Nat) (hp : 0 < p) (k : ℚ) (x : Int) (hx : |x| ≤ 2 ^ p) (hk : IsFloat p (k * x)) :
    gain p k x = trunc (k * x) := by
  rw [gain_exact_int hp hx, rnd_of_isFloat hp hk]

/-- **C125.** In particular for gains `m / 2^s`, as long as `m` times the integer has at most `p` bits. -/
theorem C125_binary (p : Nat) (hp : 0 < p) (m : Int) (s : Nat) (x : Int) (hx : |x| ≤ 2 ^ p) (hm : |m * x| ≤ 2 ^ p) :
    gain p (m / 2 ^ s) x = (m * x).tdiv (2 ^ s) := by
  have e : (m / 2 ^ s : ℚ) * x = ((m * x : Int) : ℚ) * 2 ^ (-(s : ℤ)) := by
    rw [zpow_neg, zpow_natCast]
    push_cast
    field_simp
  rw [C125_exact p hp _ x hx ⟨m * x, -(s : ℤ), hm, e⟩, e, zpow_neg, zpow_natCast, ← div_eq_mul_inv]
  have h2 : (0 : ℚ) < 2 ^ s := by positivity
  have key : ∀ z : Int, 0 ≤ z → trunc ((z : ℚ) / 2 ^ s) = z.tdiv (2 ^ s) := by
    intro z hz
    have h0 : (0 : ℚ) ≤ z := by exact_mod_cast hz
    rw [trunc, if_pos (by positivity), Int.tdiv_eq_ediv_of_nonneg hz]
    have := Rat.floor_intCast_div_natCast z (2 ^ s)
    push_cast at this
    exact this
  rcases le_total 0 (m * x) with h | h
  · exact key _ h
  · have := key (-(m * x)) (by omega)
    rw [Int.neg_tdiv] at this
    push_cast at this
    rw [neg_div, trunc_neg] at this
    push_cast
    omega

/-- **C125.** The error: less than 1 from truncation, and what two roundings make; only one if the integer has at most `p`
bits. -/
theorem C125_error (p : Nat) (hp : 0 < p) (k : ℚ) (x : Int) :
    |gain p k x - k * x| < 1 + |k * x| * (2 / 2 ^ p + 1 / 2 ^ p * (1 / 2 ^ p)) ∧
    (|x| ≤ 2 ^ p → |gain p k x - k * x| < 1 + |k * x| / 2 ^ p) := by
  have u0 : (0 : ℚ) < 2 ^ p := by positivity
  have key : ∀ y : ℚ, |(trunc (rnd p y) : ℚ) - y| < 1 + |y| / 2 ^ p := by
    intro y
    have h1 := trunc_err (rnd p y)
    have h2 := rnd_err p y
    have h3 := abs_add_le ((trunc (rnd p y) : ℚ) - rnd p y) (rnd p y - y)
    rw [sub_add_sub_cancel] at h3
    linarith
  constructor
  · have h1 := key (k * rnd p x)
    have h2 := rnd_err p x
    have h3 : |k * rnd p x - k * x| ≤ |k * x| / 2 ^ p := by
      rw [← mul_sub, abs_mul, abs_mul, mul_div_assoc]
      exact mul_le_mul_of_nonneg_left h2 (abs_nonneg _)
    have h4 := abs_add_le ((trunc (rnd p (k * rnd p x)) : ℚ) - k * rnd p x) (k * rnd p x - k * x)
    rw [sub_add_sub_cancel] at h4
    have h5 : |k * rnd p x| ≤ |k * x| + |k * x| / 2 ^ p := by
      have := abs_add_le (k * rnd p x - k * x) (k * x)
      rw [sub_add_cancel] at this
      linarith
    have h6 : |k * rnd p x| / 2 ^ p ≤ (|k * x| + |k * x| / 2 ^ p) / 2 ^ p := div_le_div_of_nonneg_right h5 u0.le
    have h7 : |k * x| * (2 / 2 ^ p + 1 / 2 ^ p * (1 / 2 ^ p)) =
        |k * x| / 2 ^ p + (|k * x| + |k * x| / 2 ^ p) / 2 ^ p := by
      field_simp
      ring
    rw [gain, h7]
    linarith
  · intro hx
    rw [gain_exact_int hp hx]
    exact key _

/-- **C125.** The result is odd in the integer and, for gains that are not negative, monotone; 0 gives 0. -/
theorem C125_shape (p : Nat) (hp : 0 < p) (k : ℚ) (x y : Int) :
    gain p k 0 = 0 ∧ gain p k (-x) = -gain p k x ∧ gain p (-k) x = -gain p k x ∧
    (0 ≤ k → x ≤ y → gain p k x ≤ gain p k y) := by
  refine ⟨?_, ?_, ?_, ?_⟩
  · simp only [gain, Int.cast_zero, rnd_zero, mul_zero]
    exact trunc_int 0
  · simp only [gain, Int.cast_neg, rnd_neg, mul_neg, trunc_neg]
  · simp only [gain, neg_mul, rnd_neg, trunc_neg]
  · intro hk hxy
    have : (x : ℚ) ≤ y := by exact_mod_cast hxy
    exact trunc_mono (rnd_mono hp (mul_le_mul_of_nonneg_left (rnd_mono hp this) hk))

/-- **C125**, the limit: a gain of 1 changes every odd integer of more than `p` bits. -/
theorem C125_one_wrong (p : Nat) (hp : 0 < p) (x : Int) (hx : 2 ^ p < |x|) (ho : x % 2 = 1) : gain p 1 x ≠ x := by
  intro h
  have hx0 : (x : ℚ) ≠ 0 := by
    intro h0
    have : x = 0 := by exact_mod_cast h0
    omega
  -- what the conversion gives is an even integer
  have hu : ∃ j : Nat, 0 < j ∧ ulp p (x : ℚ) = 2 ^ j := by
    have h1 := lt_log (x : ℚ)
    have h2 : ((2 : ℚ) ^ (p : ℤ)) < 2 ^ (Int.log 2 |(x : ℚ)| + 1) := by
      refine lt_trans ?_ h1
      rw [zpow_natCast]
      exact_mod_cast hx
    have h3 := (zpow_lt_zpow_iff_right₀ (by norm_num : (1 : ℚ) < 2)).1 h2
    refine ⟨(Int.log 2 |(x : ℚ)| + 1 - p).toNat, by omega, ?_⟩
    rw [ulp, ← zpow_natCast, Int.toNat_of_nonneg (by omega)]
  obtain ⟨j, hj, hu⟩ := hu
  have hr : rnd p (x : ℚ) = ((nearest (x / ulp p x) * 2 ^ j : ℤ) : ℚ) := by
    rw [rnd, hu]
    push_cast
    rfl
  have hg : gain p 1 x = nearest (x / ulp p x) * 2 ^ j := by
    rw [gain, one_mul, rnd_of_isFloat hp (rnd_isFloat (x : ℚ)), hr, trunc_int]
  obtain ⟨j, rfl⟩ : ∃ i, j = i + 1 := ⟨j - 1, by omega⟩
  rw [h] at hg
  rw [hg, pow_succ, ← mul_assoc, Int.mul_emod_left] at ho
  omega

theorem gain_within {p : Nat} (hp : 0 < p) {k : ℚ} {x B g : Int} (hx : Within B x) (hB : B ≤ 2 ^ p) (hg : g ≤ 2 ^ p)
    (h : |k| * B ≤ g) : Within g (gain p k x) := by
  obtain ⟨h1, h2⟩ := hx
  have hx' : |x| ≤ B := abs_le.2 ⟨h1, h2⟩
  have hxq : |(x : ℚ)| ≤ B := by exact_mod_cast hx'
  have hk : |k * x| ≤ g := by
    rw [abs_mul]
    exact le_trans (mul_le_mul_of_nonneg_left hxq (abs_nonneg k)) h
  have hg0 : 0 ≤ g := by
    have : (0 : ℚ) ≤ g := le_trans (abs_nonneg _) hk
    exact_mod_cast this
  obtain ⟨h3, h4⟩ := abs_le.1 hk
  have hf : IsFloat p (g : ℚ) := isFloat_int (by rw [abs_of_nonneg hg0]; exact hg)
  have hm : ((-g : Int) : ℚ) = -(g : ℚ) := by push_cast; rfl
  rw [gain_exact_int hp (hx'.trans hB), Within]
  constructor
  · have := trunc_mono (rnd_mono hp h3)
    rwa [rnd_neg, rnd_of_isFloat hp hf, ← hm, trunc_int] at this
  · have := trunc_mono (rnd_mono hp h4)
    rwa [rnd_of_isFloat hp hf, trunc_int] at this

/-- The float nearest to 0.7, times 10: the product is rounded up to 7 before it is truncated. -/
example : gain 24 (11744051 / 2 ^ 24) 10 = 7 ∧ trunc (11744051 / 2 ^ 24 * 10) = 6 := by decide +kernel

example : rnd 24 (7 / 10) = 11744051 / 2 ^ 24 := by decide +kernel

/-- 2.75 is 11/4. -/
example : gain 24 (11 / 4) (-3) = -8 ∧ (11 * -3 : Int).tdiv 4 = -8 ∧ |(11 * -3 : Int)| ≤ 2 ^ 24 := by decide +kernel

example : gain 24 1 16777217 = 16777216 := by decide +kernel

/-! ## The controller -/

/-- The gains in effect, the last ones tuned; histories with the newest call first. -/
def kpR : List FOp → ℚ
  | [] => 0
  | .tune kp _ _ :: _ => kp
  | .other _ :: h => kpR h

def kiR : List FOp → ℚ
  | [] => 0
  | .tune _ ki _ :: _ => ki
  | .other _ :: h => kiR h

def kdR : List FOp → ℚ
  | [] => 0
  | .tune _ _ kd :: _ => kd
  | .other _ :: h => kdR h

/-- The sum of the errors in the integral history. -/
def sumOf (n : Nat) (h : List (Op Int)) : Int := ((inEffect n (storedOf h)).take n).sum

/-- The change of the error; 0 before the second input and beyond the threshold. -/
def changeOf (d : Nat) (h : List (Op Int)) : Int :=
  if beforeOf h = [] then 0
  else if dthrOf h = true ∧ dlowOf h < abs (errOf h) then 0
  else errOf h - (beforeOf h).getD (min d (beforeOf h).length - 1) 0

/-- Setpoints and inputs within `b`, and gains so small that no term can exceed `g`. -/
def Fine (n : Nat) (b g : Int) : FOp → Prop
  | .tune kp ki kd => |kp| * ((2 * b : Int) : ℚ) ≤ g ∧ |ki| * ((n * (2 * b) : Int) : ℚ) ≤ g ∧ |kd| * ((4 * b : Int) : ℚ) ≤ g
  | .other (.set (.tune _ _ _)) => False
  | .other o => OpWithin b o

theorem gain_zero_left (p : Nat) : gain p 0 = fun _ => 0 := by
  funext x
  simp only [gain, zero_mul, rnd_zero]
  exact trunc_int 0

theorem gains_eq (p n : Nat) (b g : Int) (h : List FOp) (hf : ∀ o ∈ h, Fine n b g o) :
    kpOf (h.map (FOp.toOp p)) = gain p (kpR h) ∧ kiOf (h.map (FOp.toOp p)) = gain p (kiR h) ∧
    kdOf (h.map (FOp.toOp p)) = gain p (kdR h) := by
  induction h with
  | nil => exact ⟨(gain_zero_left p).symm, (gain_zero_left p).symm, (gain_zero_left p).symm⟩
  | cons o h ih =>
    have ih := ih (fun o ho => hf o (by simp [ho]))
    have ho := hf o (by simp)
    match o, ho with
    | .tune _ _ _, _ => exact ⟨rfl, rfl, rfl⟩
    | .other (.input _), _ => exact ih
    | .other (.set s), ho =>
      cases s with
      | tune _ _ _ => exact ho.elim
      | _ => exact ih

theorem gains_fine (n : Nat) (b g : Int) (hg : 0 ≤ g) (h : List FOp) (hf : ∀ o ∈ h, Fine n b g o) :
    |kpR h| * ((2 * b : Int) : ℚ) ≤ g ∧ |kiR h| * ((n * (2 * b) : Int) : ℚ) ≤ g ∧ |kdR h| * ((4 * b : Int) : ℚ) ≤ g := by
  have hg' : (0 : ℚ) ≤ g := by exact_mod_cast hg
  induction h with
  | nil => simpa [kpR, kiR, kdR] using hg'
  | cons o h ih =>
    have ih := ih (fun o ho => hf o (by simp [ho]))
    match o, hf o (by simp) with
    | .tune _ _ _, ho => exact ho
    | .other o, _ => exact ih

theorem opWithin (p n : Nat) (b g : Int) (o : FOp) (h : Fine n b g o) : OpWithin b (o.toOp p) := by
  match o, h with
  | .tune _ _ _, _ => exact trivial
  | .other (.input _), h => exact h
  | .other (.set s), h =>
    cases s with
    | tune _ _ _ => exact h.elim
    | _ => exact h

theorem spOf_within {b : Int} (hb : 0 ≤ b) : ∀ (h : List (Op Int)), (∀ o ∈ h, OpWithin b o) → Within b (spOf h) := by
  intro h ho
  induction h with
  | nil => exact ⟨by simp only [spOf]; omega, by simp only [spOf]; omega⟩
  | cons o h ih =>
    have ih := ih (fun o hm => ho o (by simp [hm]))
    match o, ho o (by simp) with
    | .input _, _ => exact ih
    | .set s, hs => cases s <;> first | exact hs | exact ih

theorem inputOf_within {b : Int} (hb : 0 ≤ b) :
    ∀ (h : List (Op Int)), (∀ o ∈ h, OpWithin b o) → Within b ((inputOf h).getD 0) := by
  intro h ho
  induction h with
  | nil => exact ⟨by simp only [inputOf, Option.getD_none]; omega, by simp only [inputOf, Option.getD_none]; omega⟩
  | cons o h ih =>
    have ih := ih (fun o hm => ho o (by simp [hm]))
    match o, ho o (by simp) with
    | .input _, hs => exact hs
    | .set s, _ => cases s <;> exact ih

theorem errOf_within {b : Int} (hb : 0 ≤ b) (h : List (Op Int)) (ho : ∀ o ∈ h, OpWithin b o) : Within (2 * b) (errOf h) := by
  obtain ⟨a1, a2⟩ := spOf_within hb h ho
  obtain ⟨a3, a4⟩ := inputOf_within hb h ho
  rw [errOf, Within]
  omega

theorem beforeOf_within {b : Int} (hb : 0 ≤ b) :
    ∀ (h : List (Op Int)), (∀ o ∈ h, OpWithin b o) → ∀ x ∈ beforeOf h, Within (2 * b) x := by
  intro h ho
  induction h with
  | nil =>
    intro x hx
    cases hx
  | cons o h ih =>
    have ho' : ∀ o ∈ h, OpWithin b o := fun o hm => ho o (by simp [hm])
    cases o with
    | input v =>
      intro x hx
      rw [beforeOf] at hx
      split at hx
      · rcases List.mem_cons.1 hx with rfl | hx
        · exact errOf_within hb h ho'
        · exact ih ho' x hx
      · cases hx
    | set s => exact ih ho'

theorem changeOf_within {b : Int} (hb : 0 ≤ b) (d : Nat) (h : List (Op Int)) (ho : ∀ o ∈ h, OpWithin b o) :
    Within (4 * b) (changeOf d h) := by
  rw [changeOf]
  split_ifs with h1 h2
  · exact ⟨by omega, by omega⟩
  · exact ⟨by omega, by omega⟩
  · obtain ⟨a1, a2⟩ := errOf_within hb h ho
    have : Within (2 * b) ((beforeOf h).getD (min d (beforeOf h).length - 1) 0) := by
      rw [List.getD_eq_getElem?_getD]
      cases hx : (beforeOf h)[min d (beforeOf h).length - 1]? with
      | none => exact ⟨by simp only [Option.getD_none]; omega, by simp only [Option.getD_none]; omega⟩
      | some x => exact beforeOf_within hb h ho x (List.mem_of_getElem? hx)
    obtain ⟨a3, a4⟩ := this
    rw [Within]
    omega

/-- **C126.** A controller with integer types of `w` bits and float gains. As long as setpoints and inputs are within `b` of
zero, the sum of `n` errors and the change of the error have at most `p` bits and fit in the type, and the gains are so small
that three terms fit, no call overflows after any history of calls. The output is the sum of the three truncated products, so it
differs from the ideal output by less than 3 and one rounding of each product. -/
theorem C126_output (p w n d : Nat) (hp : 0 < p) (hn : 0 < n) (hd : 0 < d) (b g : Int) (hb0 : 0 ≤ b) (hg0 : 0 ≤ g)
    (hb4 : 4 * b < 2 ^ (w - 1)) (hnb : (n : Int) * (2 * b) < 2 ^ (w - 1)) (h3g : 3 * g < 2 ^ (w - 1))
    (hb4p : 4 * b ≤ 2 ^ p) (hnbp : (n : Int) * (2 * b) ≤ 2 ^ p) (hgp : g ≤ 2 ^ p)
    (os : List FOp) (hos : ∀ o ∈ os, Fine n b g o) :
    ∃ q y, runW w n d (init n d) (os.map (FOp.toOp p)) = .ok q ∧ computeW w n d q = .ok y ∧
      (let r := os.reverse
       let h := r.map (FOp.toOp p)
       y = gain p (kpR r) (errOf h) + gain p (kiR r) (sumOf n h) + gain p (kdR r) (changeOf d h) ∧
       |y - (kpR r * errOf h + kiR r * sumOf n h + kdR r * changeOf d h)| <
         3 + (|kpR r * errOf h| + |kiR r * sumOf n h| + |kdR r * changeOf d h|) / 2 ^ p) := by
  have hops : ∀ o ∈ os.map (FOp.toOp p), OpWithin b o := by
    intro o ho
    obtain ⟨f, hf, rfl⟩ := List.mem_map.1 ho
    exact opWithin p n b g f (hos f hf)
  obtain ⟨hW, hB⟩ := C105_history w n d b hb0 (by omega) _ hops
  obtain ⟨q, hq, G⟩ := G_run hn hd (os.map (FOp.toOp p)) _ [] (G_init n d)
  obtain ⟨q', hq', -, -, -, -, hc⟩ := C119_compute n d hn hd (os.map (FOp.toOp p))
  rw [hq] at hq'
  cases hq'
  rw [List.append_nil] at G
  rw [← List.map_reverse] at G hc
  have hr : ∀ o ∈ os.reverse, Fine n b g o := fun o ho => hos o (List.mem_reverse.1 ho)
  have hro : ∀ o ∈ os.reverse.map (FOp.toOp p), OpWithin b o := by
    rw [List.map_reverse]
    exact fun o ho => hops o (List.mem_reverse.1 ho)
  generalize os.reverse = r at *
  obtain ⟨k1, k2, k3⟩ := gains_eq p n b g r hr
  obtain ⟨f1, f2, f3⟩ := gains_fine n b g hg0 r hr
  have hBq := hB q hq
  have hcW := C105_compute w n d b g q hBq G.ring.len hnb hb4 h3g
    (by
      rw [G.kp, k1]
      exact fun x hx => gain_within hp hx (by omega) hgp f1)
    (by
      rw [G.ki, k2]
      exact fun x hx => gain_within hp hx hnbp hgp f2)
    (by
      rw [G.kd, k3]
      exact fun x hx => gain_within hp hx hb4p hgp f3)
  have hS : Within (n * (2 * b)) (sumOf n (r.map (FOp.toOp p))) := by
    have := sumFrom_within q.hist hBq.hist n 0 0 _ ⟨by simp, by simp⟩
      (sumFrom_eq q.hist n 0 0 (by rw [G.ring.len, Nat.zero_add]))
    rw [List.drop_zero, zero_add, G.ring.sum, ← inEffect_eq] at this
    simpa [sumOf] using this
  have hE := errOf_within hb0 _ hro
  have hD := changeOf_within hb0 d _ hro
  have hy : termP (r.map (FOp.toOp p)) + termI n (r.map (FOp.toOp p)) + termD d (r.map (FOp.toOp p)) =
      gain p (kpR r) (errOf (r.map (FOp.toOp p))) + gain p (kiR r) (sumOf n (r.map (FOp.toOp p))) +
        gain p (kdR r) (changeOf d (r.map (FOp.toOp p))) := by
    rw [termP, termI, termD, k1, k2, k3, changeOf, sumOf]
    split_ifs
    · rw [(C125_shape p hp _ 0 0).1]
    · rw [(C125_shape p hp _ 0 0).1]
    · rfl
  refine ⟨q, _, hW.trans hq, hcW.trans hc, hy, ?_⟩
  rw [hy]
  have ab : ∀ {B x : Int}, Within B x → B ≤ 2 ^ p → |x| ≤ 2 ^ p := fun hx hB => (abs_le.2 hx).trans hB
  have e1 := (C125_error p hp (kpR r) _).2 (ab hE (by omega))
  have e2 := (C125_error p hp (kiR r) _).2 (ab hS hnbp)
  have e3 := (C125_error p hp (kdR r) _).2 (ab hD hb4p)
  generalize (gain p (kpR r) (errOf (r.map (FOp.toOp p)))) = x1 at *
  generalize (gain p (kiR r) (sumOf n (r.map (FOp.toOp p)))) = x2 at *
  generalize (gain p (kdR r) (changeOf d (r.map (FOp.toOp p)))) = x3 at *
  generalize kpR r * ((errOf (r.map (FOp.toOp p)) : Int) : ℚ) = y1 at *
  generalize kiR r * ((sumOf n (r.map (FOp.toOp p)) : Int) : ℚ) = y2 at *
  generalize kdR r * ((changeOf d (r.map (FOp.toOp p)) : Int) : ℚ) = y3 at *
  push_cast
  have t1 := abs_add_le ((x1 : ℚ) - y1 + (x2 - y2)) (x3 - y3)
  have t2 := abs_add_le ((x1 : ℚ) - y1) (x2 - y2)
  have t3 : ((x1 : ℚ) + x2 + x3 - (y1 + y2 + y3)) = x1 - y1 + (x2 - y2) + (x3 - y3) := by ring
  rw [t3, add_div, add_div]
  linarith

/-- A history that meets the conditions: gains 0.7, 0.1 and 1.5, 32 bits, 3 and 2 places. -/
example : (match runW 32 3 2 (init 3 2) ([.tune (11744051 / 2 ^ 24) (13421773 / 2 ^ 27) (3 / 2), .other (.set (.sp 100)),
      .other (.input 0), .other (.input 10), .other (.input 30)].map (FOp.toOp 24)) with
    | .ok q => match computeW 32 3 2 q with | .ok y => some y | _ => none
    | _ => none) = some (49 + 26 - 45) := by decide +kernel

example : Fine 3 100 20000 (.tune (11744051 / 2 ^ 24) (13421773 / 2 ^ 27) (3 / 2)) ∧ Fine 3 100 20000 (.other (.set (.sp 100))) ∧
    Fine 3 100 20000 (.other (.input 30)) := by
  refine ⟨⟨?_, ?_, ?_⟩, ⟨?_, ?_⟩, ⟨?_, ?_⟩⟩ <;> decide +kernel

end Gel.Pid
