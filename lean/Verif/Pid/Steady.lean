import Verif.Pid.General
import Mathlib.Algebra.Order.Field.Basic
import Mathlib.Data.List.GetD
import Mathlib.Tactic.Ring
import Mathlib.Tactic.NormNum

/-!
# PID: constant errors and a closed loop, property C194
-/
namespace Gel.Pid
open Spec
variable {α : Type} [AddCommGroup α] [LinearOrder α]

/-- `m` times the input `v` after the history `h` (newest call first). -/
def again (m : Nat) (v : α) (h : List (Op α)) : List (Op α) := List.replicate m (.input v) ++ h

theorem again_succ (m : Nat) (v : α) (h : List (Op α)) : again (m + 1) v h = .input v :: again m v h := rfl

theorem again_settings (m : Nat) (v : α) (h : List (Op α)) :
    kpOf (again m v h) = kpOf h ∧ kiOf (again m v h) = kiOf h ∧ kdOf (again m v h) = kdOf h ∧ spOf (again m v h) = spOf h ∧
    lowOf (again m v h) = lowOf h ∧ highOf (again m v h) = highOf h ∧ dlowOf (again m v h) = dlowOf h ∧
    lowEnOf (again m v h) = lowEnOf h ∧ highEnOf (again m v h) = highEnOf h ∧ dthrOf (again m v h) = dthrOf h := by
  induction m with
  | zero => exact ⟨rfl, rfl, rfl, rfl, rfl, rfl, rfl, rfl, rfl, rfl⟩
  | succ m ih => exact ih

theorem again_err (m : Nat) (v : α) (h : List (Op α)) : errOf (again (m + 1) v h) = spOf h - v := by
  have hs : spOf (again (m + 1) v h) = spOf h := (again_settings (m + 1) v h).2.2.2.1
  rw [errOf, hs]; rfl

theorem again_before (m : Nat) (v : α) (h : List (Op α)) :
    beforeOf (again (m + 1) v h) = List.replicate m (spOf h - v) ++ beforeOf (.input v :: h) := by
  induction m with
  | zero => rfl
  | succ m ih =>
    rw [again_succ, beforeOf, if_pos (by rfl), again_err, ih]; rfl

theorem again_sign (m : Nat) (v : α) (h : List (Op α)) :
    signOf (again (m + 1) v h) = signOf (.input v :: h) := by
  induction m with
  | zero => rfl
  | succ m ih =>
    have hs : spOf (again (m + 1) v h) = spOf h := (again_settings (m + 1) v h).2.2.2.1
    rw [again_succ, signOf, hs, ih, signOf]
    by_cases h1 : 0 < spOf h - v
    · rw [if_pos h1, if_pos h1]
    · rw [if_neg h1, if_neg h1]
      by_cases h2 : spOf h - v < 0
      · rw [if_pos h2, if_pos h2]
      · rw [if_neg h2, if_neg h2]

theorem again_stored (m : Nat) (v : α) (h : List (Op α)) (hne : spOf h - v ≠ 0) :
    ∃ rest, storedOf (again (m + 1) v h) =
      List.replicate (m + 1) (some (contrib (lowEnOf h) (highEnOf h) (lowOf h) (highOf h) (spOf h - v))) ++ rest := by
  induction m with
  | zero => exact ⟨_, by rw [again_succ]; show storedOf (.input v :: h) = _; rw [storedOf, if_neg hne]; rfl⟩
  | succ m ih =>
    obtain ⟨rest, hr⟩ := ih
    refine ⟨rest, ?_⟩
    obtain ⟨-, -, -, a4, a5, a6, -, a8, a9, -⟩ := again_settings (m + 1) v h
    rw [again_succ, storedOf, a4, a5, a6, a8, a9, if_neg hne, if_neg]
    · rw [hr]; rfl
    · rintro ⟨-, hc⟩
      have h1 : signOf (.input v :: again (m + 1) v h) = signOf (.input v :: h) := again_sign (m + 1) v h
      rw [h1, again_sign] at hc
      exact hc rfl

theorem inEffect_some (n m : Nat) (c : α) (rest : List (Option α)) :
    inEffect n (List.replicate m (some c) ++ rest) = List.replicate m c ++ inEffect n rest := by
  induction m with
  | zero => rfl
  | succ m ih => rw [List.replicate_succ, List.cons_append, inEffect, ih]; rfl

/-- An error of zero leaves the sum as it is. -/
theorem sum_zero (n : Nat) (hn : 0 < n) (v : α) (h : List (Op α)) (hz : spOf h - v = 0) :
    ((inEffect n (storedOf (.input v :: h))).take n).sum = ((inEffect n (storedOf h)).take n).sum := by
  have hs : signOf (.input v :: h) = signOf h := by
    rw [signOf, hz, if_neg (lt_irrefl 0), if_neg (lt_irrefl 0)]
  rw [storedOf, if_pos hz, if_neg (by rintro ⟨-, hc⟩; exact hc hs), inEffect, Option.getD_none]
  generalize inEffect n (storedOf h) = l
  obtain ⟨k, rfl⟩ : ∃ k, n = k + 1 := ⟨n - 1, by omega⟩
  rw [List.take_succ_cons, List.sum_cons, Nat.add_sub_cancel]
  by_cases hk : k < l.length
  · rw [List.take_succ_eq_append_getElem hk, List.sum_append, List.sum_singleton, List.getD_eq_getElem _ _ hk, add_comm]
  · rw [List.getD_eq_default _ _ (by omega), zero_add, List.take_of_length_le (by omega), List.take_of_length_le (by omega)]

theorem again_zero (n : Nat) (hn : 0 < n) (m : Nat) (v : α) (h : List (Op α)) (hz : spOf h - v = 0) :
    ((inEffect n (storedOf (again m v h))).take n).sum = ((inEffect n (storedOf h)).take n).sum := by
  induction m with
  | zero => rfl
  | succ m ih =>
    rw [again_succ, sum_zero n hn v _ (by rw [(again_settings m v h).2.2.2.1]; exact hz), ih]

/-- **C194.** After any history, if the input is the same `m` times, and `m` is at least the number of samples of the integral and more than
that of the derivative: the output does not depend on `m`, nor, if the error is not zero, on anything that was before but the settings. With an
error of zero the integral stays what it was. -/
theorem C194_steady (n d m : Nat) (hn : 0 < n) (hd : 0 < d) (hmn : n ≤ m) (hmd : d < m) (os : List (Op α)) (v : α) :
    ∃ p, run n d (init n d) (os ++ List.replicate m (.input v)) = .ok p ∧ error p = spOf os.reverse - v ∧
      computeI n p = .ok (kiOf os.reverse (if error p = 0 then ((inEffect n (storedOf os.reverse)).take n).sum
        else n • contrib (lowEnOf os.reverse) (highEnOf os.reverse) (lowOf os.reverse) (highOf os.reverse) (error p))) ∧
      computeD d p = .ok (if dthrOf os.reverse = true ∧ dlowOf os.reverse < abs (error p) then 0 else kdOf os.reverse 0) ∧
      compute n d p = .ok (kpOf os.reverse (error p) +
        kiOf os.reverse (if error p = 0 then ((inEffect n (storedOf os.reverse)).take n).sum
          else n • contrib (lowEnOf os.reverse) (highEnOf os.reverse) (lowOf os.reverse) (highOf os.reverse) (error p)) +
        if dthrOf os.reverse = true ∧ dlowOf os.reverse < abs (error p) then 0 else kdOf os.reverse 0) := by
  obtain ⟨p, hp, h1, h2, h3, h4, h5⟩ := C119_compute n d hn hd (os ++ List.replicate m (.input v))
  have hrev : (os ++ List.replicate m (Op.input v)).reverse = again m v os.reverse := by
    rw [List.reverse_append, List.reverse_replicate]; rfl
  rw [hrev] at h1 h2 h3 h4 h5
  generalize os.reverse = h at h1 h2 h3 h4 h5 ⊢
  obtain ⟨a1, a2, a3, a4, a5, a6, a7, a8, a9, a10⟩ := again_settings m v h
  obtain ⟨k, rfl⟩ : ∃ k, m = k + 1 := ⟨m - 1, by omega⟩
  have he : errOf (again (k + 1) v h) = spOf h - v := again_err k v h
  rw [he] at h1
  have hI : termI n (again (k + 1) v h) = kiOf h (if spOf h - v = 0 then ((inEffect n (storedOf h)).take n).sum
        else n • contrib (lowEnOf h) (highEnOf h) (lowOf h) (highOf h) (spOf h - v)) := by
    rw [termI, a2]
    congr 1
    by_cases hz : spOf h - v = 0
    · rw [if_pos hz, again_zero n hn _ _ _ hz]
    · rw [if_neg hz]
      obtain ⟨rest, hr⟩ := again_stored k v h hz
      rw [hr, inEffect_some, List.take_append_of_le_length (by rw [List.length_replicate]; omega), List.take_replicate,
        Nat.min_eq_left hmn, List.sum_replicate]
  have hD : termD d (again (k + 1) v h) = if dthrOf h = true ∧ dlowOf h < abs (spOf h - v) then 0 else kdOf h 0 := by
    have hb := again_before k v h
    have hlt : min d (beforeOf (again (k + 1) v h)).length - 1 < k := by omega
    have hpos : beforeOf (again (k + 1) v h) ≠ [] := by
      rw [hb]
      intro hc
      have := congrArg List.length hc
      rw [List.length_append, List.length_replicate, List.length_nil] at this
      omega
    rw [termD, if_neg hpos, a10, a7, he, a3]
    have hg : (beforeOf (again (k + 1) v h)).getD (min d (beforeOf (again (k + 1) v h)).length - 1) 0 = spOf h - v := by
      generalize min d (beforeOf (again (k + 1) v h)).length - 1 = j at hlt
      rw [hb, List.getD_append _ _ _ _ (by rw [List.length_replicate]; exact hlt), List.getD_replicate _ hlt]
    rw [hg, sub_self]
  have hP : termP (again (k + 1) v h) = kpOf h (spOf h - v) := by rw [termP, a1, he]
  refine ⟨p, hp, h1, ?_, ?_, ?_⟩
  · rw [h3, hI, h1]
  · rw [h4, hD, h1]
  · rw [h5, hP, hI, hD, h1]

/-- The integral does not grow without bound under a constant error: here it is 3 times the error. With the error zero it stays. -/
example : (do
    let p ← run 3 2 (init 3 2 : Pid Int) (([.set (.sp 10), .set (.tune id (· * 10) id)] : List (Op Int)) ++ List.replicate 5 (Op.input 8))
    let a ← compute 3 2 p
    let p ← run 3 2 p (List.replicate 40 (Op.input 8))
    let b ← compute 3 2 p
    let p ← run 3 2 p (List.replicate 7 (Op.input 10))
    let c ← compute 3 2 p
    pure [a, b, c]) = .ok [62, 62, 60] := by decide +kernel

/-! ## A closed loop -/

section Loop
variable {F : Type} [Field F] [LinearOrder F]

/-- The controller and a plant that moves by the output in every cycle, `k` cycles: the position of the plant. -/
def loop (n d : Nat) : Nat → Pid F → F → Res F
  | 0, _, x => .ok x
  | k + 1, p, x => do
    let p ← addInput n d p x
    let u ← compute n d p
    loop n d k p (x + u)

theorem run_snoc (n d : Nat) (o : Op F) (os : List (Op F)) : ∀ p : Pid F,
    run n d p (os ++ [o]) = (do let p ← run n d p os; step n d p o) := by
  induction os with
  | nil =>
    intro p
    simp only [List.nil_append, run, Res.ok_bind]
    cases step n d p o <;> rfl
  | cons a os ih =>
    intro p
    rw [List.cons_append, run, run]
    cases h : step n d p a with
    | ok q => rw [Res.ok_bind, Res.ok_bind, ih]
    | ub => rfl
    | abort => rfl
    | diverge => rfl

/-- **C194.** With a proportional gain `g` only, after `k` cycles the error is `(1 - g) ^ k` times what it was in the beginning. -/
theorem C194_loop (n d : Nat) (hn : 0 < n) (hd : 0 < d) (g s x : F) (k : Nat) :
    loop n d k ([.sp s, .tune (g * ·) (fun _ => 0) (fun _ => 0)].foldl (set n) (init n d)) x = .ok (s - (1 - g) ^ k * (s - x)) := by
  have key : ∀ (k : Nat) (os : List (Op F)) (p : Pid F) (x : F), run n d (init n d) os = .ok p → kpOf os.reverse = (g * ·) →
      kiOf os.reverse = (fun _ => 0) → kdOf os.reverse = (fun _ => 0) → spOf os.reverse = s →
      loop n d k p x = .ok (s - (1 - g) ^ k * (s - x)) := by
    intro k
    induction k with
    | zero => intro os p x _ _ _ _ _; rw [loop]; congr 1; ring
    | succ k ih =>
      intro os p x hp h1 h2 h3 h4
      obtain ⟨q, hq, e1, -, -, -, e5⟩ := C119_compute n d hn hd (os ++ [.input x])
      have hstep : addInput n d p x = .ok q := by
        rw [run_snoc, hp, Res.ok_bind] at hq
        exact hq
      have hr : (os ++ [Op.input x]).reverse = .input x :: os.reverse := by simp
      rw [hr] at e1 e5
      have hsp : spOf (.input x :: os.reverse) = s := h4
      have herr : errOf (.input x :: os.reverse) = s - x := by rw [errOf, hsp]; rfl
      have hP : termP (.input x :: os.reverse) = g * (s - x) := by
        rw [termP, herr]
        show kpOf os.reverse (s - x) = _
        rw [h1]
      have hI : termI n (.input x :: os.reverse) = 0 := by
        rw [termI]
        show kiOf os.reverse _ = 0
        rw [h2]
      have hD : termD d (.input x :: os.reverse) = 0 := by
        rw [termD]
        split
        · rfl
        · split
          · rfl
          · show kdOf os.reverse _ = 0
            rw [h3]
      rw [hP, hI, hD] at e5
      rw [loop, hstep, Res.ok_bind, e5, Res.ok_bind]
      rw [ih (os ++ [.input x]) q _ hq (by rw [hr]; exact h1) (by rw [hr]; exact h2) (by rw [hr]; exact h3) (by rw [hr]; exact h4)]
      congr 1
      ring
  exact key k [.set (.sp s), .set (.tune (g * ·) (fun _ => 0) (fun _ => 0))] _ x rfl rfl rfl rfl rfl

end Loop

/-- From 0 to 16 with the gain 3/2: the error is halved and changes its sign in every cycle. -/
example : loop 3 2 3 ([.sp 16, .tune ((3 / 2 : Rat) * ·) (fun _ => 0) (fun _ => 0)].foldl (set 3) (init 3 2)) 0 = .ok 18 := by
  rw [C194_loop 3 2 (by decide) (by decide)]
  norm_num

end Gel.Pid
