import Verif.Pid.Lemmas
import Mathlib.Data.Int.Order.Basic

/-!
# PID: what is computed after any history of settings and inputs, property C119
-/
namespace Gel.Pid
open Spec
variable {α : Type} [AddCommGroup α] [LinearOrder α]

/-! ## Specification: histories, newest call first -/

/-- The gains. -/
def kpOf : List (Op α) → α → α
  | [] => fun _ => 0
  | .set (.tune kp _ _) :: _ => kp
  | _ :: h => kpOf h

def kiOf : List (Op α) → α → α
  | [] => fun _ => 0
  | .set (.tune _ ki _) :: _ => ki
  | _ :: h => kiOf h

def kdOf : List (Op α) → α → α
  | [] => fun _ => 0
  | .set (.tune _ _ kd) :: _ => kd
  | _ :: h => kdOf h

/-- The setpoint and the thresholds: the last one set, 0 before. -/
def spOf : List (Op α) → α
  | [] => 0
  | .set (.sp x) :: _ => x
  | _ :: h => spOf h

def lowOf : List (Op α) → α
  | [] => 0
  | .set (.low x) :: _ => x
  | _ :: h => lowOf h

def highOf : List (Op α) → α
  | [] => 0
  | .set (.high x) :: _ => x
  | _ :: h => highOf h

def dlowOf : List (Op α) → α
  | [] => 0
  | .set (.dlow x) :: _ => x
  | _ :: h => dlowOf h

/-- What is enabled: nothing in the beginning. -/
def lowEnOf : List (Op α) → Bool
  | [] => false
  | .set (.lowEn b) :: _ => b
  | _ :: h => lowEnOf h

def highEnOf : List (Op α) → Bool
  | [] => false
  | .set (.highEn b) :: _ => b
  | _ :: h => highEnOf h

def dthrOf : List (Op α) → Bool
  | [] => false
  | .set (.dthr b) :: _ => b
  | _ :: h => dthrOf h

def autoOf : List (Op α) → Bool
  | [] => false
  | .set (.auto b) :: _ => b
  | _ :: h => autoOf h

/-- The last input. -/
def inputOf : List (Op α) → Option α
  | [] => none
  | .input v :: _ => some v
  | _ :: h => inputOf h

/-- The current error; the input counts as 0 before the first. -/
def errOf (h : List (Op α)) : α := spOf h - (inputOf h).getD 0

/-- The sign of the last error that was not zero when its input came. -/
def signOf : List (Op α) → Int
  | [] => 0
  | .input v :: h => if 0 < spOf h - v then 1 else if spOf h - v < 0 then -1 else signOf h
  | .set _ :: h => signOf h

/-- What the inputs since the last clearing left in the integral history, newest first; `none` for an error of zero. -/
def storedOf : List (Op α) → List (Option α)
  | [] => []
  | .input v :: h =>
    (if spOf h - v = 0 then none else some (contrib (lowEnOf h) (highEnOf h) (lowOf h) (highOf h) (spOf h - v))) ::
      if autoOf h = true ∧ signOf (.input v :: h) ≠ signOf h then [] else storedOf h
  | .set .clear :: _ => []
  | .set _ :: h => storedOf h

/-- The values in effect: an error of zero leaves that of `n` inputs before. -/
def inEffect (n : Nat) : List (Option α) → List α
  | [] => []
  | o :: os => o.getD ((inEffect n os).getD (n - 1) 0) :: inEffect n os

/-- The errors before each input but the first, with the setpoint at the time of the input, newest first. -/
def beforeOf : List (Op α) → List α
  | [] => []
  | .input _ :: h => if (inputOf h).isSome then errOf h :: beforeOf h else []
  | .set _ :: h => beforeOf h

def termP (h : List (Op α)) : α := kpOf h (errOf h)

def termI (n : Nat) (h : List (Op α)) : α := kiOf h ((inEffect n (storedOf h)).take n).sum

def termD (d : Nat) (h : List (Op α)) : α :=
  if beforeOf h = [] then 0
  else if dthrOf h = true ∧ dlowOf h < abs (errOf h) then 0
  else kdOf h (errOf h - (beforeOf h).getD (min d (beforeOf h).length - 1) 0)

/-! ## Proof -/

theorem inEffect_eq (n : Nat) (l : List (Option α)) : inEffect n l = heldO n l := by
  induction l with
  | nil => rfl
  | cons o os ih => simp [inEffect, heldO, ih]

structure G (n d : Nat) (p : Pid α) (h : List (Op α)) : Prop where
  kp : p.kp = kpOf h
  ki : p.ki = kiOf h
  kd : p.kd = kdOf h
  sp : p.sp = spOf h
  low : p.low = lowOf h
  high : p.high = highOf h
  dlow : p.dlow = dlowOf h
  auto : p.auto = autoOf h
  dthr : p.dthr = dthrOf h
  highEn : p.highEn = highEnOf h
  lowEn : p.lowEn = lowEnOf h
  input : p.input = (inputOf h).getD 0
  first : p.first = (inputOf h).isSome
  sign : p.sign = signOf h
  ring : Ring n p.hist p.index (storedOf h)
  dring : Ring d p.dhist p.dindex ((beforeOf h).map some)
  dsize : p.dsize = min d (beforeOf h).length

theorem G_init (n d : Nat) : G n d (init n d : Pid α) [] :=
  ⟨rfl, rfl, rfl, rfl, rfl, rfl, rfl, rfl, rfl, rfl, rfl, rfl, rfl, rfl, ring_init n, ring_init d, by simp [beforeOf, init]⟩

theorem G_set {n d : Nat} {p : Pid α} {h : List (Op α)} (g : G n d p h) (s : Setting α) :
    G n d (set n p s) (.set s :: h) := by
  obtain ⟨a1, a2, a3, a4, a5, a6, a7, a8, a9, a10, a11, a12, a13, a14, a15, a16, a17⟩ := g
  cases s <;> exact ⟨by first | assumption | rfl, by first | assumption | rfl, by first | assumption | rfl,
    by first | assumption | rfl, by first | assumption | rfl, by first | assumption | rfl, by first | assumption | rfl,
    by first | assumption | rfl, by first | assumption | rfl, by first | assumption | rfl, by first | assumption | rfl,
    a12, a13, a14, by first | exact a15 | exact ring_init n, a16, a17⟩

theorem G_sign {n : Nat} {p : Pid α} {h : List (Op α)} (v : α) (hs : p.sign = signOf h) (hsp : p.sp = spOf h)
    (ha : p.auto = autoOf h) :
    updateSign n { p with input := v } (error { p with input := v }) =
      if autoOf h = true ∧ signOf (.input v :: h) ≠ signOf h
      then { p with input := v, sign := signOf (.input v :: h), index := 0, hist := List.replicate n 0 }
      else { p with input := v, sign := signOf (.input v :: h) } := by
  have he : (if 0 < error { p with input := v } then (1 : Int) else if error { p with input := v } < 0 then -1 else p.sign) =
      signOf (.input v :: h) := by
    simp only [error, hs, hsp]; rfl
  simp only [updateSign, he, ← hs, ← ha]
  by_cases h1 : p.sign = signOf (.input v :: h)
  · rw [if_neg (by simpa using h1), if_neg (by simp [h1]), ← h1]
  · rw [if_pos (by simpa using h1)]
    by_cases h2 : p.auto = true
    · rw [if_pos h2, if_pos ⟨h2, fun h => h1 h.symm⟩]; rfl
    · rw [if_neg h2, if_neg (fun h => h2 h.1)]

theorem G_add {n d : Nat} (hn : 0 < n) (hd : 0 < d) {p : Pid α} {h : List (Op α)} (g : G n d p h) (v : α) :
    ∃ p', addInput n d p v = .ok p' ∧ G n d p' (.input v :: h) := by
  -- after the sign
  have key : ∀ (idx : Nat) (hist : List α) (l : List (Option α)), Ring n hist idx l →
      storedOf (.input v :: h) = (if spOf h - v = 0 then none else
        some (contrib (lowEnOf h) (highEnOf h) (lowOf h) (highOf h) (spOf h - v))) :: l →
      ∃ p', (do
        let q : Pid α := { p with input := v, sign := signOf (.input v :: h), index := idx, hist := hist }
        let hh ← store q.hist q.index (entry q (error q))
        addOld d { q with hist := hh, index := (q.index + 1) % n } (error p)) = Res.ok p' ∧ G n d p' (.input v :: h) := by
    intro idx hist l hr hl
    simp only [entry_eq, g.lowEn, g.highEn, g.low, g.high]
    obtain ⟨hh, hst, hr'⟩ := ring_store hn hr (if spOf h - v = 0 then none else
      some (contrib (lowEnOf h) (highEnOf h) (lowOf h) (highOf h) (spOf h - v)))
    rw [← hl] at hr'
    simp only [error, g.sp, g.input, hst, Res.ok_bind, addOld, g.first]
    cases hi : (inputOf h).isSome with
    | false =>
      simp only [Bool.false_eq_true, if_false]
      have hb : ∀ h : List (Op α), (inputOf h).isSome = false → beforeOf h = [] := by
        intro h
        induction h with
        | nil => intro _; rfl
        | cons o h ih =>
          cases o with
          | input w => intro h'; simp [inputOf] at h'
          | set s => intro h'; exact ih (by simpa [inputOf] using h')
      have hb := hb h hi
      refine ⟨_, rfl, g.kp, g.ki, g.kd, rfl, rfl, rfl, g.dlow, g.auto, g.dthr, rfl, rfl, rfl, rfl, rfl, hr', ?_, ?_⟩
      · simp only [beforeOf, hi]; have := g.dring; rw [hb] at this; exact this
      · simp only [beforeOf, hi]; have := g.dsize; rw [hb] at this; exact this
    | true =>
      obtain ⟨dh, hdst, hdr'⟩ := ring_store hd g.dring (some (errOf h))
      simp only [store, errOf] at hdst
      simp only [if_true, hdst, Res.ok_bind]
      refine ⟨_, rfl, g.kp, g.ki, g.kd, rfl, rfl, rfl, g.dlow, g.auto, g.dthr, rfl, rfl, rfl, rfl, rfl, hr', ?_, ?_⟩
      · simp only [beforeOf, hi]; exact hdr'
      · simp only [beforeOf, hi, if_true, List.length_cons, g.dsize]
        split <;> omega
  unfold addInput
  rw [G_sign v g.sign g.sp g.auto]
  by_cases hc : autoOf h = true ∧ signOf (.input v :: h) ≠ signOf h
  · rw [if_pos hc]
    exact key 0 (List.replicate n 0) [] (ring_init n) (by rw [storedOf, if_pos hc])
  · rw [if_neg hc]
    exact key p.index p.hist (storedOf h) g.ring (by rw [storedOf, if_neg hc])

theorem G_run {n d : Nat} (hn : 0 < n) (hd : 0 < d) : ∀ (os : List (Op α)) (p : Pid α) (h : List (Op α)), G n d p h →
    ∃ p', run n d p os = .ok p' ∧ G n d p' (os.reverse ++ h) := by
  intro os
  induction os with
  | nil => exact fun p h g => ⟨p, rfl, g⟩
  | cons o os ih =>
    intro p h g
    cases o with
    | input v =>
      obtain ⟨p₁, h₁, g₁⟩ := G_add hn hd g v
      obtain ⟨p₂, h₂, g₂⟩ := ih p₁ _ g₁
      exact ⟨p₂, by simp only [run, step, h₁, Res.ok_bind, h₂], by simpa using g₂⟩
    | set s =>
      obtain ⟨p₂, h₂, g₂⟩ := ih _ _ (G_set g s)
      exact ⟨p₂, by simp only [run, step, Res.ok_bind, h₂], by simpa using g₂⟩

/-- **C119.** After any history of settings and inputs, in any order, `pid_compute` and its terms. -/
theorem C119_compute (n d : Nat) (hn : 0 < n) (hd : 0 < d) (os : List (Op α)) :
    ∃ p, run n d (init n d) os = .ok p ∧ error p = errOf os.reverse ∧ computeP p = termP os.reverse ∧
      computeI n p = .ok (termI n os.reverse) ∧ computeD d p = .ok (termD d os.reverse) ∧
      compute n d p = .ok (termP os.reverse + termI n os.reverse + termD d os.reverse) := by
  obtain ⟨p, hp, g⟩ := G_run hn hd os _ [] (G_init n d)
  rw [List.append_nil] at g
  set h := os.reverse
  have he : error p = errOf h := by simp [error, errOf, g.sp, g.input]
  have hP : computeP p = termP h := by rw [computeP, termP, he, g.kp]
  have hI : computeI n p = .ok (termI n h) := by
    simp only [computeI, sumFrom_eq p.hist n 0 0 (by rw [g.ring.len, Nat.zero_add]), Res.ok_bind, List.drop_zero, zero_add,
      g.ring.sum, g.ki, Res.pure_eq, termI, inEffect_eq]
  have hD : computeD d p = .ok (termD d h) := by
    unfold computeD termD
    by_cases hb : beforeOf h = []
    · have : p.dsize = 0 := by rw [g.dsize, hb]; simp
      rw [if_pos this, if_pos hb]
    · have hpos : 0 < (beforeOf h).length := List.length_pos_iff.2 hb
      have hds := g.dsize
      have hne : p.dsize ≠ 0 := by omega
      rw [if_neg hne, if_neg hb]
      have hlt : (if p.dsize = d then p.dindex else 0) < d := by
        have := Nat.mod_lt (((beforeOf h).map some).length) hd
        rw [← g.dring.idx] at this
        split <;> omega
      have hval : p.dhist.getD (if p.dsize = d then p.dindex else 0) 0 =
          (beforeOf h).getD (min d (beforeOf h).length - 1) 0 := by
        rw [g.dring.get _ hlt]
        have hs := slot_held hd ((beforeOf h).map some) (min d (beforeOf h).length - 1) (by omega)
        rw [heldO_some, List.length_map] at hs
        rw [← hs]
        congr 1
        have hidx := g.dring.idx
        rw [List.length_map] at hidx
        split
        · rw [hidx, show (beforeOf h).length + d - 1 - (min d (beforeOf h).length - 1) = (beforeOf h).length by omega]
        · rw [show (beforeOf h).length + d - 1 - (min d (beforeOf h).length - 1) = d by omega, Nat.mod_self]
      rw [rd_getD (by rw [g.dring.len]; exact hlt), Res.ok_bind, hval, he, g.dthr, g.dlow, g.kd]
      split <;> rfl
  exact ⟨p, hp, he, hP, hI, hD, by simp only [compute, hI, hD, hP, Res.ok_bind, Res.pure_eq]⟩

/-- Gains changed after the inputs, a threshold between them, and a clearing. -/
example : (match run 3 2 (init 3 2 : Pid Int) [.set (.sp 10), .input 0, .set (.lowEn true), .set (.low 6), .input 2, .input 5,
      .set (.tune (· * 100) (· * 10) id)] with
    | .ok p => match compute 3 2 p with | .ok x => some x | _ => none
    | _ => none) = some (500 + 150 + -5) := by decide

example : termI 3 ([.set (.sp 10), .input 0, .set .clear, .input 4, .set (.tune (· * 100) (· * 10) id)] : List (Op Int)).reverse
    = 60 := by decide

end Gel.Pid
