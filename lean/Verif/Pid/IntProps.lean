import Verif.Pid.IntModel
import Verif.Pid.Props
import Mathlib.Data.Int.Order.Basic
import Mathlib.Tactic.Linarith
import Mathlib.Tactic.SplitIfs

/-!
# PID with integer types: overflow (C105)
-/
namespace Gel.Pid

/-- Within `b` of zero. -/
def Within (b x : Int) : Prop := -b ≤ x ∧ x ≤ b

theorem chkS_within {w : Nat} {b x : Int} (h : Within b x) (hb : b < 2 ^ (w - 1)) : chkS w x = .ok x := by
  have : -(2 : Int) ^ (w - 1) ≤ x ∧ x < (2 : Int) ^ (w - 1) := by
    obtain ⟨h1, h2⟩ := h
    omega
  rw [chkS, if_pos this]

/-- The values in the controller are bounded: setpoint and input by `b`, the histories by `2b`. -/
structure Bounded (b : Int) (p : Pid Int) : Prop where
  sp : Within b p.sp
  input : Within b p.input
  hist : ∀ x ∈ p.hist, Within (2 * b) x
  dhist : ∀ x ∈ p.dhist, Within (2 * b) x

theorem Bounded.error {b : Int} {p : Pid Int} (h : Bounded b p) : Within (2 * b) (error p) := by
  obtain ⟨h1, h2⟩ := h.sp
  obtain ⟨h3, h4⟩ := h.input
  rw [Within, Pid.error]
  omega

theorem errorW_eq {w : Nat} {b : Int} {p : Pid Int} (h : Bounded b p) (hb : 2 * b < 2 ^ (w - 1)) :
    errorW w p = .ok (error p) := chkS_within h.error hb

theorem absW_eq {w : Nat} {b x : Int} (h : Within b x) (hb : b < 2 ^ (w - 1)) : absW w x = .ok (abs x) := by
  rw [absW, abs]
  split
  · rfl
  · refine chkS_within (b := b) ?_ hb
    obtain ⟨h1, h2⟩ := h
    rw [Within]
    omega

theorem below_eq {w : Nat} {b x : Int} (h : Within b x) (hb : b < 2 ^ (w - 1)) (en : Bool) (thr : Int) :
    below w en x thr = .ok (decide (en = false ∨ abs x < thr)) := by
  rw [below]
  cases en
  · simp
  · simp [absW_eq h hb]

theorem entryW_eq {w : Nat} {b e : Int} (h : Within b e) (hb : b < 2 ^ (w - 1)) (p : Pid Int) :
    entryW w p e = .ok (entry p e) := by
  rw [entryW, entry]
  split
  · rw [below_eq h hb]
    by_cases hc : p.lowEn = false ∨ abs e < p.low <;> simp [hc]
  · split
    · rw [below_eq h hb]
      by_cases hc : p.highEn = false ∨ abs e < p.high <;> simp [hc]
    · rfl

theorem entry_within {b e x : Int} {p : Pid Int} (h : Within b e) (hx : entry p e = some x) : Within b x := by
  have h0 : Within b 0 := by
    obtain ⟨h1, h2⟩ := h
    rw [Within]
    omega
  rw [entry] at hx
  split at hx
  · split at hx <;> cases hx
    · exact h
    · exact h0
  · split at hx
    · split at hx <;> cases hx
      · exact h
      · exact h0
    · cases hx

theorem updateSign_fields (n : Nat) (p : Pid Int) (e : Int) :
    (updateSign n p e).sp = p.sp ∧ (updateSign n p e).input = p.input ∧ (updateSign n p e).dhist = p.dhist ∧
    ((updateSign n p e).hist = p.hist ∨ (updateSign n p e).hist = List.replicate n 0) := by
  simp only [updateSign]
  split_ifs <;> simp [clear]

theorem addInputW_eq {w n d : Nat} {b v : Int} {p : Pid Int} (h : Bounded b p) (hv : Within b v) (hb : 2 * b < 2 ^ (w - 1)) :
    addInputW w n d p v = addInput n d p v := by
  have h1 : Bounded b { p with input := v } := ⟨h.sp, hv, h.hist, h.dhist⟩
  obtain ⟨u1, u2, -, -⟩ := updateSign_fields n { p with input := v } (error { p with input := v })
  have he : error (updateSign n { p with input := v } (error { p with input := v })) = error { p with input := v } := by
    rw [error, u1, u2]
    rfl
  rw [addInputW, addInput, errorW_eq h hb, Res.ok_bind, errorW_eq h1 hb, Res.ok_bind]
  simp only [entryW_eq h1.error hb, Res.ok_bind, he]

theorem mem_set {a : List Int} {i : Nat} {x y : Int} (h : y ∈ a.set i x) : y ∈ a ∨ y = x := by
  exact List.mem_or_eq_of_mem_set h

theorem addInput_bounded {n d : Nat} {b v : Int} {p p' : Pid Int} (h : Bounded b p) (hv : Within b v)
    (hp : addInput n d p v = .ok p') : Bounded b p' := by
  have h1 : Bounded b { p with input := v } := ⟨h.sp, hv, h.hist, h.dhist⟩
  obtain ⟨u1, u2, u3, u4⟩ := updateSign_fields n { p with input := v } (error { p with input := v })
  have he : error (updateSign n { p with input := v } (error { p with input := v })) = error { p with input := v } := by
    rw [error, u1, u2]
    rfl
  have h0 : Within (2 * b) 0 := by
    obtain ⟨h1, h2⟩ := hv
    rw [Within]
    omega
  rw [addInput] at hp
  simp only [he] at hp
  generalize hq : updateSign n { p with input := v } (error { p with input := v }) = q at *
  obtain ⟨hh, e1, e2⟩ := Res.bind_eq_ok.1 hp
  have hqh : ∀ x ∈ q.hist, Within (2 * b) x := by
    intro x hx
    rcases u4 with u4 | u4
    · exact h.hist x (u4 ▸ hx)
    · rw [u4] at hx
      rw [(List.mem_replicate.1 hx).2]
      exact h0
  have hhh : ∀ x ∈ hh, Within (2 * b) x := by
    intro x hx
    cases ho : entry q (error { p with input := v }) with
    | none =>
      rw [ho] at e1
      cases e1
      exact hqh x hx
    | some y =>
      rw [ho, store, wr] at e1
      split at e1
      · cases e1
        rcases mem_set hx with hx | rfl
        · exact hqh x hx
        · exact entry_within h1.error ho
      · cases e1
  rw [addOld] at e2
  simp only at e2
  split at e2
  · obtain ⟨dh, e3, e4⟩ := Res.bind_eq_ok.1 e2
    cases e4
    refine ⟨?_, ?_, hhh, ?_⟩
    · simp only [u1]
      exact h.sp
    · simp only [u2]
      exact hv
    · intro x hx
      simp only at hx
      rw [wr] at e3
      split at e3
      · cases e3
        rcases mem_set hx with hx | rfl
        · exact h.dhist x (u3 ▸ hx)
        · exact h.error
      · cases e3
  · cases e2
    refine ⟨?_, ?_, hhh, ?_⟩
    · simp only [u1]
      exact h.sp
    · simp only [u2]
      exact hv
    · intro x hx
      exact h.dhist x (u3 ▸ hx)

/-- A setting that keeps the setpoint within `b`, an input within `b`. -/
def OpWithin (b : Int) : Op Int → Prop
  | .input v => Within b v
  | .set (.sp x) => Within b x
  | .set _ => True

theorem set_bounded {n : Nat} {b : Int} {p : Pid Int} (h : Bounded b p) {s : Setting Int} (hs : OpWithin b (.set s)) :
    Bounded b (set n p s) := by
  have h0 : Within (2 * b) 0 := by
    obtain ⟨h1, h2⟩ := h.sp
    rw [Within]
    omega
  cases s
  case sp x => exact ⟨hs, h.input, h.hist, h.dhist⟩
  case clear =>
    refine ⟨h.sp, h.input, ?_, h.dhist⟩
    intro x hx
    rw [(List.mem_replicate.1 hx).2]
    exact h0
  all_goals exact ⟨h.sp, h.input, h.hist, h.dhist⟩

/-- **C105.** As long as setpoints and inputs are within `b` of zero and `2b` is representable, no history of settings and
inputs overflows, and the controller is the one with exact arithmetic (to which C74-C77 apply). -/
theorem C105_history (w n d : Nat) (b : Int) (hb0 : 0 ≤ b) (hb : 2 * b < 2 ^ (w - 1)) (ops : List (Op Int))
    (hops : ∀ o ∈ ops, OpWithin b o) :
    runW w n d (init n d) ops = run n d (init n d) ops ∧
    ∀ p, run n d (init n d) ops = .ok p → Bounded b p := by
  have key : ∀ (ops : List (Op Int)) (p : Pid Int), (∀ o ∈ ops, OpWithin b o) → Bounded b p →
      runW w n d p ops = run n d p ops ∧ ∀ p', run n d p ops = .ok p' → Bounded b p' := by
    intro ops
    induction ops with
    | nil =>
      intro p _ h
      refine ⟨rfl, ?_⟩
      intro p' hp
      cases hp
      exact h
    | cons o ops ih =>
      intro p ho h
      have hstep : stepW w n d p o = step n d p o := by
        cases o with
        | input v => exact addInputW_eq h (ho (.input v) (by simp)) hb
        | set s => rfl
      have hbd : ∀ p', step n d p o = .ok p' → Bounded b p' := by
        intro p' hp
        cases o with
        | input v => exact addInput_bounded h (ho (.input v) (by simp)) hp
        | set s =>
          cases hp
          exact set_bounded h (ho _ (by simp))
      rw [runW, run, hstep]
      cases hs : step n d p o with
      | ok p1 =>
        obtain ⟨i1, i2⟩ := ih p1 (fun o h => ho o (by simp [h])) (hbd p1 hs)
        exact ⟨i1, i2⟩
      | ub => exact ⟨rfl, fun p' hp => by cases hp⟩
      | abort => exact ⟨rfl, fun p' hp => by cases hp⟩
      | diverge => exact ⟨rfl, fun p' hp => by cases hp⟩
  refine key ops _ hops ⟨?_, ?_, ?_, ?_⟩
  · exact ⟨by simp only [init]; omega, by simp only [init]; omega⟩
  · exact ⟨by simp only [init]; omega, by simp only [init]; omega⟩
  · intro x hx
    rw [(List.mem_replicate.1 hx).2, Within]
    omega
  · intro x hx
    rw [(List.mem_replicate.1 hx).2, Within]
    omega

theorem sumFromW_eq {w : Nat} {b : Int} (a : List Int) (ha : ∀ x ∈ a, Within b x) : ∀ (k i : Nat) (acc : Int),
    i + k = a.length → Within (i * b) acc → (a.length : Int) * b < 2 ^ (w - 1) → 0 ≤ b →
    sumFromW w a k i acc = sumFrom a k i acc
  | 0, _, _, _, _, _, _ => rfl
  | k + 1, i, acc, hk, hacc, hb, h0 => by
    have hi : i < a.length := by omega
    have hx := ha a[i] (List.getElem_mem hi)
    have hs : Within ((i + 1 : Nat) * b) (acc + a[i]) := by
      obtain ⟨h1, h2⟩ := hacc
      obtain ⟨h3, h4⟩ := hx
      rw [Within]
      push_cast
      constructor <;> linarith
    have hle : ((i + 1 : Nat) : Int) * b ≤ (a.length : Int) * b :=
      Int.mul_le_mul_of_nonneg_right (by omega) h0
    have hr : rd a i = .ok a[i] := by simp [rd, hi]
    rw [sumFromW, sumFrom, hr, Res.ok_bind, Res.ok_bind, chkS_within hs (by omega), Res.ok_bind,
      sumFromW_eq a ha k (i + 1) _ (by omega) hs hb h0]

theorem sumFrom_within {b : Int} (a : List Int) (ha : ∀ x ∈ a, Within b x) : ∀ (k i : Nat) (acc s : Int),
    Within (i * b) acc → sumFrom a k i acc = .ok s → Within ((i + k : Nat) * b) s
  | 0, i, acc, s, hacc, h => by cases h; simpa using hacc
  | k + 1, i, acc, s, hacc, h => by
    rw [sumFrom] at h
    obtain ⟨x, hx, h⟩ := Res.bind_eq_ok.1 h
    have hxm : x ∈ a := by
      rw [rd] at hx
      split at hx
      next y hy =>
        cases hx
        exact List.mem_of_getElem? hy
      · cases hx
    have := sumFrom_within a ha k (i + 1) (acc + x) s (by
      obtain ⟨h1, h2⟩ := hacc
      obtain ⟨h3, h4⟩ := ha x hxm
      rw [Within]
      push_cast
      constructor <;> linarith) h
    rwa [show i + (k + 1) = i + 1 + k by omega]

/-- The output: no overflow if the sum of `n` errors and the difference of two are representable, and the products of the
values that can occur with the gains are so small that their sum is; it is then the output of exact arithmetic. -/
theorem C105_compute (w n d : Nat) (b g : Int) (p : Pid Int) (h : Bounded b p) (hn : p.hist.length = n)
    (hb : (n : Int) * (2 * b) < 2 ^ (w - 1)) (hb4 : 4 * b < 2 ^ (w - 1)) (hg : 3 * g < 2 ^ (w - 1))
    (hkp : ∀ x, Within (2 * b) x → Within g (p.kp x)) (hki : ∀ x, Within (n * (2 * b)) x → Within g (p.ki x))
    (hkd : ∀ x, Within (4 * b) x → Within g (p.kd x)) :
    computeW w n d p = compute n d p := by
  have hb0 : 0 ≤ b := by
    obtain ⟨h1, h2⟩ := h.sp
    omega
  have hg0 : 0 ≤ g := by
    obtain ⟨h1, h2⟩ := hkp 0 ⟨by omega, by omega⟩
    omega
  have hsum : ∀ s, sumFrom p.hist n 0 0 = .ok s → Within (n * (2 * b)) s := by
    intro s hs
    have := sumFrom_within p.hist h.hist n 0 0 s ⟨by simp, by simp⟩ hs
    simpa using this
  have hder : ∀ x, rd p.dhist (if p.dsize = d then p.dindex else 0) = .ok x → Within (4 * b) (error p - x) := by
    intro x hr
    have hx : x ∈ p.dhist := by
      rw [rd] at hr
      split at hr
      next y hy =>
        cases hr
        exact List.mem_of_getElem? hy
      · cases hr
    obtain ⟨h1, h2⟩ := h.error
    obtain ⟨h3, h4⟩ := h.dhist x hx
    rw [Within]
    omega
  have hP : computePW w p = .ok (computeP p) := by
    rw [computePW, errorW_eq h (by omega), Res.ok_bind, chkS_within (hkp _ h.error) (by omega)]
    rfl
  have hI : computeIW w n p = computeI n p := by
    rw [computeIW, computeI, sumFromW_eq p.hist h.hist n 0 0 (by omega) ⟨by simp, by simp⟩ (by rw [hn]; exact hb) (by omega)]
    cases hs : sumFrom p.hist n 0 0 with
    | ok s => exact chkS_within (hki s (hsum s hs)) (by omega)
    | _ => rfl
  have hD : computeDW w d p = computeD d p := by
    rw [computeDW, computeD, errorW_eq h (by omega), Res.ok_bind]
    split
    · rfl
    · cases hr : rd p.dhist (if p.dsize = d then p.dindex else 0) with
      | ok x =>
        have hw := hder x hr
        rw [Res.ok_bind, Res.ok_bind, chkS_within hw hb4, Res.ok_bind, below_eq h.error (by omega), Res.ok_bind]
        by_cases hc : p.dthr = true ∧ p.dlow < abs (error p)
        · have hn : ¬ (p.dthr = false ∨ abs (error p) < p.dlow + 1) := by
            rintro (h | h)
            · rw [hc.1] at h; cases h
            · omega
          simp [hc, hn]
          omega
        · have hn : p.dthr = false ∨ abs (error p) < p.dlow + 1 := by
            cases hd : p.dthr
            · exact Or.inl rfl
            · right
              have : ¬ p.dlow < abs (error p) := fun h => hc ⟨hd, h⟩
              omega
          rw [if_neg hc]
          simp only [hn, decide_true, if_true]
          exact chkS_within (hkd _ hw) (by omega)
      | _ => rfl
  have hIr : ∀ i, computeI n p = .ok i → Within g i := by
    intro i hi
    obtain ⟨s, e1, e2⟩ := Res.bind_eq_ok.1 hi
    cases e2
    exact hki s (hsum s e1)
  have hDr : ∀ k, computeD d p = .ok k → Within g k := by
    intro k hk
    have h0 : Within g 0 := ⟨by omega, by omega⟩
    rw [computeD] at hk
    split at hk
    · cases hk
      exact h0
    · obtain ⟨x, e1, e2⟩ := Res.bind_eq_ok.1 hk
      split at e2 <;> cases e2
      · exact h0
      · exact hkd _ (hder x e1)
  rw [computeW, compute, hP, Res.ok_bind, hI, hD]
  cases hi : computeI n p with
  | ok i =>
    simp only [Res.ok_bind]
    cases hk : computeD d p with
    | ok k =>
      simp only [Res.ok_bind]
      obtain ⟨a1, a2⟩ := hkp _ h.error
      obtain ⟨b1, b2⟩ := hIr i hi
      obtain ⟨c1, c2⟩ := hDr k hk
      have w1 : Within (2 * g) (computeP p + i) := by
        rw [Within, computeP]
        omega
      have w2 : Within (3 * g) (computeP p + i + k) := by
        rw [Within, computeP]
        omega
      rw [chkS_within w1 (by omega), Res.ok_bind, chkS_within w2 hg]
      rfl
    | _ => rfl
  | _ => rfl

/-- **C105**, the limits: an input too far from the setpoint is undefined. -/
theorem C105_error_wrong (w n d : Nat) (p : Pid Int) (v : Int)
    (hv : (2 : Int) ^ (w - 1) ≤ p.sp - v ∨ p.sp - v < -(2 : Int) ^ (w - 1)) :
    addInputW w n d p v = .ub := by
  have h2 : errorW w { p with input := v } = .ub := by
    rw [errorW, chkS, if_neg (by simp only; omega)]
  have h1 : errorW w p = .ok (p.sp - p.input) ∨ errorW w p = .ub := by
    rw [errorW, chkS]
    split
    · exact Or.inl rfl
    · exact Or.inr rfl
  rw [addInputW, h2]
  rcases h1 with h1 | h1 <;> rw [h1] <;> rfl

/-- A sum of errors of one sign that is not representable is undefined. -/
theorem sumFromW_ub {w : Nat} (a : List Int) (e : Int) (he : 0 < e) (ha : ∀ x ∈ a, x = e) : ∀ (k i : Nat) (acc : Int),
    i + k ≤ a.length → 0 ≤ acc → acc < 2 ^ (w - 1) → (2 : Int) ^ (w - 1) ≤ acc + k * e → sumFromW w a k i acc = .ub
  | 0, _, acc, _, _, h1, h2 => by simp at h2; omega
  | k + 1, i, acc, hk, h0, h1, h2 => by
    have hi : i < a.length := by omega
    have hx := ha a[i] (List.getElem_mem hi)
    have hr : rd a i = .ok e := by simp [rd, hi, hx]
    rw [sumFromW, hr, Res.ok_bind]
    by_cases hc : acc + e < 2 ^ (w - 1)
    · have hok : chkS w (acc + e) = .ok (acc + e) := by
        rw [chkS, if_pos ⟨by omega, hc⟩]
      rw [hok, Res.ok_bind]
      refine sumFromW_ub a e he ha k (i + 1) _ (by omega) (by omega) hc ?_
      push_cast at h2
      linarith
    · have hub : chkS w (acc + e) = .ub := by
        rw [chkS, if_neg (by omega)]
      rw [hub]
      rfl

theorem set_partial (j m : Nat) (e : Int) (hj : j < m) :
    (List.replicate j e ++ List.replicate (m - j) 0).set j e = List.replicate (j + 1) e ++ List.replicate (m - (j + 1)) 0 := by
  obtain ⟨r, rfl⟩ : ∃ r, m = j + 1 + r := ⟨m - (j + 1), by omega⟩
  have h1 : j + 1 + r - j = r + 1 := by omega
  have h2 : j + 1 + r - (j + 1) = r := by omega
  rw [h1, h2, List.set_append_right _ _ (by simp), List.length_replicate, Nat.sub_self, List.replicate_succ,
    List.set_cons_zero, List.replicate_succ', List.append_assoc]
  rfl

/-- **C105**, the limits: the default controller (no thresholds) held at a constant representable error `e`. Each input is
accepted, but after `n` of them, if `n·e` is not representable, the integral and the output are undefined. -/
theorem C105_sum_wrong (w n d : Nat) (hn : 0 < n) (hd : 0 < d) (e : Int) (he : 0 < e) (hr : e < 2 ^ (w - 1))
    (hs : (2 : Int) ^ (w - 1) ≤ n * e) :
    ∃ p, runW w n d (init n d) (.set (.sp e) :: List.replicate n (.input 0)) = .ok p ∧
      p.sp = e ∧ p.input = 0 ∧ computeIW w n p = .ub ∧ (chkS w (p.kp e) = .ok (p.kp e) → computeW w n d p = .ub) := by
  have herr : chkS w e = .ok e := by
    rw [chkS, if_pos ⟨by omega, hr⟩]
  have key : ∀ k j, j + k = n → ∀ p : Pid Int, p.sp = e → p.input = 0 → p.auto = false → p.lowEn = false →
      (p.index = if j = n then 0 else j) → p.hist = List.replicate j e ++ List.replicate (n - j) 0 → p.dhist.length = d →
      p.dindex < d →
      ∃ p', runW w n d p (List.replicate k (.input 0)) = .ok p' ∧ p'.sp = e ∧ p'.input = 0 ∧
        p'.hist = List.replicate n e := by
    intro k
    induction k with
    | zero =>
      intro j hj p h1 h2 _ _ _ h6 _ _
      have : j = n := by omega
      subst this
      exact ⟨p, rfl, h1, h2, by simpa using h6⟩
    | succ k ih =>
      intro j hj p h1 h2 h3 h4 h5 h6 h7 h8
      have hjn : j ≠ n := by omega
      rw [if_neg hjn] at h5
      have ep : errorW w p = .ok e := by
        rw [errorW, h1, h2, sub_zero, herr]
      have ep' : errorW w { p with input := 0 } = .ok e := by
        rw [errorW, h1, sub_zero, herr]
      have hq : ∃ s, updateSign n { p with input := 0 } e = { p with input := 0, sign := s } := by
        simp only [updateSign]
        by_cases hA : p.sign ≠ (if 0 < e then 1 else if e < 0 then -1 else p.sign)
        · rw [if_pos hA, if_neg (by simp [h3])]
          exact ⟨_, rfl⟩
        · rw [if_neg hA]
          exact ⟨p.sign, rfl⟩
      obtain ⟨s, hq⟩ := hq
      have hent : entryW w { p with input := 0, sign := s } e = .ok (some e) := by
        rw [entryW, if_pos he, below, if_pos h4]
        rfl
      have hst : store p.hist p.index (some e) = .ok (List.replicate (j + 1) e ++ List.replicate (n - (j + 1)) 0) := by
        rw [store, h5, h6, wr, if_pos (by simp; omega), set_partial j n e (by omega)]
      have hidx : (p.index + 1) % n = if j + 1 = n then 0 else j + 1 := by
        rw [h5]
        split
        next h => rw [h, Nat.mod_self]
        next h => exact Nat.mod_eq_of_lt (by omega)
      have hadd : ∃ p1, addInputW w n d p 0 = .ok p1 ∧ p1.sp = e ∧ p1.input = 0 ∧ p1.auto = false ∧ p1.lowEn = false ∧
          (p1.index = if j + 1 = n then 0 else j + 1) ∧
          p1.hist = List.replicate (j + 1) e ++ List.replicate (n - (j + 1)) 0 ∧ p1.dhist.length = d ∧ p1.dindex < d := by
        rw [addInputW, ep, Res.ok_bind, ep', Res.ok_bind]
        simp only [hq, hent, hst, Res.ok_bind]
        rw [addOld]
        simp only
        split
        · rw [wr, if_pos (by omega), Res.ok_bind]
          exact ⟨_, rfl, h1, rfl, h3, h4, hidx, rfl, by simpa using h7, Nat.mod_lt _ hd⟩
        · exact ⟨_, rfl, h1, rfl, h3, h4, hidx, rfl, h7, h8⟩
      obtain ⟨p1, a0, a1, a2, a3, a4, a5, a6, a7, a8⟩ := hadd
      obtain ⟨p', b0, b1⟩ := ih (j + 1) (by omega) p1 a1 a2 a3 a4 a5 a6 a7 a8
      refine ⟨p', ?_, b1⟩
      rw [List.replicate_succ, runW, stepW, a0, Res.ok_bind, b0]
  obtain ⟨p, c0, c1, c2, c3⟩ := key n 0 (by omega) (set n (init n d) (.sp e)) rfl rfl rfl rfl
    (by simp [set, setSp, init]) (by simp [set, setSp, init]) (by simp [set, setSp, init]) hd
  have hI : computeIW w n p = .ub := by
    rw [computeIW, sumFromW_ub p.hist e he ?_ n 0 0 (by rw [c3]; simp) (le_refl _) (by positivity) (by simpa using hs)]
    · rfl
    · intro x hx
      rw [c3] at hx
      exact (List.mem_replicate.1 hx).2
  refine ⟨p, c0, c1, c2, hI, ?_⟩
  intro hk
  have : computePW w p = .ok (p.kp e) := by
    rw [computePW, errorW, c1, c2, sub_zero, herr, Res.ok_bind, hk]
  rw [computeW, this, Res.ok_bind, hI]
  rfl

/-- With 32 bits and 2 samples, errors of `2 ^ 30` overflow; errors up to `2 ^ 28` are exact with 4 samples. -/
example : ∃ p, runW 32 2 1 (init 2 1) (.set (.sp (2 ^ 30)) :: List.replicate 2 (.input 0)) = .ok p ∧
    computeIW 32 2 p = .ub := by
  obtain ⟨p, h, -, -, h4, -⟩ := C105_sum_wrong 32 2 1 (by decide) (by decide) (2 ^ 30) (by decide) (by decide) (by decide)
  exact ⟨p, h, h4⟩

/-- Non-trivial instance: gains of 2, 1 and 1 and values up to 100. -/
example (p : Pid Int) (h : Bounded 100 p) (hn : p.hist.length = 4) (h1 : p.kp = fun x => 2 * x) (h2 : p.ki = id)
    (h3 : p.kd = id) : computeW 16 4 2 p = compute 4 2 p :=
  C105_compute 16 4 2 100 800 p h hn (by decide) (by decide) (by decide)
    (fun x hx => by rw [h1]; simp only [Within] at *; omega) (fun x hx => by rw [h2]; simp only [Within, id] at *; omega)
    (fun x hx => by rw [h3]; simp only [Within, id] at *; omega)

/-- A run within the bounds, and its output. -/
example : (do
    let p ← runW 16 2 1 (init 2 1)
      [.set (.tune (fun x => 2 * x) id id), .set (.sp 100), .input 40, .input 70, .input 130]
    computeW 16 2 1 p) = .ok (2 * (-30) + (30 + -30) + (-30 - 30)) := by decide

example : addInputW 16 2 1 (set 2 (init 2 1) (.sp 20000)) (-20000) = .ub :=
  C105_error_wrong 16 2 1 _ _ (Or.inl (by decide))

end Gel.Pid
