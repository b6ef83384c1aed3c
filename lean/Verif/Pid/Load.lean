import Verif.Pid.Steady
import Mathlib.Algebra.Order.AbsoluteValue.Basic
import Mathlib.Algebra.Order.Group.Abs
import Mathlib.Tactic.Linarith

/-!
# PID: a process with a constant load, property C225

The loop of C194 with a load: in every cycle the process is moved by the output of the controller and, besides, by a constant amount.
-/
namespace Gel.Pid
open Spec

variable {F : Type} [Field F] [LinearOrder F]

/-! ## Model -/

/-- `k` cycles of `pid_add_input`, `pid_compute` and the process: all its positions, the first one included. -/
def loaded (n d : Nat) (load : F) : Nat → Pid F → F → Res (List F)
  | 0, _, x => .ok [x]
  | k + 1, p, x => do
    let p ← addInput n d p x
    let u ← compute n d p
    let xs ← loaded n d load k p (x + u + load)
    pure (x :: xs)

/-! ## Specification -/

/-- The output after a history (C119). -/
def outOf (n d : Nat) (h : List (Op F)) : F := termP h + termI n h + termD d h

/-- The gains in effect are these numbers. -/
def Gains (h : List (Op F)) (kp ki kd : F) : Prop := kpOf h = (kp * ·) ∧ kiOf h = (ki * ·) ∧ kdOf h = (kd * ·)

/-! ## Proofs -/

theorem loaded_last {n d : Nat} (hn : 0 < n) (hd : 0 < d) (load : F) : ∀ (k : Nat) (os : List (Op F)) (p : Pid F) (x : F) (xs : List F),
    run n d (init n d) os = .ok p → loaded n d load (k + 1) p x = .ok xs →
    ∃ ys a b, xs = ys ++ [a, b] ∧ ys.length = k ∧ b = a + outOf n d (Op.input a :: (ys.reverse.map .input ++ os.reverse)) + load := by
  intro k
  induction k with
  | zero =>
    intro os p x xs hp h
    obtain ⟨q, hq, -, -, -, -, e5⟩ := C119_compute n d hn hd (os ++ [.input x])
    have hstep : addInput n d p x = .ok q := by
      rw [run_snoc, hp, Res.ok_bind] at hq
      exact hq
    rw [loaded, hstep, Res.ok_bind, e5, Res.ok_bind, loaded] at h
    cases h
    exact ⟨[], x, _, rfl, rfl, by simp [outOf]⟩
  | succ k ih =>
    intro os p x xs hp h
    obtain ⟨q, hq, -, -, -, -, e5⟩ := C119_compute n d hn hd (os ++ [.input x])
    have hstep : addInput n d p x = .ok q := by
      rw [run_snoc, hp, Res.ok_bind] at hq
      exact hq
    rw [loaded, hstep, Res.ok_bind, e5, Res.ok_bind, Res.bind_eq_ok] at h
    obtain ⟨xs', h1, h2⟩ := h
    cases h2
    obtain ⟨ys, a, b, rfl, hl, hb⟩ := ih (os ++ [.input x]) q _ _ hq h1
    exact ⟨x :: ys, a, b, rfl, by simp [hl], by simpa using hb⟩

theorem inputs_settings (h : List (Op F)) : ∀ ys : List F,
    kpOf (ys.map .input ++ h) = kpOf h ∧ kiOf (ys.map .input ++ h) = kiOf h ∧ kdOf (ys.map .input ++ h) = kdOf h ∧
    spOf (ys.map .input ++ h) = spOf h
  | [] => ⟨rfl, rfl, rfl, rfl⟩
  | _ :: ys => inputs_settings h ys

section
variable [IsStrictOrderedRing F]

theorem contrib_le (a b : Bool) (x y e : F) : |contrib a b x y e| ≤ |e| := by
  unfold contrib
  split
  · rw [abs_zero]; exact abs_nonneg e
  · exact le_refl _

theorem stored_le (h : List (Op F)) (ε : F) : ∀ ys : List F, (∀ y ∈ ys, spOf h - y ≠ 0 ∧ |spOf h - y| ≤ ε) →
    ∀ z ∈ (storedOf (ys.map .input ++ h)).take ys.length, ∃ c, z = some c ∧ |c| ≤ ε
  | [], _, z, hz => by simp at hz
  | y :: ys, hy, z, hz => by
    obtain ⟨h0, h1⟩ := hy y (by simp)
    have hs := (inputs_settings h ys).2.2.2
    rw [List.map_cons, List.cons_append, storedOf, hs, if_neg h0, List.length_cons, List.take_succ_cons, List.mem_cons] at hz
    rcases hz with rfl | hz
    · exact ⟨_, rfl, (contrib_le _ _ _ _ _).trans h1⟩
    · split at hz
      · simp at hz
      · exact stored_le h ε ys (fun y' hy' => hy y' (by simp [hy'])) z hz

theorem effect_le (n : Nat) (ε : F) : ∀ (l : List (Option F)) (k : Nat), (∀ z ∈ l.take k, ∃ c, z = some c ∧ |c| ≤ ε) →
    ∀ w ∈ (inEffect n l).take k, |w| ≤ ε
  | _, 0, _, w, hw => by simp at hw
  | [], _ + 1, _, w, hw => by simp [inEffect] at hw
  | o :: l, k + 1, h, w, hw => by
    obtain ⟨c, rfl, hc⟩ := h o (by simp)
    rw [inEffect, List.take_succ_cons, List.mem_cons] at hw
    rcases hw with rfl | hw
    · exact hc
    · exact effect_le n ε l k (fun z hz => h z (by simp [hz])) w hw

theorem sum_le (ε : F) : ∀ l : List F, (∀ w ∈ l, |w| ≤ ε) → |l.sum| ≤ l.length * ε
  | [], _ => by simp
  | w :: l, h => by
    have h1 := h w (by simp)
    have h2 := sum_le ε l fun v hv => h v (by simp [hv])
    have h3 := abs_add_le w l.sum
    rw [List.sum_cons, List.length_cons, Nat.cast_add, Nat.cast_one, add_mul, one_mul]
    linarith

theorem before_le (h : List (Op F)) (ε : F) : ∀ (ys : List F) (y : F), (∀ y ∈ ys, |spOf h - y| ≤ ε) →
    ∀ w ∈ (beforeOf (Op.input y :: (ys.map .input ++ h))).take ys.length, |w| ≤ ε
  | [], _, _, w, hw => by simp at hw
  | y' :: ys, y, hy, w, hw => by
    have hs := (inputs_settings h ys).2.2.2
    rw [beforeOf, if_pos (by rfl), List.length_cons, List.take_succ_cons, List.mem_cons] at hw
    rcases hw with rfl | hw
    · have : errOf (List.map Op.input (y' :: ys) ++ h) = spOf h - y' := by
        rw [errOf, (inputs_settings h (y' :: ys)).2.2.2]; rfl
      rw [this]
      exact hy y' (by simp)
    · exact before_le h ε ys y' (fun v hv => hy v (by simp [hv])) w hw

/-- Small errors, none of them zero, give a small output. -/
theorem out_le {n d : Nat} (hn : 0 < n) (hd : 0 < d) {h : List (Op F)} {kp ki kd : F} (hg : Gains h kp ki kd) {ε : F} (hε : 0 ≤ ε) (y : F) (ys : List F)
    (hln : n ≤ ys.length + 1) (hld : d ≤ ys.length) (hy : ∀ v ∈ y :: ys, spOf h - v ≠ 0 ∧ |spOf h - v| ≤ ε) :
    |outOf n d (Op.input y :: (ys.map .input ++ h))| ≤ ε * (|kp| + n * |ki| + 2 * |kd|) := by
  obtain ⟨g1, g2, g3⟩ := hg
  obtain ⟨s1, s2, s3, s4⟩ := inputs_settings h (y :: ys)
  rw [List.map_cons, List.cons_append] at s1 s2 s3 s4
  have he : errOf (Op.input y :: (ys.map .input ++ h)) = spOf h - y := by rw [errOf, s4]; rfl
  have hy0 := (hy y (by simp)).2
  have hP : |termP (Op.input y :: (ys.map .input ++ h))| ≤ |kp| * ε := by
    rw [termP, s1, g1, he, abs_mul]
    exact mul_le_mul_of_nonneg_left hy0 (abs_nonneg _)
  have hI : |termI n (Op.input y :: (ys.map .input ++ h))| ≤ |ki| * (n * ε) := by
    rw [termI, s2, g2, abs_mul]
    refine mul_le_mul_of_nonneg_left ?_ (abs_nonneg _)
    have hst := stored_le h ε (y :: ys) hy
    rw [List.map_cons, List.cons_append, List.length_cons] at hst
    have hall := effect_le n ε (storedOf (Op.input y :: (ys.map .input ++ h))) (ys.length + 1) hst
    have hsub : ∀ w ∈ (inEffect n (storedOf (Op.input y :: (ys.map .input ++ h)))).take n, |w| ≤ ε := fun w hw =>
      hall w ((List.take_subset_take_left _ hln) hw)
    refine (sum_le ε _ hsub).trans ?_
    refine mul_le_mul_of_nonneg_right ?_ hε
    rw [Nat.cast_le, List.length_take]
    omega
  have hD : |termD d (Op.input y :: (ys.map .input ++ h))| ≤ |kd| * (2 * ε) := by
    have h2 : 0 ≤ |kd| * (2 * ε) := mul_nonneg (abs_nonneg _) (by linarith)
    rw [termD]
    split
    · rw [abs_zero]; exact h2
    · rename_i hne
      split
      · rw [abs_zero]; exact h2
      · rw [s3, g3, he, abs_mul]
        refine mul_le_mul_of_nonneg_left ?_ (abs_nonneg _)
        have hpos : 0 < (beforeOf (Op.input y :: (ys.map .input ++ h))).length := List.length_pos_iff.2 hne
        have hall := before_le h ε ys y fun v hv => (hy v (by simp [hv])).2
        generalize beforeOf (Op.input y :: (ys.map .input ++ h)) = l at hpos hall
        have hlt : min d l.length - 1 < l.length := by omega
        have hw := hall (l.getD (min d l.length - 1) 0) (by
          rw [List.getD_eq_getElem _ _ hlt, List.mem_take_iff_getElem]
          exact ⟨min d l.length - 1, by omega, rfl⟩)
        have := abs_sub (spOf h - y) (l.getD (min d l.length - 1) 0)
        linarith
  have h3 := abs_add_three (termP (Op.input y :: (ys.map .input ++ h))) (termI n (Op.input y :: (ys.map .input ++ h)))
    (termD d (Op.input y :: (ys.map .input ++ h)))
  rw [outOf]
  calc _ ≤ _ := h3
    _ ≤ |kp| * ε + |ki| * (n * ε) + |kd| * (2 * ε) := by linarith
    _ = _ := by ring

/-- **C225.** After any history, with any thresholds, gains and load: if in so many cycles as there are samples (and one more than there are
derivative samples) the error is never exactly zero and never larger than `ε`, then `ε` is not smaller than the load divided by a constant
that the gains determine. So the error does not become small, whatever the integral gain. -/
theorem C225_offset_wrong {n d k : Nat} (hn : 0 < n) (hd : 0 < d) (hkn : n ≤ k + 1) (hkd : d ≤ k) (os : List (Op F)) {p : Pid F}
    (hp : run n d (init n d) os = .ok p) {kp ki kd : F} (hg : Gains os.reverse kp ki kd) (load x : F) {xs : List F}
    (h : loaded n d load (k + 1) p x = .ok xs) {ε : F} (hy : ∀ y ∈ xs, spOf os.reverse - y ≠ 0 ∧ |spOf os.reverse - y| ≤ ε) :
    |load| ≤ ε * (2 + |kp| + n * |ki| + 2 * |kd|) := by
  obtain ⟨ys, a, b, rfl, hl, hb⟩ := loaded_last hn hd load k os p x xs hp h
  have ha := hy a (by simp)
  have hb' := hy b (by simp)
  have hε : 0 ≤ ε := (abs_nonneg _).trans ha.2
  have ho := out_le hn hd hg hε a ys.reverse (by simpa [hl] using hkn) (by simpa [hl] using hkd) (by
    intro v hv
    rcases List.mem_cons.1 hv with rfl | hv
    · exact ha
    · exact hy v (by simp at hv; simp [hv]))
  generalize outOf n d (Op.input a :: (ys.reverse.map .input ++ os.reverse)) = u at hb ho
  have e : load = (spOf os.reverse - a) - (spOf os.reverse - b) - u := by rw [hb]; ring
  have h1 := abs_sub ((spOf os.reverse - a) - (spOf os.reverse - b)) u
  have h2 := abs_sub (spOf os.reverse - a) (spOf os.reverse - b)
  have h3 : ε * (2 + |kp| + n * |ki| + 2 * |kd|) = ε + ε + ε * (|kp| + n * |ki| + 2 * |kd|) := by ring
  rw [e, h3]
  linarith [ha.2, hb'.2]

end

/-- What the output is once the input has been `v` for long enough after the history `h` (C194), with the derivative term 0. -/
def settledOut (n : Nat) (h : List (Op F)) (kp ki v : F) : F :=
  kp * (spOf h - v) + ki * (if spOf h - v = 0 then ((inEffect n (storedOf h)).take n).sum
    else n • contrib (lowEnOf h) (highEnOf h) (lowOf h) (highOf h) (spOf h - v))

/-- After any history and so many equal inputs as there are samples, and more than derivative samples: the process stays where it is for
ever if, and only if, the output is what is needed against the load. -/
theorem C225_stays {n d m : Nat} (hn : 0 < n) (hd : 0 < d) (hmn : n ≤ m) (hmd : d < m) (os : List (Op F)) {kp ki kd : F}
    (hg : Gains os.reverse kp ki kd) (load v : F) :
    ∃ p, run n d (init n d) (os ++ List.replicate m (Op.input v)) = .ok p ∧
    (settledOut n os.reverse kp ki v = -load ↔ ∀ k, loaded n d load k p v = .ok (List.replicate (k + 1) v)) := by
  obtain ⟨g1, g2, g3⟩ := hg
  have hout : ∀ m, n ≤ m → d < m → ∃ p, run n d (init n d) (os ++ List.replicate m (Op.input v)) = .ok p ∧
      compute n d p = .ok (settledOut n os.reverse kp ki v) := by
    intro m h1 h2
    obtain ⟨p, hp, he, -, -, hc⟩ := C194_steady n d m hn hd h1 h2 os v
    refine ⟨p, hp, ?_⟩
    rw [hc, g1, g2, g3, he, settledOut]
    simp only [mul_zero, ite_self, add_zero]
  have hnext : ∀ m p, n ≤ m → d < m → run n d (init n d) (os ++ List.replicate m (Op.input v)) = .ok p →
      ∃ q, run n d (init n d) (os ++ List.replicate (m + 1) (Op.input v)) = .ok q ∧ addInput n d p v = .ok q ∧
        compute n d q = .ok (settledOut n os.reverse kp ki v) := by
    intro m p h1 h2 hp
    obtain ⟨q, hq, hc⟩ := hout (m + 1) (by omega) (by omega)
    refine ⟨q, hq, ?_, hc⟩
    rw [List.replicate_succ', ← List.append_assoc, run_snoc, hp, Res.ok_bind] at hq
    exact hq
  obtain ⟨p, hp, -⟩ := hout m hmn hmd
  refine ⟨p, hp, fun hu k => ?_, fun hall => ?_⟩
  · induction k generalizing m p with
    | zero => rfl
    | succ k ih =>
      obtain ⟨q, hq, hs, hc⟩ := hnext m p hmn hmd hp
      rw [loaded, hs, Res.ok_bind, hc, Res.ok_bind, hu, neg_add_cancel_right, ih (by omega) (by omega) q hq]
      rfl
  · obtain ⟨q, hq, hs, hc⟩ := hnext m p hmn hmd hp
    have h1 := hall 1
    rw [loaded, hs, Res.ok_bind, hc, Res.ok_bind, loaded] at h1
    have h2 : v + settledOut n os.reverse kp ki v + load = v := by
      simp only [Res.ok_bind, Res.pure_eq, Res.ok.injEq, List.replicate_succ, List.replicate_zero, List.cons.injEq, true_and, and_true] at h1
      exact h1
    have h3 : settledOut n os.reverse kp ki v + load = 0 := by
      have := congrArg (fun z => -v + z) h2
      simpa [← add_assoc] using this
    exact eq_neg_of_add_eq_zero_left h3

/-- **C225** is false: with every load, and all gains for which the sum of `kp` and `n` times `ki` is not zero, without thresholds, there is a
position away from the setpoint at which the process stays for ever. -/
theorem C225_settled_wrong {n d : Nat} (hn : 0 < n) (hd : 0 < d) (kp ki kd r load : F) (hk : kp + n * ki ≠ 0) (hl : load ≠ 0) :
    ∃ (p : Pid F) (m : Nat) (v : F), v - r = load / (kp + n * ki) ∧ v ≠ r ∧
    run n d (init n d) ([.set (.tune (kp * ·) (ki * ·) (kd * ·)), .set (.sp r)] ++ List.replicate m (Op.input v)) = .ok p ∧
    ∀ k, loaded n d load k p v = .ok (List.replicate (k + 1) v) := by
  have hv : r - (r + load / (kp + n * ki)) ≠ 0 := by
    intro h
    have : load / (kp + n * ki) = 0 := by
      have := congrArg (fun z => -z) h
      simpa using this
    rcases div_eq_zero_iff.1 this with h | h
    · exact hl h
    · exact hk h
  obtain ⟨p, hp, hs⟩ := C225_stays (n := n) (d := d) (m := n + d + 1) hn hd (by omega) (by omega)
    [.set (.tune (kp * ·) (ki * ·) (kd * ·)), .set (.sp r)] (kp := kp) (ki := ki) (kd := kd) ⟨rfl, rfl, rfl⟩ load (r + load / (kp + n * ki))
  refine ⟨p, n + d + 1, _, by ring, fun h => hv (by rw [h, sub_self]), hp, hs.1 ?_⟩
  have e : r - (r + load / (kp + n * ki)) = -(load / (kp + n * ki)) := by ring
  have hset : settledOut n [Op.set (.sp r), .set (.tune (kp * ·) (ki * ·) (kd * ·))] kp ki (r + load / (kp + n * ki)) =
      kp * (r - (r + load / (kp + n * ki))) + ki * (n • (r - (r + load / (kp + n * ki)))) := by
    rw [settledOut]
    have h1 : spOf [Op.set (.sp r), .set (.tune (kp * ·) (ki * ·) (kd * ·))] = r := rfl
    have h2 : lowEnOf [Op.set (.sp r), .set (.tune (kp * ·) (ki * ·) (kd * ·))] = false := rfl
    have h3 : highEnOf [Op.set (.sp r), .set (.tune (kp * ·) (ki * ·) (kd * ·))] = false := rfl
    rw [h1, h2, h3, if_neg hv]
    simp [contrib]
  show settledOut n [Op.set (.sp r), .set (.tune (kp * ·) (ki * ·) (kd * ·))] kp ki _ = _
  have h2 : kp * -(load / (kp + n * ki)) + ki * (n * -(load / (kp + n * ki))) = -(load / (kp + n * ki) * (kp + n * ki)) := by ring
  rw [hset, e, nsmul_eq_mul, h2, div_mul_cancel₀ _ hk]

/-- **C225** (partial). With an error of exactly zero the integral stays what it was, and if it is what is needed against the load the process
stays at the setpoint. Missing: that it gets there, which is false (`C225_offset_wrong`, `C225_settled_wrong`). -/
theorem C225_hold_partial {n d m : Nat} (hn : 0 < n) (hd : 0 < d) (hmn : n ≤ m) (hmd : d < m) (os : List (Op F)) {kp ki kd : F}
    (hg : Gains os.reverse kp ki kd) (load : F) :
    ∃ p, run n d (init n d) (os ++ List.replicate m (Op.input (spOf os.reverse))) = .ok p ∧
    (ki * ((inEffect n (storedOf os.reverse)).take n).sum = -load ↔
      ∀ k, loaded n d load k p (spOf os.reverse) = .ok (List.replicate (k + 1) (spOf os.reverse))) := by
  obtain ⟨p, hp, hs⟩ := C225_stays hn hd hmn hmd os hg load (spOf os.reverse)
  refine ⟨p, hp, ?_⟩
  rw [← hs, settledOut]
  simp

/-! ## Examples -/

private def gE (a : Rat) : List (Op Rat) := [.set (.tune (a * ·) (a * ·) (0 * ·)), .set (.sp 10)]

/-- Gains 1/4, 1/4 and 0, three samples, setpoint 10, load -2: at 8 the integral is 6 and the output 2, and there it stays. -/
example : (do
    let p ← run 3 2 (init 3 2) (gE (1 / 4) ++ List.replicate 5 (Op.input 8))
    loaded 3 2 (-2) 4 p 8) = .ok [8, 8, 8, 8, 8] := by decide +kernel

/-- With gains 1/8 that place is 6; started at 0 the process is close to it after 30 cycles. -/
example : (do
    let p ← run 3 2 (init 3 2) (gE (1 / 8))
    let xs ← loaded 3 2 (-2) 30 p 0
    pure (xs.getLast?.map fun x => decide (5.99 < x ∧ x < 6.01))) = .ok (some true) := by decide +kernel

/-- The bound for the first example: 2 is at most 2 times 3. -/
example : |(-2 : Rat)| ≤ 2 * (2 + |1 / 4| + (3 : Nat) * |1 / 4| + 2 * |0|) := by
  obtain ⟨p, hp, hs⟩ := C225_stays (n := 3) (d := 2) (m := 5) (by decide) (by decide) (by decide) (by decide) (gE (1 / 4)) (kp := 1 / 4) (ki := 1 / 4)
    (kd := 0) ⟨rfl, rfl, rfl⟩ (-2) 8
  exact C225_offset_wrong (n := 3) (d := 2) (k := 3) (by decide) (by decide) (by decide) (by decide) (gE (1 / 4) ++ List.replicate 5 (Op.input 8)) hp
    (kp := 1 / 4) (ki := 1 / 4) (kd := 0) ⟨rfl, rfl, rfl⟩ (-2) 8 (hs.1 (by decide +kernel) 4) (by decide +kernel)

/-- An integral of 8 left by errors of 3 and 5 holds a load of -2 at the setpoint. -/
example : (do
    let p ← run 2 2 (init 2 2) (gE (1 / 4) ++ [Op.input 7, Op.input 5] ++ List.replicate 3 (Op.input 10))
    loaded 2 2 (-2) 4 p 10) = .ok [10, 10, 10, 10, 10] := by decide +kernel

end Gel.Pid
