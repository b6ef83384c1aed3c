import Verif.Time.Timer
import Verif.Time.TimerSpec
import Verif.Time.StopwatchProps

/-!
# Timer: properties C59 to C61, C92 and C106
-/
namespace Gel.Timer

open Stopwatch Time

/-- Running from the true time `t0` with period `p`, nothing elapsed before. -/
def Armed (t : Timer w κ) (t0 p : Nat) : Prop :=
  t.watch.mode = .counting ∧ t.watch.starting = BitVec.ofNat w t0 ∧ t.watch.elapsed = 0 ∧ t.watch.total.toNat = p

theorem armed_reached (hw : 0 < w) {t : Timer w κ} {t0 p : Nat} (h : Armed t t0 p) (hp : p < 2 ^ (w - 1)) (now : Nat)
    (h1 : t0 ≤ now) (h2 : now ≤ t0 + p + 2 ^ (w - 1)) :
    isReached t.watch (BitVec.ofNat w now) = decide (t0 + p ≤ now) := by
  obtain ⟨hm, hs, he, ht⟩ := h
  have h2w := half w hw
  rw [isReached, hm]
  simp only [he]
  have hsN : ∀ n : Nat, BitVec.ofNat w n = stamp w n := fun n => by rw [stamp, BitVec.ofInt_natCast]
  have hc : ((2 ^ w : Nat) : Int) = 2 ^ w := by push_cast; rfl
  by_cases h0 : (0 : BitVec w) < t.watch.total
  · have hsub : t.watch.total - 0 = stamp w p := by
      rw [← hsN, ← ht]; simp
    rw [if_pos h0, hsub, hs, hsN, hsN, Bool.eq_iff_iff, ((C53_expired w _ _ _).1 (by omega) (by omega)).1,
      decide_eq_true_iff]
    omega
  · rw [if_neg h0]
    rw [BitVec.lt_def, ht] at h0
    have : p = 0 := by simpa using h0
    symm; rw [decide_eq_true_iff]; omega

theorem polls_stopped (env : κ → Timer w κ → Timer w κ) (t : Timer w κ) (h : t.watch.mode = .stopped) (now : BitVec w) :
    manage env t now = .ok (t, false) := by
  rw [manage, isReached, h]; rfl

theorem init_armed (period : BitVec w) (t0 : Nat) (cb : Option κ) :
    Armed (init period (BitVec.ofNat w t0) cb) t0 period.toNat := ⟨rfl, rfl, rfl, rfl⟩

theorem resume_armed (t : Timer w κ) (h : t.watch.mode = .stopped) (he : t.watch.elapsed = 0) (t0 : Nat) :
    Armed (resume t (BitVec.ofNat w t0)) t0 t.watch.total.toNat := by
  simp [Armed, resume, start, h, he]

/-- **C59.** A timer without autoreload, running with a period of less than half the range and whose callback does not
turn autoreload on, polled at times not before its start, the first poll after the end of the period coming at most half
the range late: poll `k` calls the callback exactly if it is the first one not before the end of the period. -/
theorem C59_one_shot (w : Nat) (hw : 0 < w) (κ : Type) (env : κ → Timer w κ → Timer w κ) (c : κ)
    (henv : ∀ t, t.autoreload = 0 → (env c t).autoreload = 0) (t : Timer w κ) (ht : t.autoreload = 0)
    (hcb : t.callback = some c) (t0 p : Nat) (ha : Armed t t0 p) (hp : p < 2 ^ (w - 1)) (τ : Nat → Nat)
    (h0 : ∀ k, t0 ≤ τ k) (hgap : ∀ k, (∀ j, j < k → τ j < t0 + p) → τ k ≤ t0 + p + 2 ^ (w - 1)) (k : Nat) :
    ∃ b, fired env t τ k = .ok b ∧ (b = true ↔ t0 + p ≤ τ k ∧ ∀ j, j < k → τ j < t0 + p) := by
  have key : ∀ k, ∃ s, polls env t τ k = .ok s ∧
      (((∀ j, j < k → τ j < t0 + p) ∧ s = t) ∨ ((∃ j, j < k ∧ t0 + p ≤ τ j) ∧ s.watch.mode = .stopped)) := by
    intro k
    induction k with
    | zero => exact ⟨t, rfl, Or.inl ⟨by intro j hj; omega, rfl⟩⟩
    | succ k ih =>
      obtain ⟨s, hs, h⟩ := ih
      rw [polls, hs, Res.ok_bind]
      rcases h with ⟨h1, h2⟩ | ⟨⟨j, h1, h2⟩, h3⟩
      · subst h2
        rw [manage, armed_reached hw ha hp _ (h0 k) (hgap k h1), hcb]
        by_cases hd : t0 + p ≤ τ k
        · rw [decide_eq_true hd]
          simp only [if_true, henv s ht]
          exact ⟨_, rfl, Or.inr ⟨⟨k, by omega, hd⟩, rfl⟩⟩
        · rw [decide_eq_false hd]
          refine ⟨s, rfl, Or.inl ⟨?_, rfl⟩⟩
          intro j hj
          by_cases hjk : j = k
          · subst hjk; omega
          · exact h1 j (by omega)
      · rw [polls_stopped env s h3]
        exact ⟨s, rfl, Or.inr ⟨⟨j, by omega, h2⟩, h3⟩⟩
  obtain ⟨s, hs, h⟩ := key k
  rw [fired, hs, Res.ok_bind]
  rcases h with ⟨h1, h2⟩ | ⟨⟨j, h1, h2⟩, h3⟩
  · subst h2
    rw [manage, armed_reached hw ha hp _ (h0 k) (hgap k h1), hcb]
    by_cases hd : t0 + p ≤ τ k
    · rw [decide_eq_true hd]
      simp only [if_true, henv s ht]
      exact ⟨true, rfl, by simp only [true_iff]; exact ⟨hd, h1⟩⟩
    · rw [decide_eq_false hd]
      exact ⟨false, rfl, by simp [hd]⟩
  · rw [polls_stopped env s h3]
    refine ⟨false, rfl, ?_⟩
    constructor
    · intro h; cases h
    · rintro ⟨-, h4⟩; have := h4 j h1; omega

/-- **C59**, how a timer gets armed, and that a stopped timer (by `gel_timer_stop` or because it has fired) is never
fired: it stays as it is under every poll, until `gel_timer_resume` arms it again with the whole period. -/
theorem C59_stop (w : Nat) (κ : Type) (env : κ → Timer w κ → Timer w κ) (t : Timer w κ) (τ : Nat → Nat) :
    (∀ (p : BitVec w) (t0 : Nat) (cb : Option κ), Armed (init p (BitVec.ofNat w t0) cb) t0 p.toNat ∧
      (init p (BitVec.ofNat w t0) cb).autoreload = 0 ∧ (init p (BitVec.ofNat w t0) cb).callback = cb) ∧
    (∀ k, polls env (stop t) τ k = .ok (stop t) ∧ fired env (stop t) τ k = .ok false) ∧
    (∀ t0, Armed (resume (stop t) (BitVec.ofNat w t0)) t0 t.watch.total.toNat) ∧
    (∀ now s, manage env t now = .ok (s, true) → s.autoreload = 0 →
      (∀ k, fired env s τ k = .ok false) ∧ ∀ t0, Armed (resume s (BitVec.ofNat w t0)) t0 s.watch.total.toNat) := by
  have hst : ∀ s : Timer w κ, s.watch.mode = .stopped → ∀ k, polls env s τ k = .ok s ∧ fired env s τ k = .ok false := by
    intro s hs k
    have hp : polls env s τ k = .ok s := by
      induction k with
      | zero => rfl
      | succ k ih => rw [polls, ih, Res.ok_bind, polls_stopped env s hs]; rfl
    exact ⟨hp, by rw [fired, hp, Res.ok_bind, polls_stopped env s hs]; rfl⟩
  refine ⟨fun p t0 cb => ⟨init_armed p t0 cb, rfl, rfl⟩, hst _ rfl, fun t0 => resume_armed (stop t) rfl rfl t0, ?_⟩
  intro now s hm ha
  have hs : s.watch.mode = .stopped ∧ s.watch.elapsed = 0 := by
    rw [manage] at hm
    split_ifs at hm with h1
    · cases hc : t.callback with
      | none => rw [hc] at hm; cases hm
      | some c =>
        rw [hc] at hm
        simp only at hm
        split_ifs at hm with h2
        · injection hm with hm
          have hm := congrArg Prod.fst hm
          simp only at hm
          rw [← hm] at ha
          exact absurd ha h2
        · injection hm with hm
          have hm := congrArg Prod.fst hm
          simp only at hm
          rw [← hm]; exact ⟨rfl, rfl⟩
    · injection hm with hm
      have := congrArg Prod.snd hm
      cases this
  exact ⟨fun k => (hst s hs.1 k).2, fun t0 => resume_armed s hs.1 hs.2 t0⟩

/-- A callback that does nothing. -/
def quiet : Unit → Timer 8 Unit → Timer 8 Unit := fun _ t => t

example : (List.range 5).map (fired quiet (init 20 (BitVec.ofNat 8 250) (some ())) fun k => 250 + 7 * k) =
    [.ok false, .ok false, .ok false, .ok true, .ok false] := by decide

/-- **C60.** A timer with autoreload whose callback leaves autoreload on and keeps the period and the callback, polled
at non-decreasing times, each at most half the range after the end of the period then running: poll `k` calls the
callback exactly if it is not before the end of the period that counts from the last call (or the start), and two calls
are at least a period apart. -/
theorem C60_autoreload (w : Nat) (hw : 0 < w) (κ : Type) (env : κ → Timer w κ → Timer w κ) (c : κ)
    (henv : ∀ t, t.autoreload ≠ 0 → (env c t).autoreload ≠ 0 ∧ (env c t).watch.total = t.watch.total ∧
      (env c t).callback = t.callback) (t : Timer w κ) (ht : t.autoreload ≠ 0)
    (hcb : t.callback = some c) (t0 p : Nat) (ha : Armed t t0 p) (hp : p < 2 ^ (w - 1)) (τ : Nat → Nat)
    (h0 : t0 ≤ τ 0) (hmono : ∀ k, τ k ≤ τ (k + 1)) (hgap : ∀ k, τ k ≤ Spec.since p t0 τ k + p + 2 ^ (w - 1)) :
    (∀ k, fired env t τ k = .ok (decide (Spec.since p t0 τ k + p ≤ τ k))) ∧
    (∀ j k, j < k → fired env t τ j = .ok true → fired env t τ k = .ok true → τ j + p ≤ τ k) := by
  have hge : ∀ k, Spec.since p t0 τ k ≤ τ k := by
    intro k
    induction k with
    | zero => exact h0
    | succ k ih =>
      have := hmono k
      rw [Spec.since]; split_ifs <;> omega
  have key : ∀ k, ∃ s, polls env t τ k = .ok s ∧ s.autoreload ≠ 0 ∧ s.callback = some c ∧
      Armed s (Spec.since p t0 τ k) p := by
    intro k
    induction k with
    | zero => exact ⟨t, rfl, ht, hcb, ha⟩
    | succ k ih =>
      obtain ⟨s, hs, h1, h2, h3⟩ := ih
      rw [polls, hs, Res.ok_bind, manage, armed_reached hw h3 hp _ (hge k) (hgap k), h2, Spec.since]
      by_cases hd : Spec.since p t0 τ k + p ≤ τ k
      · obtain ⟨e1, e2, e3⟩ := henv s h1
        rw [decide_eq_true hd, if_pos hd]
        simp only [if_true]
        rw [if_pos e1]
        refine ⟨_, rfl, e1, by simp only; rw [e3, h2], rfl, rfl, rfl, ?_⟩
        show (env c s).watch.total.toNat = p
        rw [e2]; exact h3.2.2.2
      · rw [decide_eq_false hd, if_neg hd]
        exact ⟨s, rfl, h1, h2, h3⟩
  have hfire : ∀ k, fired env t τ k = .ok (decide (Spec.since p t0 τ k + p ≤ τ k)) := by
    intro k
    obtain ⟨s, hs, h1, h2, h3⟩ := key k
    rw [fired, hs, Res.ok_bind, manage, armed_reached hw h3 hp _ (hge k) (hgap k), h2]
    by_cases hd : Spec.since p t0 τ k + p ≤ τ k
    · obtain ⟨e1, e2, e3⟩ := henv s h1
      rw [decide_eq_true hd]
      simp only [if_true]
      rw [if_pos e1]; rfl
    · rw [decide_eq_false hd]; rfl
  refine ⟨hfire, ?_⟩
  intro j k hjk hj hk
  rw [hfire j] at hj
  rw [hfire k] at hk
  have hj := of_decide_eq_true (Res.ok.inj hj)
  have hk := of_decide_eq_true (Res.ok.inj hk)
  have hsince : ∀ n, τ j ≤ Spec.since p t0 τ (j + 1 + n) := by
    intro n
    induction n with
    | zero => rw [Nat.add_zero, Spec.since, if_pos hj]
    | succ n ih =>
      rw [← Nat.add_assoc, Spec.since]
      split_ifs with h
      · have := hge (j + 1 + n); omega
      · exact ih
  have := hsince (k - (j + 1))
  rw [show j + 1 + (k - (j + 1)) = k by omega] at this
  omega

example : (List.range 8).map (fired quiet (setAutoreload (init 10 (BitVec.ofNat 8 250) (some ())) 1)
    fun k => 250 + 4 * k) =
    [.ok false, .ok false, .ok false, .ok true, .ok false, .ok false, .ok true, .ok false] := by decide

/-- **C60** for `gel_timer_set_autoreload`: what a timer created by `gel_timer_init` does depends on the last call only.
It touches neither the remaining time nor whether it runs. -/
theorem C60_set_autoreload (w : Nat) (hw : 0 < w) (κ : Type) (env : κ → Timer w κ → Timer w κ) (c : κ)
    (henv : ∀ t, (env c t).autoreload = t.autoreload ∧ (env c t).watch.total = t.watch.total ∧
      (env c t).callback = t.callback) (p : BitVec w) (hp : p.toNat < 2 ^ (w - 1)) (t0 : Nat) (as : List (BitVec 8))
    (a : BitVec 8) (τ : Nat → Nat) (h0 : t0 ≤ τ 0) (hmono : ∀ k, τ k ≤ τ (k + 1)) :
    let t := setAutoreload (as.foldl setAutoreload (init p (BitVec.ofNat w t0) (some c))) a
    (∀ now, getRemaining t now = getRemaining (init p (BitVec.ofNat w t0) (some c)) now) ∧
    (a ≠ 0 → (∀ k, τ k ≤ Spec.since p.toNat t0 τ k + p.toNat + 2 ^ (w - 1)) →
      ∀ k, fired env t τ k = .ok (decide (Spec.since p.toNat t0 τ k + p.toNat ≤ τ k))) ∧
    (a = 0 → (∀ k, (∀ j, j < k → τ j < t0 + p.toNat) → τ k ≤ t0 + p.toNat + 2 ^ (w - 1)) →
      ∀ k, ∃ b, fired env t τ k = .ok b ∧ (b = true ↔ t0 + p.toNat ≤ τ k ∧ ∀ j, j < k → τ j < t0 + p.toNat)) := by
  have hfold : ∀ (as : List (BitVec 8)) (t : Timer w κ), (as.foldl setAutoreload t).watch = t.watch ∧
      (as.foldl setAutoreload t).callback = t.callback := by
    intro as
    induction as with
    | nil => exact fun t => ⟨rfl, rfl⟩
    | cons x as ih => exact fun t => ih (setAutoreload t x)
  obtain ⟨f1, f2⟩ := hfold as (init p (BitVec.ofNat w t0) (some c))
  have harm : Armed (setAutoreload (as.foldl setAutoreload (init p (BitVec.ofNat w t0) (some c))) a) t0 p.toNat := by
    have := init_armed p t0 (some c)
    simp only [Armed] at this ⊢
    simpa only [setAutoreload, f1] using this
  have hge : ∀ k, t0 ≤ τ k := by
    intro k
    induction k with
    | zero => exact h0
    | succ k ih => exact Nat.le_trans ih (hmono k)
  refine ⟨?_, ?_, ?_⟩
  · intro now
    show Stopwatch.getRemaining (as.foldl setAutoreload (init p (BitVec.ofNat w t0) (some c))).watch now = _
    rw [f1]
    rfl
  · intro ha hgap
    exact (C60_autoreload w hw κ env c (fun t ht => ⟨(henv t).1 ▸ ht, (henv t).2.1, (henv t).2.2⟩) (setAutoreload _ a) ha f2 t0 p.toNat harm hp τ
      h0 hmono hgap).1
  · intro ha hgap
    exact C59_one_shot w hw κ env c (fun t ht => (henv t).1.trans ht) (setAutoreload _ a) ha f2 t0 p.toNat harm hp τ hge hgap

example : (List.range 6).map (fired quiet (setAutoreload (setAutoreload (init 10 (BitVec.ofNat 8 250) (some ())) 1) 0)
    fun k => 250 + 5 * k) = [.ok false, .ok false, .ok true, .ok false, .ok false, .ok false] := by decide

/-! ## C106 -/

theorem since_exact (p t0 : Nat) (hp : 0 < p) (τ : Nat → Nat) (hmono : ∀ k, τ k < τ (k + 1))
    (hpoll : ∀ n, ∃ k, τ k = t0 + (n + 1) * p) (k : Nat) :
    (Spec.since p t0 τ k + p ≤ τ k ↔ ∃ n, τ k = t0 + (n + 1) * p) ∧ τ k ≤ Spec.since p t0 τ k + p := by
  have hm : ∀ i j, i < j → τ i < τ j := by
    intro i j hij
    induction j with
    | zero => omega
    | succ j ih =>
      have := hmono j
      rcases Nat.lt_succ_iff_lt_or_eq.1 hij with h | rfl
      · have := ih h; omega
      · exact this
  have key : ∀ k, ∃ m, Spec.since p t0 τ k = t0 + m * p ∧ (∀ j, j < k → τ j < t0 + (m + 1) * p) ∧
      (m ≠ 0 → ∃ j, j < k ∧ t0 + m * p ≤ τ j) := by
    intro k
    induction k with
    | zero => exact ⟨0, by simp [Spec.since], by intro j hj; omega, by simp⟩
    | succ k ih =>
      obtain ⟨m, h1, h2, h3⟩ := ih
      rw [Spec.since, h1]
      have e : t0 + (m + 1) * p = t0 + m * p + p := by rw [Nat.add_mul, Nat.one_mul, Nat.add_assoc]
      have e2 : t0 + (m + 1 + 1) * p = t0 + (m + 1) * p + p := by rw [Nat.add_mul (m + 1), Nat.one_mul, Nat.add_assoc]
      split
      next hc =>
        obtain ⟨j, hj⟩ := hpoll m
        have hjk : ¬ j < k := fun h => by have := h2 j h; omega
        have : τ k ≤ τ j := by
          rcases Nat.lt_or_ge k j with h | h
          · exact Nat.le_of_lt (hm k j h)
          · have : j = k := by omega
            rw [this]
        refine ⟨m + 1, by omega, ?_, fun _ => ⟨k, by omega, by omega⟩⟩
        intro i hi
        rcases Nat.lt_succ_iff_lt_or_eq.1 hi with h | rfl
        · have := h2 i h; omega
        · omega
      next hc =>
        refine ⟨m, rfl, ?_, ?_⟩
        · intro i hi
          rcases Nat.lt_succ_iff_lt_or_eq.1 hi with h | rfl
          · exact h2 i h
          · omega
        · intro hne
          obtain ⟨j, hj, hj2⟩ := h3 hne
          exact ⟨j, by omega, hj2⟩
  obtain ⟨m, h1, h2, h3⟩ := key k
  have e : t0 + (m + 1) * p = t0 + m * p + p := by rw [Nat.add_mul, Nat.one_mul, Nat.add_assoc]
  rw [h1]
  refine ⟨⟨?_, ?_⟩, ?_⟩
  · intro hc
    obtain ⟨j, hj⟩ := hpoll m
    have hjk : ¬ j < k := fun h => by have := h2 j h; omega
    refine ⟨m, ?_⟩
    rcases Nat.lt_or_ge k j with h | h
    · have := hm k j h; omega
    · have : j = k := by omega
      rw [← this, hj]
  · rintro ⟨n, hn⟩
    by_contra hc
    have hle : (n + 1) * p < (m + 1) * p := by omega
    have hnm : n + 1 < m + 1 := Nat.lt_of_mul_lt_mul_right hle
    obtain ⟨j, hj, hj2⟩ := h3 (by omega)
    have hlt := hm j k hj
    have : (n + 1) * p ≤ m * p := Nat.mul_le_mul_right p (by omega)
    omega
  · obtain ⟨j, hj⟩ := hpoll m
    have hjk : ¬ j < k := fun h => by have := h2 j h; omega
    rcases Nat.lt_or_ge k j with h | h
    · have := hm k j h; omega
    · have : j = k := by omega
      rw [← this, hj]
      omega

/-- **C106** (partial). An autoreloading timer that is polled exactly at each multiple of the period after its start (and at
any other times in between) calls its callback at these polls and no others. Missing: other sequences of polls, for which
it is false (`C106_drift`). -/
theorem C106_exact_polls_partial (w : Nat) (hw : 0 < w) (κ : Type) (env : κ → Timer w κ → Timer w κ) (cb : κ)
    (henv : ∀ t, t.autoreload ≠ 0 → (env cb t).autoreload ≠ 0 ∧ (env cb t).watch.total = t.watch.total ∧
      (env cb t).callback = t.callback) (t : Timer w κ) (ht : t.autoreload ≠ 0)
    (hcb : t.callback = some cb) (t0 p : Nat) (ha : Armed t t0 p) (h1 : 0 < p) (hp : p < 2 ^ (w - 1)) (τ : Nat → Nat)
    (h0 : t0 ≤ τ 0) (hmono : ∀ k, τ k < τ (k + 1)) (hpoll : ∀ n, ∃ k, τ k = t0 + (n + 1) * p) (k : Nat) :
    ∃ b, fired env t τ k = .ok b ∧ (b = true ↔ ∃ n, τ k = t0 + (n + 1) * p) := by
  have hf := (C60_autoreload w hw κ env cb henv t ht hcb t0 p ha hp τ h0 (fun k => Nat.le_of_lt (hmono k))
    (fun k => Nat.le_trans (since_exact p t0 h1 τ hmono hpoll k).2 (Nat.le_add_right _ _))).1 k
  exact ⟨_, hf, by rw [decide_eq_true_iff]; exact (since_exact p t0 h1 τ hmono hpoll k).1⟩

/-- **C106**, where it fails: polled every `s` ticks, the timer calls its callback at every `c`-th poll, where `c * s` is the
period rounded up to a multiple of `s`. So call number `n` comes `n * (c * s - p)` ticks late. -/
theorem C106_drift (w : Nat) (hw : 0 < w) (κ : Type) (env : κ → Timer w κ → Timer w κ) (cb : κ)
    (henv : ∀ t, t.autoreload ≠ 0 → (env cb t).autoreload ≠ 0 ∧ (env cb t).watch.total = t.watch.total ∧
      (env cb t).callback = t.callback) (t : Timer w κ) (ht : t.autoreload ≠ 0)
    (hcb : t.callback = some cb) (t0 p s c : Nat) (ha : Armed t t0 p) (hp : p < 2 ^ (w - 1)) (hs : s ≤ 2 ^ (w - 1))
    (hc : 0 < c) (hc1 : (c - 1) * s < p) (hc2 : p ≤ c * s) :
    (∀ k, fired env t (fun k => t0 + k * s) k = .ok (decide (k ≠ 0 ∧ k % c = 0))) ∧
    (∀ n, fired env t (fun k => t0 + k * s) ((n + 1) * c) = .ok true ∧
      t0 + (n + 1) * c * s = t0 + (n + 1) * p + (n + 1) * (c * s - p)) := by
  have hs0 : 0 < s := by
    rcases Nat.eq_zero_or_pos s with rfl | h
    · simp at hc1 hc2; omega
    · exact h
  have hmul : ∀ x, p ≤ x * s ↔ c ≤ x := by
    intro x
    constructor
    · intro h
      by_contra hx
      have : x * s ≤ (c - 1) * s := Nat.mul_le_mul_right s (by omega)
      omega
    · intro h
      have : c * s ≤ x * s := Nat.mul_le_mul_right s h
      omega
  have hq : ∀ k, (k - 1) / c * c ≤ k - 1 ∧ k - 1 < (k - 1) / c * c + c := by
    intro k
    have h1 := Nat.div_add_mod (k - 1) c
    have h2 := Nat.mod_lt (k - 1) hc
    rw [Nat.mul_comm] at h1
    omega
  have hdead : ∀ k, (t0 + (k - 1) / c * c * s + p ≤ t0 + k * s ↔ (k - 1) / c * c + c ≤ k) := by
    intro k
    obtain ⟨h1, h2⟩ := hq k
    have e : k * s = (k - 1) / c * c * s + (k - (k - 1) / c * c) * s := by
      rw [← Nat.add_mul]
      congr 1
      omega
    rw [e]
    have := hmul (k - (k - 1) / c * c)
    omega
  have hsince : ∀ k, Spec.since p t0 (fun k => t0 + k * s) k = t0 + (k - 1) / c * c * s := by
    intro k
    induction k with
    | zero => simp [Spec.since, Nat.div_eq_of_lt hc]
    | succ k ih =>
      rw [Spec.since, ih]
      simp only [hdead, Nat.add_sub_cancel]
      obtain ⟨h1, h2⟩ := hq k
      by_cases hk : (k - 1) / c * c + c ≤ k
      · rw [if_pos hk]
        have : k = ((k - 1) / c + 1) * c := by rw [Nat.add_mul, Nat.one_mul]; omega
        have e : k / c * c = k := by
          conv_lhs => rw [this]
          rw [Nat.mul_div_cancel _ hc]
          exact this.symm
        rw [e]
      · rw [if_neg hk]
        have : k / c = (k - 1) / c := by
          rw [Nat.div_eq_iff hc]
          omega
        rw [this]
  have hgap : ∀ k, t0 + k * s ≤ Spec.since p t0 (fun k => t0 + k * s) k + p + 2 ^ (w - 1) := by
    intro k
    rw [hsince]
    obtain ⟨h1, h2⟩ := hq k
    have e : k * s = (k - 1) / c * c * s + (k - (k - 1) / c * c) * s := by
      rw [← Nat.add_mul]
      congr 1
      omega
    have h3 : (k - (k - 1) / c * c) * s ≤ c * s := Nat.mul_le_mul_right s (by omega)
    have h4 : c * s = (c - 1) * s + s := by
      obtain ⟨d, rfl⟩ : ∃ d, c = d + 1 := ⟨c - 1, by omega⟩
      rw [Nat.add_sub_cancel, Nat.add_mul, Nat.one_mul]
    omega
  have hf := (C60_autoreload w hw κ env cb henv t ht hcb t0 p ha hp (fun k => t0 + k * s) (by simp)
    (fun k => by simp only [Nat.add_mul]; omega) hgap).1
  have hfire : ∀ k, fired env t (fun k => t0 + k * s) k = .ok (decide (k ≠ 0 ∧ k % c = 0)) := by
    intro k
    rw [hf k, hsince]
    congr 1
    apply decide_eq_decide.2
    rw [hdead]
    obtain ⟨h1, h2⟩ := hq k
    constructor
    · intro h
      refine ⟨by omega, ?_⟩
      have : k = ((k - 1) / c + 1) * c := by rw [Nat.add_mul, Nat.one_mul]; omega
      rw [this, Nat.mul_mod_left]
    · rintro ⟨hk, hmod⟩
      obtain ⟨q, rfl⟩ := Nat.dvd_of_mod_eq_zero hmod
      obtain ⟨r, rfl⟩ : ∃ r, q = r + 1 := by
        rcases q with _ | q
        · simp at hk
        · exact ⟨q, rfl⟩
      have : (c * (r + 1) - 1) / c = r := by
        rw [Nat.div_eq_iff hc]
        rw [Nat.mul_add, Nat.mul_one, Nat.mul_comm c r]
        omega
      rw [this, Nat.mul_add, Nat.mul_one, Nat.mul_comm]
  refine ⟨hfire, ?_⟩
  intro n
  constructor
  · rw [hfire, decide_eq_true]
    refine ⟨?_, by simp⟩
    exact Nat.mul_ne_zero (by omega) (by omega)
  · have : (n + 1) * c * s = (n + 1) * (p + (c * s - p)) := by
      rw [Nat.mul_assoc]
      congr 1
      omega
    rw [this, Nat.mul_add, Nat.add_assoc]

/-- Period 10, polled every 4 ticks: calls after 12 and 24 ticks. -/
example : (List.range 7).map (fired quiet (setAutoreload (init 10 (BitVec.ofNat 8 0) (some ())) 1) fun k => 0 + k * 4) =
    [.ok false, .ok false, .ok false, .ok true, .ok false, .ok false, .ok true] := by decide

theorem interval_add (w : Nat) (hw : 0 < w) (x : BitVec w) (d : Nat) (hd : d ≤ 2 ^ (w - 1)) :
    timeInterval x (x + BitVec.ofNat w d) = BitVec.ofNat w d := by
  have h2 := half w hw
  have := interval_nat w (x.toNat + d) d (by omega) (by omega)
  rw [Nat.add_sub_cancel, BitVec.ofNat_add] at this
  simpa using this

/-- **C61.** For every timer: pausing a running timer freezes the remaining time, and resuming continues from it (up to
half the range later); reset and change_period give the whole (new) period and leave it running or paused; they do
nothing to a stopped timer. -/
theorem C61_pause_reset_change (w : Nat) (hw : 0 < w) (κ : Type) (t : Timer w κ) (now now2 p : BitVec w) :
    (t.watch.mode = .counting →
      (∀ x, getRemaining (pause t now) x = getRemaining t now) ∧ (pause t now).watch.mode = .paused ∧
      (resume (pause t now) now2).watch.mode = .counting ∧
      getRemaining (resume (pause t now) now2) now2 = getRemaining t now ∧
      ∀ d, d ≤ 2 ^ (w - 1) → getElapsed (resume (pause t now) now2).watch (now2 + BitVec.ofNat w d) =
        getElapsed t.watch now + BitVec.ofNat w d) ∧
    ((reset t now).watch.mode = t.watch.mode ∧ (reset t now).watch.total = t.watch.total ∧
      (t.watch.mode = .counting → getRemaining (reset t now) now = t.watch.total ∧
        ∀ d, d ≤ 2 ^ (w - 1) → getElapsed (reset t now).watch (now + BitVec.ofNat w d) = BitVec.ofNat w d) ∧
      (t.watch.mode = .paused → ∀ x, getRemaining (reset t now) x = t.watch.total) ∧
      (t.watch.mode = .stopped → reset t now = t)) ∧
    ((changePeriod t p now).watch.mode = t.watch.mode ∧
      (t.watch.mode = .counting → (changePeriod t p now).watch.total = p ∧ getRemaining (changePeriod t p now) now = p ∧
        ∀ d, d ≤ 2 ^ (w - 1) → getElapsed (changePeriod t p now).watch (now + BitVec.ofNat w d) = BitVec.ofNat w d) ∧
      (t.watch.mode = .paused → (changePeriod t p now).watch.total = p ∧
        ∀ x, getRemaining (changePeriod t p now) x = p) ∧
      (t.watch.mode = .stopped → changePeriod t p now = t)) := by
  have h0 : ∀ x : BitVec w, timeInterval x x = 0 := by intro x; simp [timeInterval, timeAfter]
  refine ⟨?_, ⟨?_, ?_, ?_, ?_, ?_⟩, ?_, ?_, ?_, ?_⟩
  · intro hm
    simp [getRemaining, Stopwatch.getRemaining, pause, Stopwatch.pause, resume, start, getElapsed, hm, h0]
    intro d hd
    rw [interval_add w hw _ d hd]
  · cases hm : t.watch.mode <;> simp [reset, restart, start, Stopwatch.stop, Stopwatch.pause, hm]
  · cases hm : t.watch.mode <;> simp [reset, restart, start, Stopwatch.stop, Stopwatch.pause, hm]
  · intro hm
    simp [reset, restart, start, Stopwatch.stop, hm, getRemaining, Stopwatch.getRemaining, getElapsed, h0]
    refine ⟨fun h => h.symm, ?_⟩
    intro d hd
    rw [interval_add w hw _ d hd]
  · intro hm
    simp [reset, restart, start, Stopwatch.stop, Stopwatch.pause, hm, getRemaining, Stopwatch.getRemaining, getElapsed, h0]
    exact fun h => h.symm
  · intro hm; simp [reset, hm]
  · cases hm : t.watch.mode <;> simp [changePeriod, change, restart, start, Stopwatch.stop, Stopwatch.pause, hm]
  · intro hm
    simp [changePeriod, change, restart, start, Stopwatch.stop, hm, getRemaining, Stopwatch.getRemaining, getElapsed, h0]
    refine ⟨fun h => h.symm, ?_⟩
    intro d hd
    rw [interval_add w hw _ d hd]
  · intro hm
    simp [changePeriod, change, restart, start, Stopwatch.stop, Stopwatch.pause, hm, getRemaining, Stopwatch.getRemaining,
      getElapsed, h0]
    exact fun h => h.symm
  · intro hm; simp [changePeriod, hm]

example : let t := init (κ := Unit) 100 (BitVec.ofNat 8 250) none
    getRemaining (resume (pause t (BitVec.ofNat 8 260)) 100) 110 = 80 ∧ getRemaining (reset t 7) 17 = 90 ∧
    getRemaining (changePeriod t 50 7) 17 = 40 := by decide

/-- **C92** (partial). A paused timer does not fire while it has time remaining. Missing: a timer paused when its period
was already over, for which the claim is false (`C92_paused_wrong`). -/
theorem C92_paused_partial (env : κ → Timer w κ → Timer w κ) (t : Timer w κ) (hm : t.watch.mode = .paused)
    (now x : BitVec w) (hr : getRemaining t x ≠ 0) : manage env t now = .ok (t, false) := by
  have he : getElapsed t.watch x = t.watch.elapsed := by rw [getElapsed, hm]; rfl
  rw [getRemaining, Stopwatch.getRemaining, he] at hr
  rw [manage, isReached, hm]
  by_cases h : t.watch.elapsed < t.watch.total
  · rw [decide_eq_false (by rw [BitVec.le_def]; rw [BitVec.lt_def] at h; omega)]; rfl
  · rw [if_neg h] at hr; exact absurd rfl hr

/-- **C92**, where it fails: a timer paused at or after the end of its period calls its callback at the next poll. -/
theorem C92_paused_wrong (w : Nat) (hw : 0 < w) (env : κ → Timer w κ → Timer w κ) (c : κ) (p : BitVec w) (t0 d : Nat)
    (hd : d ≤ 2 ^ (w - 1)) (hpd : p.toNat ≤ d) (now : BitVec w) :
    (pause (init p (BitVec.ofNat w t0) (some c)) (BitVec.ofNat w (t0 + d))).watch.mode = .paused ∧
    ∃ s, manage env (pause (init p (BitVec.ofNat w t0) (some c)) (BitVec.ofNat w (t0 + d))) now = .ok (s, true) := by
  refine ⟨rfl, ?_⟩
  have hr : isReached (pause (init p (BitVec.ofNat w t0) (some c)) (BitVec.ofNat w (t0 + d))).watch now = true := by
    show decide (p ≤ 0 + timeInterval (BitVec.ofNat w t0) (BitVec.ofNat w (t0 + d))) = true
    have h2 := half w hw
    have hpos : 0 < 2 ^ (w - 1) := Nat.two_pow_pos _
    rw [BitVec.ofNat_add, interval_add w hw _ d hd, decide_eq_true_iff, BitVec.le_def,
      show (0 : BitVec w) + BitVec.ofNat w d = BitVec.ofNat w d by simp, BitVec.toNat_ofNat]
    by_cases h0 : d < 2 ^ w
    · rw [Nat.mod_eq_of_lt h0]; exact hpd
    · omega
  rw [manage, hr]
  show ∃ s, (if (env c _).autoreload ≠ 0 then _ else _) = _
  split_ifs
  · exact ⟨_, rfl⟩
  · exact ⟨_, rfl⟩

example : (do
    let (_, b) ← manage quiet (pause (init 20 (BitVec.ofNat 8 250) (some ())) (BitVec.ofNat 8 270)) 0
    pure b) = .ok true := by decide

end Gel.Timer
