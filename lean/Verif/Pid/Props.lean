import Verif.Pid.Lemmas
import Mathlib.Data.Int.Order.Basic

/-!
# PID: theorems (C74-C77)
-/
namespace Gel.Pid
open Spec
variable {α : Type} [AddCommGroup α] [LinearOrder α]

/-- A controller that was initialized and configured, without inputs. -/
def Fresh (n d : Nat) (p : Pid α) : Prop := ∃ ss : List (Setting α), p = ss.foldl (set n) (init n d)

theorem fresh_inv {n d : Nat} {p : Pid α} (h : Fresh n d p) : Inv n d p p [] := by
  obtain ⟨ss, rfl⟩ := h
  have hg : ∀ (ss : List (Setting α)) (p : Pid α), p.first = false → p.sign = 0 → p.dsize = 0 → Ring n p.hist p.index [] →
      Ring d p.dhist p.dindex [] → Inv n d (ss.foldl (set n) p) (ss.foldl (set n) p) [] := by
    intro ss
    induction ss with
    | nil =>
      intro p h1 h2 h3 h4 h5
      exact ⟨⟨rfl, rfl, rfl, rfl, rfl, rfl, rfl, rfl, rfl, rfl⟩, h1, (by rintro x ys h; cases h), h2, h4, h5,
        by simpa [olds] using h3⟩
    | cons o os ih =>
      intro p h1 h2 h3 h4 h5
      rw [List.foldl_cons]
      cases o <;> first | exact ih _ h1 h2 h3 h4 h5 | exact ih _ h1 h2 h3 (ring_init n) h5
  exact hg ss _ rfl rfl rfl (ring_init n) (ring_init d)

/-! ## C74 -/

/-- The derivative in general, with setpoints that change: the inputs `xs` with their setpoints, the newest first, and then
a setpoint `s`. -/
theorem C74_general (n d : Nat) (hn : 0 < n) (hd : 0 < d) (p₀ : Pid α) (h₀ : Fresh n d p₀) (hthr : p₀.dthr = false)
    (xs : List (α × α)) (s : α) :
    ∃ p, feed n d p₀ xs.reverse = .ok p ∧
      (xs.length < 2 → computeD d (setSp p s) = .ok 0) ∧
      ∀ x ys, xs = x :: ys → 0 < ys.length →
        computeD d (setSp p s) = .ok (p₀.kd ((s - x.2) - (olds xs).getD (min d ys.length - 1) 0)) := by
  obtain ⟨p, hp, hI⟩ := inv_feed hn hd xs.reverse (fresh_inv h₀)
  rw [List.reverse_reverse, List.append_nil] at hI
  have hds := hI.dsize
  rw [length_olds] at hds
  refine ⟨p, hp, ?_, ?_⟩
  · intro hlt
    have : p.dsize = 0 := by omega
    simp [computeD, setSp, this]
  · intro x ys hxs hpos
    have hlen : (olds xs).length = ys.length := by rw [length_olds, hxs]; simp
    rw [hxs, List.length_cons, Nat.add_sub_cancel] at hds
    have hne : ¬ p.dsize = 0 := by omega
    have hdi : p.dindex = ys.length % d := by
      rw [hI.dring.idx, List.length_map, hlen]
    have hget : ∀ i < d, rd p.dhist i = .ok (slot d ((olds xs).map some) i) := by
      intro i hi
      rw [rd_getD (by rw [hI.dring.len]; exact hi), hI.dring.get i hi]
    have hslot : slot d ((olds xs).map some) (if p.dsize = d then p.dindex else 0) =
        (olds xs).getD (min d ys.length - 1) 0 := by
      have h := slot_held hd ((olds xs).map some) (min d ys.length - 1) (by omega)
      rw [heldO_some, List.length_map, hlen] at h
      rw [← h]
      congr 1
      by_cases hf : d ≤ ys.length
      · rw [if_pos (by omega), hdi]
        congr 1
        omega
      · rw [if_neg (by omega), show ys.length + d - 1 - (min d ys.length - 1) = d by omega, Nat.mod_self]
    have hlt : (if p.dsize = d then p.dindex else 0) < d := by
      split
      · rw [hdi]
        exact Nat.mod_lt _ hd
      · exact hd
    have herr : error (setSp p s) = s - x.2 := by
      simp [error, setSp, (hI.cur x ys hxs).2]
    have hrd := hget _ hlt
    rw [hslot] at hrd
    unfold computeD
    rw [if_neg (show ¬ (setSp p s).dsize = 0 from hne)]
    show (rd p.dhist (if p.dsize = d then p.dindex else 0) >>= _) = _
    rw [hrd, Res.ok_bind, if_neg (by simp [setSp, hI.same.dthr, hthr]), herr]
    show Res.ok (p.kd _) = _
    rw [hI.same.kd]

theorem olds_const (s : α) : ∀ (vs : List α), olds (vs.map fun v => (s, v)) = vs.tail.map (s - ·)
  | [] => rfl
  | [_] => rfl
  | x :: y :: ys => by
    have := olds_const s (y :: ys)
    simp only [List.map_cons, olds, List.tail_cons] at this ⊢
    rw [this]

/-- With a constant setpoint: `kd` times the difference of the errors of the last input and of the one `min d (inputs - 1)`
before it; zero with fewer than two inputs. -/
theorem C74_derivative (n d : Nat) (hn : 0 < n) (hd : 0 < d) (p₀ : Pid α) (h₀ : Fresh n d p₀) (hthr : p₀.dthr = false)
    (s : α) (vs : List α) :
    ∃ p, feed n d p₀ (vs.map fun v => (s, v)) = .ok p ∧
      (vs.length < 2 → computeD d p = .ok 0) ∧
      (∀ h : 2 ≤ vs.length, computeD d p =
        .ok (p₀.kd ((s - vs[vs.length - 1]) - (s - vs[vs.length - 1 - min d (vs.length - 1)])))) := by
  obtain ⟨p, hp, h1, h2⟩ := C74_general n d hn hd p₀ h₀ hthr (vs.reverse.map fun v => (s, v)) s
  rw [← List.map_reverse, List.reverse_reverse] at hp
  obtain ⟨p', hp', hI⟩ := inv_feed hn hd (vs.map fun v => (s, v)) (fresh_inv h₀)
  rw [hp] at hp'
  cases hp'
  have hset : vs ≠ [] → setSp p s = p := by
    intro hne
    have hne' : vs.reverse ≠ [] := by simpa using hne
    obtain ⟨z, zs, hz⟩ := List.exists_cons_of_ne_nil hne'
    have := (hI.cur (s, z) (zs.map fun v => (s, v)) (by rw [← List.map_reverse, hz]; simp)).1
    simp only at this
    rw [← this]
    rfl
  refine ⟨p, hp, ?_, ?_⟩
  · intro hlt
    by_cases hne : vs = []
    · subst hne
      have := hI.dsize
      simp only [List.map_nil, List.reverse_nil, List.append_nil, olds, List.length_nil, Nat.min_zero] at this
      simp [computeD, this]
    · rw [← hset hne]
      exact h1 (by simpa using hlt)
  · intro hle
    have hne : vs ≠ [] := by
      rintro rfl
      simp at hle
    rw [← hset hne]
    have hne' : vs.reverse ≠ [] := by simpa using hne
    obtain ⟨z, zs, hz⟩ := List.exists_cons_of_ne_nil hne'
    have hzl : zs.length = vs.length - 1 := by
      have := congrArg List.length hz
      simp at this
      omega
    have := h2 (s, z) (zs.map fun v => (s, v)) (by rw [hz]; simp) (by simp; omega)
    rw [this, olds_const, hz]
    have hz0 : z = vs[vs.length - 1] := by
      have h : vs.reverse[0]? = some z := by rw [hz]; rfl
      rw [List.getElem?_reverse (by omega), List.getElem?_eq_getElem (by omega)] at h
      simp only [Option.some.injEq] at h
      rw [← h]
      congr 1
    have hzk : (zs.map (s - ·)).getD (min d zs.length - 1) 0 = s - vs[vs.length - 1 - min d (vs.length - 1)] := by
      have hk : min d zs.length - 1 < zs.length := by omega
      have h : vs.reverse[min d zs.length - 1 + 1]? = some zs[min d zs.length - 1] := by
        rw [hz, List.getElem?_cons_succ, List.getElem?_eq_getElem hk]
      rw [List.getElem?_reverse (by omega), List.getElem?_eq_getElem (by omega)] at h
      simp only [Option.some.injEq] at h
      rw [List.getD_eq_getElem?_getD, List.getElem?_map, List.getElem?_eq_getElem hk, ← h]
      simp only [Option.map_some, Option.getD_some]
      congr 2
      omega
    simp only [List.length_map, List.tail_cons]
    rw [hzk, hz0]

/-- The threshold: with the absolute error above it, the derivative is zero. -/
theorem C74_threshold (d : Nat) (p : Pid α) (h : p.dthr = true) (hlt : p.dlow < abs (error p))
    (hin : p.dhist.length = d) (hidx : p.dindex < d) : computeD d p = .ok 0 := by
  unfold computeD
  split
  · rfl
  · have hlt' : (if p.dsize = d then p.dindex else 0) < p.dhist.length := by
      split <;> omega
    rw [rd_getD hlt', Res.ok_bind, if_pos ⟨h, hlt⟩]
    rfl

/-! ## C75, C76 -/

/-- What the integral is, for all inputs and settings: the sum of the `n` newest values of the window, where an error of
zero leaves the value that is `n` inputs older. -/
theorem C75_exact (n d : Nat) (hn : 0 < n) (hd : 0 < d) (p₀ : Pid α) (h₀ : Fresh n d p₀) (xs : List (α × α)) :
    ∃ p, feed n d p₀ xs = .ok p ∧
      computeI n p = .ok (p₀.ki ((held n (contrib p₀.lowEn p₀.highEn p₀.low p₀.high)
        (window p₀.auto (xs.reverse.map err))).take n).sum) := by
  obtain ⟨p, hp, hI⟩ := inv_feed hn hd xs (fresh_inv h₀)
  rw [List.append_nil] at hI
  refine ⟨p, hp, ?_⟩
  simp only [computeI, sumFrom_eq p.hist n 0 0 (by rw [hI.ring.len, Nat.zero_add]), Res.ok_bind, List.drop_zero, zero_add,
    hI.ring.sum, heldO_writes, hI.same.ki, Res.pure_eq]

theorem held_eq_map (n : Nat) (c : α → α) (l : List α) (h0 : c 0 = 0) (h : ∀ e ∈ l.reverse.drop n, e ≠ 0) (hn : 0 < n) :
    held n c l = l.map c := by
  have hlen : ∀ l : List α, (held n c l).length = l.length := by
    intro l
    induction l with
    | nil => rfl
    | cons x xs ih => simp [held, ih]
  induction l with
  | nil => rfl
  | cons e es ih =>
    have hes : held n c es = es.map c := by
      apply ih
      intro x hx
      apply h
      rw [List.reverse_cons]
      by_cases hle : n ≤ es.reverse.length
      · rw [List.drop_append_of_le_length hle]
        exact List.mem_append_left _ hx
      · rw [List.drop_eq_nil_of_le (by omega)] at hx
        cases hx
    simp only [held, List.map_cons, List.cons.injEq]
    refine ⟨?_, hes⟩
    by_cases he : e = 0
    · have hlt : es.length < n := by
        by_contra hc
        refine h e ?_ he
        rw [List.reverse_cons, List.drop_append_of_le_length (by simpa using hc)]
        simp
      rw [if_pos he, he, h0, List.getD_eq_getElem?_getD, List.getElem?_eq_none (by rw [hlen]; omega)]
      rfl
    · rw [if_neg he]

theorem contrib_zero (a b : Bool) (x y : α) : contrib a b x y 0 = 0 := by
  simp [contrib]

theorem window_false (l : List α) : window false l = l := by
  induction l with
  | nil => rfl
  | cons e es ih => simp [window, ih]

/-- With thresholds and automatic clearing off, the integral is `ki` times the sum of the last `n` errors, provided that
no error after the first `n` inputs is zero. -/
theorem C75_integral_partial (n d : Nat) (hn : 0 < n) (hd : 0 < d) (p₀ : Pid α) (h₀ : Fresh n d p₀)
    (hl : p₀.lowEn = false) (hh : p₀.highEn = false) (ha : p₀.auto = false) (xs : List (α × α))
    (hz : ∀ x ∈ xs.drop n, err x ≠ 0) :
    ∃ p, feed n d p₀ xs = .ok p ∧ computeI n p = .ok (p₀.ki ((xs.reverse.take n).map err).sum) := by
  obtain ⟨p, hp, h⟩ := C75_exact n d hn hd p₀ h₀ xs
  refine ⟨p, hp, ?_⟩
  rw [h, ha, window_false, held_eq_map n _ _ (contrib_zero _ _ _ _) _ hn, ← List.map_take, ← List.map_take, List.map_map]
  · have : contrib p₀.lowEn p₀.highEn p₀.low p₀.high = id := by
      funext e
      simp [contrib, hl, hh]
    rw [this]
    rfl
  · intro e he
    rw [← List.map_reverse, List.reverse_reverse, ← List.map_drop] at he
    obtain ⟨x, hx, rfl⟩ := List.mem_map.1 he
    exact hz x hx

/-- An error of zero is not stored: after `n` inputs with the same error, the integral stays at `n` times this error however
long the input is at the setpoint. -/
theorem C75_zero_wrong (n d : Nat) (hn : 0 < n) (hd : 0 < d) (p₀ : Pid α) (h₀ : Fresh n d p₀) (hl : p₀.lowEn = false)
    (hh : p₀.highEn = false) (ha : p₀.auto = false) (e : α) (k : Nat) :
    ∃ p, feed n d p₀ (List.replicate n (e, 0) ++ List.replicate k (e, e)) = .ok p ∧ error p = (if k = 0 then e else 0) ∧
      computeI n p = .ok (p₀.ki (n • e)) := by
  obtain ⟨p, hp, h⟩ := C75_exact n d hn hd p₀ h₀ (List.replicate n (e, 0) ++ List.replicate k (e, e))
  obtain ⟨p', hp', hI⟩ := inv_feed hn hd (List.replicate n (e, 0) ++ List.replicate k (e, e)) (fresh_inv h₀)
  rw [hp] at hp'
  cases hp'
  have hc : contrib p₀.lowEn p₀.highEn p₀.low p₀.high = id := by
    funext e
    simp [contrib, hl, hh]
  have hheld : ∀ k, held n id (List.replicate k 0 ++ List.replicate n e) = List.replicate (k + n) e := by
    intro k
    induction k with
    | zero =>
      rw [List.replicate_zero, List.nil_append, held_eq_map n id _ rfl _ hn, List.map_id, Nat.zero_add]
      intro x hx
      simp at hx
    | succ k ih =>
      rw [List.replicate_succ, List.cons_append, held, ih, if_pos rfl, show k + 1 + n = (k + n) + 1 by omega,
        List.replicate_succ, List.getD_eq_getElem?_getD, List.getElem?_replicate, if_pos (by omega)]
      rfl
  refine ⟨p, hp, ?_, ?_⟩
  · cases k with
    | zero =>
      obtain ⟨m, rfl⟩ : ∃ m, n = m + 1 := ⟨n - 1, by omega⟩
      have := hI.cur (e, 0) (List.replicate m (e, 0)) (by
        rw [List.replicate_zero, List.append_nil, List.append_nil, List.reverse_replicate, List.replicate_succ])
      simp [error, this.1, this.2]
    | succ k =>
      have := hI.cur (e, e) (List.replicate k (e, e) ++ List.replicate n (e, 0))
        (by rw [List.reverse_append, List.reverse_replicate, List.reverse_replicate, List.append_nil, List.replicate_succ,
          List.cons_append])
      simp [error, this.1, this.2]
  · rw [h, hc, ha, window_false]
    have herr : (List.replicate n (e, (0 : α)) ++ List.replicate k (e, e)).reverse.map err
        = List.replicate k 0 ++ List.replicate n e := by
      simp [err]
    rw [herr, hheld, List.take_replicate, List.sum_replicate, show min n (k + n) = n by omega]

/-- With thresholds and automatic clearing as configured: the sum of what the last `n` errors of the window contribute,
provided that no error after the first `n` of the window is zero. -/
theorem C76_integral_partial (n d : Nat) (hn : 0 < n) (hd : 0 < d) (p₀ : Pid α) (h₀ : Fresh n d p₀) (xs : List (α × α))
    (hz : ∀ e ∈ (window p₀.auto (xs.reverse.map err)).reverse.drop n, e ≠ 0) :
    ∃ p, feed n d p₀ xs = .ok p ∧
      computeI n p = .ok (p₀.ki (((window p₀.auto (xs.reverse.map err)).take n).map
        (contrib p₀.lowEn p₀.highEn p₀.low p₀.high)).sum) := by
  obtain ⟨p, hp, h⟩ := C75_exact n d hn hd p₀ h₀ xs
  refine ⟨p, hp, ?_⟩
  rw [h, held_eq_map n _ _ (contrib_zero _ _ _ _) hz hn, List.map_take]

/-! ## C77 -/

/-- The history arrays and indices of a state. -/
structure InRange (n d : Nat) (p : Pid α) : Prop where
  hist : p.hist.length = n
  dhist : p.dhist.length = d
  index : p.index < n
  dindex : p.dindex < d
  dsize : p.dsize ≤ d

theorem store_some_ok (a : List α) (i : Nat) (o : Option α) (h : i < a.length) :
    ∃ a', store a i o = .ok a' ∧ a'.length = a.length := by
  cases o with
  | none => exact ⟨a, rfl, rfl⟩
  | some x => exact ⟨a.set i x, by simp [store, wr, h], by simp⟩

theorem inRange_add (n d : Nat) (hn : 0 < n) (hd : 0 < d) (p : Pid α) (v : α) (h : InRange n d p) :
    ∃ p', addInput n d p v = .ok p' ∧ InRange n d p' := by
  have hq : ∀ e, InRange n d (updateSign n { p with input := v } e) := by
    intro e
    unfold updateSign
    generalize (if 0 < e then (1 : Int) else if e < 0 then -1 else p.sign) = s
    simp only
    by_cases h1 : p.sign ≠ s
    · rw [if_pos h1]
      by_cases h2 : p.auto = true
      · rw [if_pos h2]
        exact ⟨by simp [clear], h.2, hn, h.4, h.5⟩
      · rw [if_neg h2]
        exact ⟨h.1, h.2, h.3, h.4, h.5⟩
    · rw [if_neg h1]
      exact ⟨h.1, h.2, h.3, h.4, h.5⟩
  unfold addInput
  simp only
  have hq := hq (error { p with input := v })
  generalize updateSign n { p with input := v } (error { p with input := v }) = q at *
  obtain ⟨a, ha, hlen⟩ := store_some_ok q.hist q.index (entry q (error q)) (by rw [hq.1]; exact hq.3)
  rw [ha, Res.ok_bind]
  unfold addOld
  simp only
  by_cases hf : q.first = true
  · rw [if_pos hf]
    have hw : wr q.dhist q.dindex (error p) = .ok (q.dhist.set q.dindex (error p)) := by
      simp [wr, hq.2, hq.4]
    rw [hw, Res.ok_bind]
    refine ⟨_, rfl, hlen.trans hq.1, by simp [hq.2], Nat.mod_lt _ hn, Nat.mod_lt _ hd, ?_⟩
    have := hq.5
    simp only
    split <;> omega
  · rw [if_neg hf]
    exact ⟨_, rfl, hlen.trans hq.1, hq.2, Nat.mod_lt _ hn, hq.4, hq.5⟩

theorem inRange_set (n d : Nat) (hn : 0 < n) (p : Pid α) (s : Setting α) (h : InRange n d p) : InRange n d (set n p s) := by
  cases s <;> first | exact ⟨h.1, h.2, h.3, h.4, h.5⟩ | exact ⟨by simp [set, clear], h.2, hn, h.4, h.5⟩

/-- In every history of settings and inputs, nothing is read or written outside the arrays, and computing gives the sum of
the three terms. (`compute` returns no new state: the C functions do not write to the structure.) -/
theorem C77_in_range (n d : Nat) (hn : 0 < n) (hd : 0 < d) (os : List (Op α)) :
    ∃ p, run n d (init n d) os = .ok p ∧ InRange n d p ∧ ∃ i k, computeI n p = .ok i ∧ computeD d p = .ok k ∧
      compute n d p = .ok (computeP p + i + k) := by
  have hrun : ∀ (os : List (Op α)) (p : Pid α), InRange n d p → ∃ p', run n d p os = .ok p' ∧ InRange n d p' := by
    intro os
    induction os with
    | nil => exact fun p h => ⟨p, rfl, h⟩
    | cons o os ih =>
      intro p h
      cases o with
      | input v =>
        obtain ⟨p₁, h₁, hr⟩ := inRange_add n d hn hd p v h
        obtain ⟨p₂, h₂, hr⟩ := ih p₁ hr
        exact ⟨p₂, by simp only [run, step, h₁, Res.ok_bind, h₂], hr⟩
      | set s =>
        obtain ⟨p₂, h₂, hr⟩ := ih _ (inRange_set n d hn p s h)
        exact ⟨p₂, by simp only [run, step, Res.ok_bind, h₂], hr⟩
  obtain ⟨p, hp, hr⟩ := hrun os (init n d) ⟨by simp [init], by simp [init], hn, hd, by simp [init]⟩
  have hi := sumFrom_eq p.hist n 0 0 (by rw [hr.1, Nat.zero_add])
  have hk : ∃ k, computeD d p = .ok k := by
    unfold computeD
    split
    · exact ⟨_, rfl⟩
    · have hlt : (if p.dsize = d then p.dindex else 0) < p.dhist.length := by
        rw [hr.2]
        have := hr.4
        split <;> omega
      rw [rd_getD hlt, Res.ok_bind]
      split <;> exact ⟨_, rfl⟩
  obtain ⟨k, hk⟩ := hk
  have hI : computeI n p = .ok (p.ki (0 + (p.hist.drop 0).sum)) := by simp only [computeI, hi, Res.ok_bind, Res.pure_eq]
  exact ⟨p, hp, hr, _, k, hI, hk, by simp only [compute, hI, hk, Res.ok_bind, Res.pure_eq]⟩

/-! ## Examples -/

/-- A controller with gains 1, history of 3, derivative over 2 inputs. -/
def exP : Pid Int := tune (init 3 2) id id id

example : Fresh 3 2 exP := ⟨[.tune id id id], rfl⟩

def exI (xs : List (Int × Int)) (p : Pid Int := exP) : Option (Int × Int) :=
  match feed 3 2 p xs with
  | .ok q =>
    match computeI 3 q, computeD 2 q with
    | .ok i, .ok d => some (i, d)
    | _, _ => none
  | _ => none

/-- Errors 10, 8, 5, 1: the sum of the last three and 1 - 8. -/
example : exI [(10, 0), (10, 2), (10, 5), (10, 9)] = some (14, -7) := by decide
/-- C75: errors 10, 8, 5, 0, 0, 0: the integral stays. -/
example : exI [(10, 0), (10, 2), (10, 5), (10, 10), (10, 10), (10, 10)] = some (23, 0) := by decide
/-- C76: a change of sign clears the integral; a threshold of 6 for positive errors. -/
example : exI [(10, 0), (10, 2), (10, 13)] { exP with auto := true } = some (-3, -13) := by decide
example : exI [(10, 0), (10, 2), (10, 5)] { exP with lowEn := true, low := 6 } = some (5, -5) := by decide

end Gel.Pid
