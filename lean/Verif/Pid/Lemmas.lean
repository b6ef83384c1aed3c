import Verif.Pid.Spec
import Mathlib.Tactic.SplitIfs
import Mathlib.Tactic.Abel
import Mathlib.Tactic.ByContra
import Mathlib.Tactic.Set

namespace Gel.Pid
open Spec
variable {α : Type} [AddCommGroup α] [LinearOrder α]

/-! ## A ring in which some writes are skipped -/

/-- The content of place `i` after the writes, newest first. -/
def slot (n : Nat) : List (Option α) → Nat → α
  | [], _ => 0
  | o :: os, i => if os.length % n = i then o.getD (slot n os i) else slot n os i

def heldO (n : Nat) : List (Option α) → List α
  | [] => []
  | o :: os => o.getD ((heldO n os).getD (n - 1) 0) :: heldO n os

theorem slot_held {n : Nat} (hn : 0 < n) (os : List (Option α)) (j : Nat) (hj : j < n) :
    slot n os ((os.length + n - 1 - j) % n) = (heldO n os).getD j 0 := by
  induction os generalizing j with
  | nil => simp [slot, heldO]
  | cons o os ih =>
    cases j with
    | zero =>
      have h := ih (n - 1) (by omega)
      rw [show os.length + n - 1 - (n - 1) = os.length by omega] at h
      have hi : ((o :: os).length + n - 1 - 0) % n = os.length % n := by
        rw [List.length_cons, show os.length + 1 + n - 1 - 0 = os.length + n by omega, Nat.add_mod_right]
      rw [hi]
      simp only [slot, if_true, heldO, List.getD_cons_zero, h]
    | succ j =>
      have h := ih j (by omega)
      rw [List.length_cons, show os.length + 1 + n - 1 - (j + 1) = os.length + n - 1 - j by omega]
      have hne : ¬ os.length % n = (os.length + n - 1 - j) % n := by
        rw [show os.length + n - 1 - j = os.length + (n - 1 - j) by omega, Nat.add_mod,
          Nat.mod_eq_of_lt (show n - 1 - j < n by omega)]
        have hlt := Nat.mod_lt os.length hn
        generalize os.length % n = r at hlt
        by_cases hc : r + (n - 1 - j) < n
        · rw [Nat.mod_eq_of_lt hc]
          omega
        · rw [Nat.mod_eq_sub_mod (show n ≤ r + (n - 1 - j) by omega),
            Nat.mod_eq_of_lt (show r + (n - 1 - j) - n < n by omega)]
          omega
      simp only [slot, if_neg hne, heldO, List.getD_cons_succ]
      exact h

structure Ring (n : Nat) (a : List α) (i : Nat) (os : List (Option α)) : Prop where
  len : a.length = n
  idx : i = os.length % n
  get : ∀ j < n, a.getD j 0 = slot n os j
  sum : a.sum = ((heldO n os).take n).sum

theorem ring_init (n : Nat) : Ring (α := α) n (List.replicate n 0) 0 [] := by
  refine ⟨by simp, by simp, ?_, by simp [heldO]⟩
  intro j hj
  simp [slot, List.getD_eq_getElem?_getD, List.getElem?_replicate, hj]

theorem sum_set_getD : ∀ (a : List α) (i : Nat) (x : α), i < a.length → (a.set i x).sum = a.sum + (x - a.getD i 0)
  | [], i, x, h => by simp at h
  | y :: ys, 0, x, _ => by
    simp only [List.set_cons_zero, List.sum_cons, List.getD_cons_zero]
    abel
  | y :: ys, i + 1, x, h => by
    simp only [List.set_cons_succ, List.sum_cons, List.getD_cons_succ]
    rw [sum_set_getD ys i x (by simpa using h)]
    abel

theorem sum_take_succ : ∀ (l : List α) (k : Nat), (l.take (k + 1)).sum = (l.take k).sum + l.getD k 0
  | [], k => by simp
  | x :: xs, 0 => by simp
  | x :: xs, k + 1 => by
    rw [List.take_succ_cons, List.sum_cons, sum_take_succ xs k, List.take_succ_cons, List.sum_cons, List.getD_cons_succ,
      add_assoc]

theorem ring_store {n : Nat} (hn : 0 < n) {a : List α} {i : Nat} {os : List (Option α)} (h : Ring n a i os) (o : Option α) :
    ∃ a', store a i o = .ok a' ∧ Ring n a' ((i + 1) % n) (o :: os) := by
  have hi : i < n := by rw [h.idx]; exact Nat.mod_lt _ hn
  have hidx : (i + 1) % n = (o :: os).length % n := by
    rw [h.idx, List.length_cons, Nat.mod_add_mod]
  have hheld := slot_held hn os (n - 1) (by omega)
  rw [show os.length + n - 1 - (n - 1) = os.length by omega, ← h.idx, ← h.get i hi] at hheld
  obtain ⟨k, rfl⟩ : ∃ k, n = k + 1 := ⟨n - 1, by omega⟩
  have hs := h.sum
  rw [sum_take_succ] at hs
  rw [Nat.add_sub_cancel] at hheld
  cases o with
  | none =>
    refine ⟨a, rfl, h.len, hidx, ?_, ?_⟩
    · intro j hj
      rw [h.get j hj]
      simp only [slot]
      split <;> simp
    · simp only [heldO, List.take_succ_cons, List.sum_cons, Nat.add_sub_cancel, Option.getD_none]
      rw [hs]
      abel
  | some x =>
    refine ⟨a.set i x, by simp [store, wr, h.len, hi], by simp [h.len], hidx, ?_, ?_⟩
    · intro j hj
      simp only [slot]
      rw [List.getD_eq_getElem?_getD, List.getElem?_set]
      by_cases hij : i = j
      · subst hij
        rw [← h.idx]
        simp [h.len, hi]
      · rw [if_neg hij, if_neg (by rw [← h.idx]; exact hij), ← h.get j hj, List.getD_eq_getElem?_getD]
    · rw [sum_set_getD _ _ _ (by rw [h.len]; exact hi), hs]
      simp only [heldO, List.take_succ_cons, List.sum_cons, Option.getD_some, hheld]
      abel

theorem rd_getD {a : List α} {i : Nat} (h : i < a.length) : rd a i = .ok (a.getD i 0) := by
  simp [rd, List.getD_eq_getElem?_getD, h]

theorem sumFrom_eq (a : List α) : ∀ (k i : Nat) (acc : α), i + k = a.length →
    sumFrom a k i acc = .ok (acc + (a.drop i).sum)
  | 0, i, acc, h => by
    have : a.drop i = [] := List.drop_eq_nil_of_le (by omega)
    simp [sumFrom, this]
  | k + 1, i, acc, h => by
    have hi : i < a.length := by omega
    simp only [sumFrom, rd_getD hi, Res.ok_bind]
    rw [sumFrom_eq a k (i + 1) _ (by omega), List.drop_eq_getElem_cons hi, List.sum_cons, List.getD_eq_getElem?_getD,
      List.getElem?_eq_getElem hi, Option.getD_some, add_assoc]

/-! ## The entries of the integral history -/

theorem lt_neg_abs {e : α} (h : e < 0) : abs e = -e := by
  simp [abs, not_lt.2 (le_of_lt h)]

theorem entry_eq (p : Pid α) (e : α) :
    entry p e = if e = 0 then none else some (contrib p.lowEn p.highEn p.low p.high e) := by
  unfold entry contrib
  rcases lt_trichotomy e 0 with h | h | h
  · simp only [not_lt.2 (le_of_lt h), if_false, h, if_true, ne_of_lt h, lt_neg_abs h, false_and, true_and, false_or]
    by_cases hc : p.highEn = false ∨ -e < p.high
    · rw [if_pos hc, if_neg]
      rintro ⟨h1, h2⟩
      rcases hc with hc | hc
      · rw [hc] at h1
        cases h1
      · exact absurd h2 (not_le.2 hc)
    · rw [if_neg hc, if_pos]
      rw [not_or] at hc
      exact ⟨by simpa using hc.1, not_lt.1 hc.2⟩
  · subst h
    simp
  · simp only [h, if_true, ne_of_gt h, if_false, not_lt.2 (le_of_lt h), abs, false_and, true_and, or_false]
    by_cases hc : p.lowEn = false ∨ e < p.low
    · rw [if_pos hc, if_neg]
      rintro ⟨h1, h2⟩
      rcases hc with hc | hc
      · rw [hc] at h1
        cases h1
      · exact absurd h2 (not_le.2 hc)
    · rw [if_neg hc, if_pos]
      rw [not_or] at hc
      exact ⟨by simpa using hc.1, not_lt.1 hc.2⟩

/-- The writes for a list of errors. -/
def writes (c : α → α) (l : List α) : List (Option α) := l.map fun e => if e = 0 then none else some (c e)

theorem heldO_writes (n : Nat) (c : α → α) (l : List α) : heldO n (writes c l) = held n c l := by
  induction l with
  | nil => rfl
  | cons e es ih =>
    show (if e = 0 then none else some (c e)).getD ((heldO n (writes c es)).getD (n - 1) 0) :: heldO n (writes c es) = _
    rw [ih]
    by_cases h : e = 0
    · simp only [h, if_true, held, Option.getD_none]
    · simp only [if_neg h, held, Option.getD_some]

/-- The settings are not changed by inputs. -/
structure Same (p q : Pid α) : Prop where
  kp : q.kp = p.kp
  ki : q.ki = p.ki
  kd : q.kd = p.kd
  low : q.low = p.low
  high : q.high = p.high
  dlow : q.dlow = p.dlow
  auto : q.auto = p.auto
  dthr : q.dthr = p.dthr
  highEn : q.highEn = p.highEn
  lowEn : q.lowEn = p.lowEn

/-- The state after the pairs `xs` of setpoint and input, newest first. -/
structure Inv (n d : Nat) (p₀ : Pid α) (p : Pid α) (xs : List (α × α)) : Prop where
  same : Same p₀ p
  first : p.first = !xs.isEmpty
  cur : ∀ x ys, xs = x :: ys → p.sp = x.1 ∧ p.input = x.2
  sign : p.sign = lastSign (xs.map err)
  ring : Ring n p.hist p.index (writes (contrib p₀.lowEn p₀.highEn p₀.low p₀.high) (window p₀.auto (xs.map err)))
  dring : Ring d p.dhist p.dindex ((olds xs).map some)
  dsize : p.dsize = min d (olds xs).length

theorem length_olds : ∀ xs : List (α × α), (olds xs).length = xs.length - 1
  | [] => rfl
  | [_] => rfl
  | _ :: y :: ys => by
    simp only [olds, List.length_cons, length_olds (y :: ys)]
    omega

theorem updateSign_eq (n : Nat) (p : Pid α) (e : α) (es : List α) (hs : p.sign = lastSign es) :
    updateSign n p e = if p.auto = true ∧ lastSign (e :: es) ≠ lastSign es
      then { p with sign := lastSign (e :: es), index := 0, hist := List.replicate n 0 }
      else { p with sign := lastSign (e :: es) } := by
  unfold updateSign
  have h : (if 0 < e then (1 : Int) else if e < 0 then -1 else p.sign) = lastSign (e :: es) := by
    rw [hs]
    rfl
  simp only [h]
  by_cases hne : p.sign = lastSign (e :: es)
  · have h1 : ¬ (p.auto = true ∧ lastSign (e :: es) ≠ lastSign es) := by
      rw [← hne, hs]
      simp
    rw [if_neg (by simpa using hne), if_neg h1, ← hne]
  · have h1 : lastSign (e :: es) ≠ lastSign es := by
      rw [← hs]
      exact fun h => hne h.symm
    rw [if_pos hne]
    by_cases ha : p.auto = true
    · rw [if_pos ha, if_pos ⟨ha, h1⟩]
      rfl
    · rw [if_neg ha, if_neg (fun h => ha h.1)]

theorem inv_add {n d : Nat} (hn : 0 < n) (hd : 0 < d) {p₀ p : Pid α} {xs : List (α × α)} (hI : Inv n d p₀ p xs) (s v : α) :
    ∃ p', addInput n d (setSp p s) v = .ok p' ∧ Inv n d p₀ p' ((s, v) :: xs) := by
  have hI₀ := hI
  obtain ⟨hsame, hfirst, hcur, hsign, hring, hdring, hdsize⟩ := hI
  obtain ⟨a1, a2, a3, a4, a5, a6, a7, a8, a9, a10⟩ := hsame
  obtain ⟨kp, ki, kd, index, dindex, dsize, hist, dhist, input, sp, low, high, dlow, first, auto, dthr, highEn, lowEn, sign⟩ := p
  simp only at a1 a2 a3 a4 a5 a6 a7 a8 a9 a10 hfirst hcur hsign hring hdring hdsize
  subst a1 a2 a3 a4 a5 a6 a7 a8 a9 a10
  set c := contrib p₀.lowEn p₀.highEn p₀.low p₀.high with hc
  -- the state after the sign, in both cases
  have key : ∀ (index : Nat) (hist : List α) (w : List α), Ring n hist index (writes c w) →
      window p₀.auto (err (s, v) :: xs.map err) = err (s, v) :: w →
      ∃ p', (do
        let h ← store hist index (entry (⟨p₀.kp, p₀.ki, p₀.kd, index, dindex, dsize, hist, dhist, v, s, p₀.low, p₀.high,
          p₀.dlow, first, p₀.auto, p₀.dthr, p₀.highEn, p₀.lowEn, lastSign (err (s, v) :: xs.map err)⟩ : Pid α) (s - v))
        addOld d (⟨p₀.kp, p₀.ki, p₀.kd, (index + 1) % n, dindex, dsize, h, dhist, v, s, p₀.low, p₀.high,
          p₀.dlow, first, p₀.auto, p₀.dthr, p₀.highEn, p₀.lowEn, lastSign (err (s, v) :: xs.map err)⟩ : Pid α) (s - input))
          = Res.ok p' ∧ Inv n d p₀ p' ((s, v) :: xs) := by
    intro index hist w hr hw
    obtain ⟨h, hst, hr'⟩ := ring_store hn hr (if s - v = 0 then none else some (c (s - v)))
    rw [entry_eq, ← hc, hst, Res.ok_bind]
    have hr'' : Ring n h ((index + 1) % n) (writes c (window p₀.auto (((s, v) :: xs).map err))) := by
      rw [List.map_cons, hw]
      exact hr'
    cases xs with
    | nil =>
      simp only [List.isEmpty_nil, Bool.not_true] at hfirst
      subst hfirst
      exact ⟨_, rfl, ⟨rfl, rfl, rfl, rfl, rfl, rfl, rfl, rfl, rfl, rfl⟩, rfl, by rintro x ys h; cases h; exact ⟨rfl, rfl⟩, rfl,
        hr'', hdring, hdsize⟩
    | cons y ys =>
      simp only [List.isEmpty_cons, Bool.not_false] at hfirst
      subst hfirst
      obtain ⟨dh, hdst, hdr'⟩ := ring_store hd hdring (some (s - input))
      have hin : input = y.2 := (hcur y ys rfl).2
      simp only [store] at hdst
      refine ⟨⟨p₀.kp, p₀.ki, p₀.kd, (index + 1) % n, (dindex + 1) % d, if dsize < d then dsize + 1 else dsize, h, dh, v, s,
        p₀.low, p₀.high, p₀.dlow, true, p₀.auto, p₀.dthr, p₀.highEn, p₀.lowEn, lastSign (err (s, v) :: (y :: ys).map err)⟩,
        by simp only [addOld, if_true, hdst, Res.ok_bind, Res.pure_eq],
        ⟨rfl, rfl, rfl, rfl, rfl, rfl, rfl, rfl, rfl, rfl⟩, rfl, by rintro x ys h; cases h; exact ⟨rfl, rfl⟩, rfl, hr'', ?_, ?_⟩
      · rw [hin] at hdr'
        exact hdr'
      · simp only [olds, List.length_cons, hdsize]
        split <;> omega
  have hus := updateSign_eq n (⟨p₀.kp, p₀.ki, p₀.kd, index, dindex, dsize, hist, dhist, v, s, p₀.low, p₀.high,
          p₀.dlow, first, p₀.auto, p₀.dthr, p₀.highEn, p₀.lowEn, sign⟩ : Pid α) (s - v) (xs.map err) hsign
  simp only [addInput, setSp, error]
  rw [hus]
  by_cases hch : p₀.auto = true ∧ lastSign ((s - v) :: xs.map err) ≠ lastSign (xs.map err)
  · rw [if_pos hch]
    refine key 0 (List.replicate n 0) [] (ring_init n) ?_
    rw [window, if_pos (show p₀.auto = true ∧ lastSign (err (s, v) :: xs.map err) ≠ lastSign (xs.map err) from hch)]
  · rw [if_neg hch]
    refine key index hist _ hring ?_
    rw [window, if_neg (show ¬ (p₀.auto = true ∧ lastSign (err (s, v) :: xs.map err) ≠ lastSign (xs.map err)) from hch)]

theorem inv_feed {n d : Nat} (hn : 0 < n) (hd : 0 < d) {p₀ : Pid α} (xs : List (α × α)) {p : Pid α} {ys : List (α × α)}
    (hI : Inv n d p₀ p ys) : ∃ p', feed n d p xs = .ok p' ∧ Inv n d p₀ p' (xs.reverse ++ ys) := by
  induction xs generalizing p ys with
  | nil => exact ⟨p, rfl, hI⟩
  | cons x xs ih =>
    obtain ⟨p₁, h₁, hI₁⟩ := inv_add hn hd hI x.1 x.2
    obtain ⟨p₂, h₂, hI₂⟩ := ih hI₁
    refine ⟨p₂, ?_, by simpa using hI₂⟩
    simp only [feed, h₁, Res.ok_bind, h₂]

theorem heldO_some (n : Nat) (l : List α) : heldO n (l.map some) = l := by
  induction l with
  | nil => rfl
  | cons x xs ih => simp [heldO, ih]

end Gel.Pid
