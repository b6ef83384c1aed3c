import Verif.Pid.Lemmas
import Mathlib.Algebra.Order.Group.Int
import Mathlib.Algebra.BigOperators.Group.List.Basic

/-!
# PID: interrupt handlers (C206, C207)

`pid_compute` and `pid_add_input` as sequences of accesses to the controller, with a handler before each of them that runs to its
end. Each load and each store of a field or element is one step.
-/
namespace Gel.Pid

variable {α : Type} [AddCommGroup α] [LinearOrder α]

/-- The indices and the arrays fit. -/
structure Safe (n d : Nat) (p : Pid α) : Prop where
  hist : p.hist.length = n
  dhist : p.dhist.length = d
  index : p.index < n
  dindex : p.dindex < d

/-! ## `pid_compute` -/

/-- The loop of pid.c:82-83, with a handler before each load; `b` is the number of the point before element 0. -/
def sumI (H : Nat → Pid α → Pid α) (b : Nat) : Nat → Nat → Pid α → α → Res (Pid α × α)
  | 0, _, p, acc => .ok (p, acc)
  | k + 1, i, p, acc => do
    let p := H (b + i) p
    let x ← rd p.hist i
    sumI H b k (i + 1) p (acc + x)

/-- `pid_compute_d`, pid.c:90-118; `b` is the number of its first point. -/
def computeDI (H : Nat → Pid α → Pid α) (d b : Nat) (p : Pid α) : Res (Pid α × α) :=
  let p := H b p
  let sp := p.sp
  let p := H (b + 1) p
  let e := sp - p.input
  let p := H (b + 2) p
  if p.dsize = 0 then .ok (p, 0)
  else do
    let p := H (b + 3) p
    let full := decide (p.dsize = d)
    let p := H (b + 4) p
    let last := if full then p.dindex else 0
    let p := H (b + 5) p
    let x ← rd p.dhist last
    let p := H (b + 6) p
    let thr := p.dthr
    let p := H (b + 7) p
    if thr = true ∧ p.dlow < abs e then pure (p, 0)
    else
      let p := H (b + 8) p
      pure (p, p.kd (e - x))

/-- `pid_compute`, pid.c:121-127, with pid.c:73-87: the points of the three terms begin at 0, 3 and n + 4. -/
def computeI' (H : Nat → Pid α → Pid α) (n d : Nat) (p : Pid α) : Res (Pid α × α) := do
  let p := H 0 p
  let sp := p.sp
  let p := H 1 p
  let e := sp - p.input
  let p := H 2 p
  let pterm := p.kp e
  let (p, s) ← sumI H 3 n 0 p 0
  let p := H (n + 3) p
  let iterm := p.ki s
  let (p, dterm) ← computeDI H d (n + 4) p
  pure (p, pterm + iterm + dterm)

/-- A handler at point `t` only. -/
def onceAt (t : Nat) (f : Pid α → Pid α) : Nat → Pid α → Pid α := fun u p => if u = t then f p else p

/-- A handler that adds an input. -/
def inputH (n d : Nat) (v : α) (p : Pid α) : Pid α :=
  match addInput n d p v with
  | .ok p' => p'
  | _ => p

/-- The value from which the derivative is taken. -/
def oldest (d : Nat) (p : Pid α) : α := p.dhist.getD (if p.dsize = d then p.dindex else 0) 0

/-- The derivative term for an error and a value from which it is taken. -/
def dterm (p : Pid α) (e x : α) : α := if p.dthr = true ∧ p.dlow < abs e then 0 else p.kd (e - x)

theorem sumI_safe {n d : Nat} {H : Nat → Pid α → Pid α} (hH : ∀ t p, Safe n d p → Safe n d (H t p)) (b : Nat) : ∀ (k i : Nat) (p : Pid α) (acc : α),
    Safe n d p → i + k = n → ∃ p' s, sumI H b k i p acc = .ok (p', s) ∧ Safe n d p'
  | 0, _, p, acc, h, _ => ⟨p, acc, rfl, h⟩
  | k + 1, i, p, acc, h, hk => by
    have h1 := hH (b + i) _ h
    rw [sumI, rd_getD (by rw [h1.hist]; omega)]
    exact sumI_safe hH b k (i + 1) _ _ h1 (by omega)

theorem computeDI_safe {n d : Nat} {H : Nat → Pid α → Pid α} (hH : ∀ t p, Safe n d p → Safe n d (H t p)) (b : Nat) {p : Pid α} (h : Safe n d p) :
    ∃ p' y, computeDI H d b p = .ok (p', y) ∧ Safe n d p' := by
  have h0 := hH b _ h
  have h1 := hH (b + 1) _ h0
  have h2 := hH (b + 2) _ h1
  rw [computeDI]
  simp only
  by_cases hz : (H (b + 2) (H (b + 1) (H b p))).dsize = 0
  · rw [if_pos hz]
    exact ⟨_, _, rfl, h2⟩
  · rw [if_neg hz]
    have h3 := hH (b + 3) _ h2
    have h4 := hH (b + 4) _ h3
    have h5 := hH (b + 5) _ h4
    have h6 := hH (b + 6) _ h5
    have h7 := hH (b + 7) _ h6
    have h8 := hH (b + 8) _ h7
    have hd : 0 < d := Nat.lt_of_le_of_lt (Nat.zero_le _) h.dindex
    rw [rd_getD (by rw [h5.dhist]; split_ifs <;> [exact h4.dindex; exact hd])]
    simp only [Res.ok_bind]
    generalize List.getD _ _ _ = x
    split_ifs
    · exact ⟨_, _, rfl, h7⟩
    · exact ⟨_, _, rfl, h8⟩

/-- **C206.** Whatever handlers run that leave the controller in order, `pid_compute` accesses nothing outside of the arrays. -/
theorem C206_safe {n d : Nat} {H : Nat → Pid α → Pid α} (hH : ∀ t p, Safe n d p → Safe n d (H t p)) {p : Pid α} (h : Safe n d p) :
    ∃ p' y, computeI' H n d p = .ok (p', y) ∧ Safe n d p' := by
  rw [computeI']
  simp only
  obtain ⟨p1, s, e1, h1⟩ := sumI_safe hH 3 n 0 _ 0 (hH 2 _ (hH 1 _ (hH 0 _ h))) (by omega)
  rw [e1]
  simp only [Res.ok_bind]
  obtain ⟨p2, y, e2, h2⟩ := computeDI_safe hH (n + 4) (hH (n + 3) _ h1)
  rw [e2]
  exact ⟨_, _, rfl, h2⟩

theorem safe_set {n d : Nat} (hn : 0 < n) {p : Pid α} (h : Safe n d p) (s : Setting α) : Safe n d (set n p s) := by
  cases s <;> first
    | exact ⟨h.hist, h.dhist, h.index, h.dindex⟩
    | exact ⟨by simp [set, clear], h.dhist, hn, h.dindex⟩

theorem safe_sign {n d : Nat} {p : Pid α} (h : Safe n d p) (e : α) : Safe n d (updateSign n p e) := by
  have hn : 0 < n := Nat.lt_of_le_of_lt (Nat.zero_le _) h.index
  unfold updateSign
  simp only
  generalize (if 0 < e then (1 : Int) else _) = s'
  split_ifs
  · exact ⟨by simp [clear], h.dhist, hn, h.dindex⟩
  · exact ⟨h.hist, h.dhist, h.index, h.dindex⟩
  · exact h

/-- **C206.** The calls are such handlers. -/
theorem C206_calls {n d : Nat} {p : Pid α} (h : Safe n d p) (o : Op α) : ∃ p', step n d p o = .ok p' ∧ Safe n d p' := by
  have hn : 0 < n := Nat.lt_of_le_of_lt (Nat.zero_le _) h.index
  have hd : 0 < d := Nat.lt_of_le_of_lt (Nat.zero_le _) h.dindex
  cases o with
  | set s => exact ⟨_, rfl, safe_set hn h s⟩
  | input v =>
    rw [step, addInput]
    have h1 : Safe n d { p with input := v } := ⟨h.hist, h.dhist, h.index, h.dindex⟩
    have h2 := safe_sign h1 (error { p with input := v })
    generalize updateSign n { p with input := v } (error { p with input := v }) = q at *
    obtain ⟨a, ea, la⟩ : ∃ a, store q.hist q.index (entry q (error q)) = .ok a ∧ a.length = n := by
      cases entry q (error q) with
      | none => exact ⟨_, rfl, h2.hist⟩
      | some x => exact ⟨_, by rw [store, wr, if_pos (by rw [h2.hist]; exact h2.index)], by simpa using h2.hist⟩
    simp only [ea, Res.ok_bind]
    rw [addOld]
    simp only
    split_ifs
    · rw [wr, if_pos (by rw [h2.dhist]; exact h2.dindex)]
      exact ⟨_, rfl, la, by simpa using h2.dhist, Nat.mod_lt _ hn, Nat.mod_lt _ hd⟩
    · rw [wr, if_pos (by rw [h2.dhist]; exact h2.dindex)]
      exact ⟨_, rfl, la, by simpa using h2.dhist, Nat.mod_lt _ hn, Nat.mod_lt _ hd⟩
    · exact ⟨_, rfl, la, h2.dhist, Nat.mod_lt _ hn, h2.dindex⟩

/-- What an input does to what `pid_compute` reads. -/
theorem addInput_reads {n d : Nat} {p p' : Pid α} (h : Safe n d p) {v : α} (e : addInput n d p v = .ok p') :
    p'.kp = p.kp ∧ p'.ki = p.ki ∧ p'.kd = p.kd ∧ p'.sp = p.sp ∧ p'.dthr = p.dthr ∧ p'.dlow = p.dlow ∧
    (p.auto = false → ∃ z, p'.hist = p.hist.set p.index z) ∧
    (p.first = true → p'.dhist = p.dhist.set p.dindex (error p) ∧ p'.dindex = (p.dindex + 1) % d ∧
      p'.dsize = if p.dsize < d then p.dsize + 1 else p.dsize) ∧
    (p.first = false → p'.dhist = p.dhist ∧ p'.dindex = p.dindex ∧ p'.dsize = p.dsize) ∧ Safe n d p' ∧ p'.input = v := by
  have hs : Safe n d p' := by
    obtain ⟨q, eq, hq⟩ := C206_calls h (.input v)
    rw [step, e] at eq
    cases eq; exact hq
  obtain ⟨kp, ki, kd, index, dindex, dsize, hist, dhist, input, sp, low, high, dlow, first, auto, dthr, highEn, lowEn, sign⟩ := p
  obtain ⟨a1, a2, a3, a4⟩ := h
  simp only at a1 a2 a3 a4 ⊢
  rw [addInput] at e
  simp only at e
  obtain ⟨sign', index', hist', hsg, hi', hl', hau⟩ : ∃ s' i' h', updateSign n ⟨kp, ki, kd, index, dindex, dsize, hist, dhist, v, sp, low, high, dlow, first, auto, dthr, highEn, lowEn, sign⟩
      (error ⟨kp, ki, kd, index, dindex, dsize, hist, dhist, v, sp, low, high, dlow, first, auto, dthr, highEn, lowEn, sign⟩) =
      ⟨kp, ki, kd, i', dindex, dsize, h', dhist, v, sp, low, high, dlow, first, auto, dthr, highEn, lowEn, s'⟩ ∧
      i' < n ∧ h'.length = n ∧ (auto = false → i' = index ∧ h' = hist) := by
    unfold updateSign
    simp only
    generalize (if 0 < error (α := α) _ then (1 : Int) else _) = s'
    by_cases hss : sign ≠ s'
    · rw [if_pos hss]
      cases auto with
      | true => exact ⟨s', 0, List.replicate n 0, by rw [if_pos rfl, clear], by omega, by simp, by simp⟩
      | false => exact ⟨s', index, hist, by rw [if_neg (by simp)], a3, a1, fun _ => ⟨rfl, rfl⟩⟩
    · exact ⟨sign, index, hist, by rw [if_neg hss], a3, a1, fun _ => ⟨rfl, rfl⟩⟩
  rw [hsg] at e
  simp only at e
  obtain ⟨z, hz⟩ : ∃ z, store hist' index' (entry ⟨kp, ki, kd, index', dindex, dsize, hist', dhist, v, sp, low, high, dlow, first, auto, dthr, highEn, lowEn, sign'⟩
      (error ⟨kp, ki, kd, index', dindex, dsize, hist', dhist, v, sp, low, high, dlow, first, auto, dthr, highEn, lowEn, sign'⟩)) = .ok (hist'.set index' z) := by
    cases entry (α := α) _ _ with
    | none =>
      refine ⟨hist'.getD index' 0, ?_⟩
      rw [store]
      congr 1
      apply List.ext_getElem?
      intro i
      rw [List.getElem?_set]
      split_ifs with c1 c2
      · subst c1; rw [List.getD_eq_getElem?_getD, List.getElem?_eq_getElem c2]; simp
      · subst c1; omega
      · rfl
    | some x => exact ⟨x, by rw [store, wr, if_pos (by omega)]⟩
  rw [hz] at e
  simp only [Res.ok_bind] at e
  have hzz : auto = false → ∃ z, hist'.set index' z = hist.set index z := fun c => by
    obtain ⟨rfl, rfl⟩ := hau c; exact ⟨z, rfl⟩
  have hzz' : auto = false → ∃ y, hist'.set index' z = hist.set index y := fun c => by
    obtain ⟨rfl, rfl⟩ := hau c; exact ⟨z, rfl⟩
  rw [addOld] at e
  simp only at e
  cases first with
  | true =>
    rw [if_pos rfl, wr, if_pos (by omega)] at e
    simp only [Res.ok_bind, Res.pure_eq, Res.ok.injEq] at e
    subst e
    exact ⟨rfl, rfl, rfl, rfl, rfl, rfl, hzz', fun _ => ⟨rfl, rfl, rfl⟩, fun c => by simp at c, hs, rfl⟩
  | false =>
    rw [if_neg (by simp)] at e
    simp only [Res.pure_eq, Res.ok.injEq] at e
    subst e
    exact ⟨rfl, rfl, rfl, rfl, rfl, rfl, hzz', fun c => by simp at c, fun _ => ⟨rfl, rfl, rfl⟩, hs, rfl⟩

/-- The derivative history is filled from its first place on. -/
def Filled (d : Nat) (p : Pid α) : Prop := p.dsize ≤ d ∧ (p.dsize < d → p.dindex = p.dsize)

theorem filled_step {n d : Nat} {p p' : Pid α} (h : Safe n d p) (hf : Filled d p) (o : Op α) (e : step n d p o = .ok p') : Filled d p' := by
  cases o with
  | set s =>
    rw [step] at e
    cases e
    cases s <;> exact hf
  | input v =>
    obtain ⟨-, -, -, -, -, -, -, h1, h2, -, -⟩ := addInput_reads h e
    cases hb : p.first with
    | true =>
      obtain ⟨-, e1, e2⟩ := h1 hb
      obtain ⟨f1, f2⟩ := hf
      refine ⟨by rw [e2]; split_ifs <;> omega, fun hl => ?_⟩
      rw [e2] at hl ⊢
      have : p.dsize < d := by split_ifs at hl <;> omega
      rw [if_pos this] at hl ⊢
      rw [e1, f2 this, Nat.mod_eq_of_lt hl]
    | false =>
      obtain ⟨-, e1, e2⟩ := h2 hb
      rw [Filled, e1, e2]; exact hf

/-- **C206.** Every history of calls leads to a controller of which the theorems speak. -/
theorem C206_reach {n d : Nat} (hn : 0 < n) (hd : 0 < d) (os : List (Op α)) :
    ∃ p, run n d (init n d) os = .ok p ∧ Safe n d p ∧ Filled d p := by
  suffices ∀ (os : List (Op α)) (p : Pid α), Safe n d p → Filled d p → ∃ p', run n d p os = .ok p' ∧ Safe n d p' ∧ Filled d p' from
    this os _ ⟨by simp [init], by simp [init], by simpa [init] using hn, by simpa [init] using hd⟩ ⟨by simp [init], by simp [init]⟩
  intro os
  induction os with
  | nil => exact fun p h f => ⟨p, rfl, h, f⟩
  | cons o os ih =>
    intro p h f
    obtain ⟨q, e, hq⟩ := C206_calls h o
    rw [run, e]
    exact ih q hq (filled_step h f o e)

/-- The state after point `u` if the only handler, at point `t`, makes `p'` of `p`. -/
theorem onceAt_eq {t : Nat} {f : Pid α → Pid α} {p p' : Pid α} (hf : f p = p') (u : Nat) :
    onceAt t f u (if t < u then p' else p) = if t ≤ u then p' else p := by
  rw [onceAt]
  by_cases h : u = t
  · subst h; simp [hf]
  · rw [if_neg h]
    by_cases h' : t < u
    · rw [if_pos h', if_pos (by omega)]
    · rw [if_neg h', if_neg (by omega)]

theorem onceAt_succ {t : Nat} {f : Pid α → Pid α} {p p' : Pid α} (hf : f p = p') (u : Nat) :
    onceAt t f (u + 1) (if t ≤ u then p' else p) = if t ≤ u + 1 then p' else p := by
  rw [← onceAt_eq hf (u + 1)]
  simp only [Nat.lt_succ_iff]

theorem sumI_once {n d : Nat} {t : Nat} {f : Pid α → Pid α} {p p' : Pid α} (hf : f p = p') (h : Safe n d p) (h' : Safe n d p') {z : α}
    (hz : p'.hist = p.hist.set p.index z) (b : Nat) : ∀ (k i : Nat) (acc : α), i + k = n →
    sumI (onceAt t f) (b + 1) k i (if t ≤ b + i then p' else p) acc =
      .ok (if t ≤ b + n then p' else p, acc + ((if t ≤ b + 1 + p.index then p'.hist else p.hist).drop i).sum)
  | 0, i, acc, hk => by
    have : ((if t ≤ b + 1 + p.index then p'.hist else p.hist).drop i) = [] := by
      apply List.drop_eq_nil_of_le
      split_ifs <;> simp [h.hist, h'.hist] <;> omega
    rw [sumI, this, show i = n by omega]
    simp
  | k + 1, i, acc, hk => by
    rw [sumI, show b + 1 + i = b + i + 1 by omega, onceAt_succ hf]
    have e : rd (if t ≤ b + i + 1 then p' else p).hist i = .ok ((if t ≤ b + 1 + p.index then p'.hist else p.hist).getD i 0) := by
      rw [rd_getD (by split_ifs <;> simp [h.hist, h'.hist] <;> omega)]
      congr 1
      by_cases hi : i = p.index
      · rw [show b + i + 1 = b + 1 + p.index by omega]
        split_ifs <;> rfl
      · have : p'.hist.getD i 0 = p.hist.getD i 0 := by
          rw [hz, List.getD_eq_getElem?_getD, List.getD_eq_getElem?_getD, List.getElem?_set_ne (by omega)]
        split_ifs <;> simp only [this]
    rw [e]
    simp only [Res.ok_bind]
    have := sumI_once (t := t) hf h h' hz b k (i + 1) (acc + (if t ≤ b + 1 + p.index then p'.hist else p.hist).getD i 0) (by omega)
    rw [show b + (i + 1) = b + i + 1 by omega] at this
    rw [this]
    have hl : i < (if t ≤ b + 1 + p.index then p'.hist else p.hist).length := by split_ifs <;> simp [h.hist, h'.hist] <;> omega
    generalize (if t ≤ b + 1 + p.index then p'.hist else p.hist) = l at *
    rw [List.drop_eq_getElem_cons hl, List.sum_cons, List.getD_eq_getElem?_getD, List.getElem?_eq_getElem hl, Option.getD_some, add_assoc]

/-- The derivative term that `pid_compute` finds with an input that makes `p'` of `p` at point `t` of `pid_compute_d`: the error is that
before or after it, and so is the value from which it is taken, except just before this value is read. -/
def Spec.mixedD (d t : Nat) (p p' : Pid α) : α :=
  let e := if t ≤ 1 then error p' else error p
  if t ≤ 2 then if p'.dsize = 0 then 0 else dterm p e (oldest d p')
  else if p.dsize = 0 then 0
  else dterm p e (if t ≤ 4 then oldest d p' else if t = 5 then p'.dhist.getD (if p.dsize = d then p.dindex else 0) 0 else oldest d p)

theorem computeDI_once {n d : Nat} {t : Nat} {f : Pid α → Pid α} {p p' : Pid α} (hf : f p = p') (h : Safe n d p) (hfl : Filled d p) {v : α}
    (e : addInput n d p v = .ok p') (c : Nat) :
    ∃ q, computeDI (onceAt t f) d (c + 1) (if t ≤ c then p' else p) = .ok (q, Spec.mixedD d (t - (c + 1)) p p') := by
  obtain ⟨-, -, a3, a4, a5, a6, -, b1, b2, h', hv⟩ := addInput_reads h e
  have hd : 0 < d := Nat.lt_of_le_of_lt (Nat.zero_le _) h.dindex
  rw [computeDI]
  simp only [Nat.add_assoc c 1, Nat.reduceAdd]
  rw [onceAt_succ hf c, show c + 2 = c + 1 + 1 from rfl, onceAt_succ hf (c + 1), show c + 3 = c + 1 + 1 + 1 from rfl, onceAt_succ hf (c + 1 + 1),
    show c + 4 = c + 1 + 1 + 1 + 1 from rfl, onceAt_succ hf, show c + 5 = c + 1 + 1 + 1 + 1 + 1 from rfl, onceAt_succ hf,
    show c + 6 = c + 1 + 1 + 1 + 1 + 1 + 1 from rfl, onceAt_succ hf, show c + 7 = c + 1 + 1 + 1 + 1 + 1 + 1 + 1 from rfl, onceAt_succ hf,
    show c + 8 = c + 1 + 1 + 1 + 1 + 1 + 1 + 1 + 1 from rfl, onceAt_succ hf, show c + 9 = c + 1 + 1 + 1 + 1 + 1 + 1 + 1 + 1 + 1 from rfl, onceAt_succ hf]
  simp only [Nat.add_assoc c, Nat.reduceAdd]
  have esp : (if t ≤ c + 1 then p' else p).sp = p.sp := by split_ifs <;> simp [a4]
  have ethr : (if t ≤ c + 7 then p' else p).dthr = p.dthr := by split_ifs <;> simp [a5]
  have elow : (if t ≤ c + 8 then p' else p).dlow = p.dlow := by split_ifs <;> simp [a6]
  have ekd : (if t ≤ c + 9 then p' else p).kd = p.kd := by split_ifs <;> simp [a3]
  have eerr : p.sp - (if t ≤ c + 2 then p' else p).input = if t - (c + 1) ≤ 1 then error p' else error p := by
    by_cases ht : t ≤ c + 2
    · rw [if_pos ht, if_pos (by omega), error, a4]
    · rw [if_neg ht, if_neg (by omega), error]
  rw [esp, ethr, elow, ekd, eerr, Spec.mixedD]
  generalize (if t - (c + 1) ≤ 1 then error p' else error p) = er
  -- the value read, if it is reached
  have key : (if t ≤ c + 3 then p' else p).dsize ≠ 0 →
      rd (if t ≤ c + 6 then p' else p).dhist (if decide ((if t ≤ c + 4 then p' else p).dsize = d) = true then (if t ≤ c + 5 then p' else p).dindex else 0) =
      .ok (if t - (c + 1) ≤ 4 then oldest d p' else if t - (c + 1) = 5 then p'.dhist.getD (if p.dsize = d then p.dindex else 0) 0 else oldest d p) := by
    intro hz
    simp only [decide_eq_true_eq]
    have i1 := h.dindex
    have i2 := h'.dindex
    by_cases t4 : t ≤ c + 4
    · simp only [if_pos t4, if_pos (show t ≤ c + 5 by omega), if_pos (show t ≤ c + 6 by omega), if_pos (show t - (c + 1) ≤ 4 by omega)]
      rw [oldest, rd_getD (by rw [h'.dhist]; split_ifs <;> omega)]
    · simp only [if_neg t4]
      rw [if_neg (by omega)] at hz
      by_cases t5 : t ≤ c + 5
      · simp only [if_pos t5, if_pos (show t ≤ c + 6 by omega), if_pos (show t - (c + 1) ≤ 4 by omega)]
        rw [oldest, rd_getD (by rw [h'.dhist]; split_ifs <;> omega)]
        -- full before or after
        congr 2
        cases hb : p.first with
        | false =>
          obtain ⟨-, e1, e2⟩ := b2 hb
          rw [e2]
        | true =>
          obtain ⟨-, e1, e2⟩ := b1 hb
          rw [e1, e2]
          obtain ⟨f1, f2⟩ := hfl
          by_cases c1 : p.dsize = d
          · rw [if_pos c1, if_pos (by rw [if_neg (by omega)]; exact c1)]
          · rw [if_neg c1, if_pos (show p.dsize < d by omega), f2 (by omega)]
            split_ifs with c2
            · rw [c2, Nat.mod_self]
            · rfl
      · simp only [if_neg t5, if_neg (show ¬ t - (c + 1) ≤ 4 by omega)]
        by_cases t6 : t ≤ c + 6
        · simp only [if_pos t6, if_pos (show t - (c + 1) = 5 by omega)]
          rw [rd_getD (by rw [h'.dhist]; split_ifs <;> omega)]
        · simp only [if_neg t6, if_neg (show ¬ t - (c + 1) = 5 by omega)]
          rw [oldest, rd_getD (by rw [h.dhist]; split_ifs <;> omega)]
  by_cases hz : (if t ≤ c + 3 then p' else p).dsize = 0
  · rw [if_pos hz]
    refine ⟨if t ≤ c + 3 then p' else p, ?_⟩
    congr 2
    by_cases ht : t ≤ c + 3
    · rw [if_pos (by omega)]
      rw [if_pos ht] at hz
      rw [if_pos hz]
    · rw [if_neg (by omega)]
      rw [if_neg ht] at hz
      rw [if_pos hz]
  · rw [if_neg hz, key hz]
    simp only [Res.ok_bind, Res.pure_eq]
    have fin : ∀ x : α, (if t - (c + 1) ≤ 2 then if p'.dsize = 0 then 0 else dterm p er x else if p.dsize = 0 then 0 else dterm p er x) = dterm p er x := by
      intro x
      by_cases ht : t ≤ c + 3
      · rw [if_pos (by omega)]
        rw [if_pos ht] at hz
        rw [if_neg hz]
      · rw [if_neg (by omega)]
        rw [if_neg ht] at hz
        rw [if_neg hz]
    have fin2 : (if t - (c + 1) ≤ 2 then if p'.dsize = 0 then 0 else dterm p er (oldest d p')
        else if p.dsize = 0 then 0 else dterm p er
          (if t - (c + 1) ≤ 4 then oldest d p' else if t - (c + 1) = 5 then p'.dhist.getD (if p.dsize = d then p.dindex else 0) 0 else oldest d p)) =
        dterm p er (if t - (c + 1) ≤ 4 then oldest d p' else if t - (c + 1) = 5 then p'.dhist.getD (if p.dsize = d then p.dindex else 0) 0 else oldest d p) := by
      refine Eq.trans ?_ (fin _)
      by_cases ht : t - (c + 1) ≤ 2
      · simp only [if_pos ht, if_pos (show t - (c + 1) ≤ 4 by omega)]
      · simp only [if_neg ht]
    rw [fin2]
    generalize (if t - (c + 1) ≤ 4 then oldest d p' else if t - (c + 1) = 5 then p'.dhist.getD (if p.dsize = d then p.dindex else 0) 0 else oldest d p) = x
    rw [dterm]
    by_cases hc : p.dthr = true ∧ p.dlow < abs er
    · rw [if_pos hc, if_pos hc]; exact ⟨_, rfl⟩
    · rw [if_neg hc, if_neg hc]; exact ⟨_, rfl⟩

/-- **C206.** The output of a `pid_compute` with one input added at point `t`, without automatic clearing: each of the first two terms is
that before or after the input. -/
theorem C206_exact {n d : Nat} {p p' : Pid α} (h : Safe n d p) (hfl : Filled d p) (ha : p.auto = false) {v : α} (e : addInput n d p v = .ok p')
    (t : Nat) : ∃ q, computeI' (onceAt t (inputH n d v)) n d p =
      .ok (q, p.kp (if t ≤ 1 then error p' else error p) + p.ki (if t ≤ 3 + p.index then p'.hist else p.hist).sum + Spec.mixedD d (t - (n + 4)) p p') := by
  have hf : inputH n d v p = p' := by rw [inputH, e]
  obtain ⟨a1, a2, a3, a4, -, -, hh, -, -, h', -⟩ := addInput_reads h e
  obtain ⟨z, hz⟩ := hh ha
  have s0 := onceAt_eq (t := t) hf 0
  rw [if_neg (by omega)] at s0
  rw [computeI']
  simp only
  rw [s0, onceAt_succ hf 0, onceAt_succ hf (0 + 1)]
  have := sumI_once (t := t) hf h h' hz 2 n 0 0 (by omega)
  simp only [Nat.add_zero, Nat.zero_add, Nat.reduceAdd] at this ⊢
  rw [this]
  simp only [Res.ok_bind, List.drop_zero, zero_add]
  rw [show n + 3 = 2 + n + 1 by omega, onceAt_succ hf, show n + 4 = 2 + n + 1 + 1 by omega]
  obtain ⟨q, eq⟩ := computeDI_once (t := t) hf h hfl e (2 + n + 1)
  rw [eq]
  refine ⟨q, ?_⟩
  simp only [Res.ok_bind, Res.pure_eq]
  have e1 : (if t ≤ 0 then p' else p).sp - (if t ≤ 1 then p' else p).input = if t ≤ 1 then error p' else error p := by
    have : (if t ≤ 0 then p' else p).sp = p.sp := by split_ifs <;> simp [a4]
    rw [this]
    split_ifs
    · rw [error, a4]
    · rfl
  have e2 : (if t ≤ 2 then p' else p).kp = p.kp := by split_ifs <;> simp [a1]
  have e3 : (if t ≤ 2 + n + 1 then p' else p).ki = p.ki := by split_ifs <;> simp [a2]
  rw [e1, e2, e3]

/-- **C206**, where it fails: the derivative history is full, and the input comes between loading its index and loading its element. The
derivative is then taken from the present error itself: it is zero, whatever it is before and after. -/
theorem C206_derivative_wrong {n d : Nat} {p p' : Pid α} (h : Safe n d p) (ha : p.auto = false) (h1 : p.first = true) (hs : p.dsize = d)
    {v : α} (e : addInput n d p v = .ok p') : ∃ q, computeI' (onceAt (n + 9) (inputH n d v)) n d p =
      .ok (q, p.kp (error p) + p.ki p.hist.sum + if p.dthr = true ∧ p.dlow < abs (error p) then 0 else p.kd 0) := by
  obtain ⟨-, -, -, -, -, -, -, b1, -, -, -⟩ := addInput_reads h e
  obtain ⟨b1, -, -⟩ := b1 h1
  have hd := h.dindex
  have hi := h.index
  obtain ⟨q, eq⟩ := C206_exact h ⟨by omega, by omega⟩ ha e (n + 9)
  refine ⟨q, ?_⟩
  rw [eq, if_neg (by omega), if_neg (by omega), Spec.mixedD]
  simp only [show n + 9 - (n + 4) = 5 by omega]
  have : p'.dhist.getD p.dindex 0 = error p := by
    rw [b1, List.getD_eq_getElem?_getD, List.getElem?_set_self (by rw [h.dhist]; exact hd)]; rfl
  rw [List.getD_eq_getElem?_getD] at this
  simp [hs, this, dterm, show ¬ d = 0 by omega]

theorem sumI_split {n d : Nat} {f : Pid α → Pid α} {p p' : Pid α} (hf : f p = p') (h : Safe n d p) (h' : Safe n d p') (b m : Nat) (hm : m ≤ n) :
    ∀ (k i : Nat) (acc : α), i + k = n →
    sumI (onceAt (b + 1 + m) f) (b + 1) k i (if b + 1 + m ≤ b + i then p' else p) acc =
      .ok (if b + 1 + m ≤ b + n then p' else p, acc + ((p.hist.take m ++ p'.hist.drop m).drop i).sum)
  | 0, i, acc, hk => by
    have : (p.hist.take m ++ p'.hist.drop m).drop i = [] := by
      apply List.drop_eq_nil_of_le
      simp [h.hist, h'.hist]; omega
    rw [sumI, this, show i = n by omega]
    simp
  | k + 1, i, acc, hk => by
    rw [sumI, show b + 1 + i = b + i + 1 by omega, onceAt_succ hf]
    have hl : i < (p.hist.take m ++ p'.hist.drop m).length := by simp [h.hist, h'.hist]; omega
    have e : rd (if b + 1 + m ≤ b + i + 1 then p' else p).hist i = .ok ((p.hist.take m ++ p'.hist.drop m).getD i 0) := by
      rw [rd_getD (by split_ifs <;> simp [h.hist, h'.hist] <;> omega)]
      congr 1
      rw [List.getD_eq_getElem?_getD, List.getD_eq_getElem?_getD]
      by_cases hi : m ≤ i
      · rw [if_pos (by omega), List.getElem?_append_right (by simp [h.hist]; omega), List.getElem?_drop]
        congr 2
        simp [h.hist]; omega
      · rw [if_neg (by omega), List.getElem?_append_left (by simp [h.hist]; omega), List.getElem?_take_of_lt (by omega)]
    rw [e]
    simp only [Res.ok_bind]
    have := sumI_split hf h h' b m hm k (i + 1) (acc + (p.hist.take m ++ p'.hist.drop m).getD i 0) (by omega)
    rw [show b + (i + 1) = b + i + 1 by omega] at this
    rw [this]
    generalize p.hist.take m ++ p'.hist.drop m = l at *
    rw [List.drop_eq_getElem_cons hl, List.sum_cons, List.getD_eq_getElem?_getD, List.getElem?_eq_getElem hl, Option.getD_some, add_assoc acc]

/-- **C206**, where it fails: an input clears the history, as its error has another sign than those before, while it is summed up, with `m`
of the elements added. The integral is then that of these `m` only, instead of all or of the new error. -/
theorem C206_clear_wrong {n d : Nat} {p p' : Pid α} (h : Safe n d p) (hfl : Filled d p) (ha : p.auto = true) (hs : p.sign = 1) {v : α}
    (hv : p.sp - v < 0) (e : addInput n d p v = .ok p') {m : Nat} (h0 : 0 < m) (hm : m < n) :
    ∃ q, computeI' (onceAt (3 + m) (inputH n d v)) n d p =
      .ok (q, p.kp (error p) + p.ki (p.hist.take m).sum + Spec.mixedD d 0 p p') := by
  have hf : inputH n d v p = p' := by rw [inputH, e]
  obtain ⟨a1, a2, a3, a4, -, -, -, -, -, h', -⟩ := addInput_reads h e
  obtain ⟨z, hz⟩ : ∃ z, p'.hist = (List.replicate n 0).set 0 z := by
    rw [addInput] at e
    have hu : updateSign n { p with input := v } (error { p with input := v }) = clear n { p with input := v, sign := -1 } := by
      simp [updateSign, error, hv, not_lt.2 (le_of_lt hv), hs, ha]
    rw [hu] at e
    have he : ∃ z, entry (clear n { p with input := v, sign := -1 }) (error (clear n { p with input := v, sign := -1 })) = some z := by
      rw [entry_eq, if_neg (by simp only [clear, error]; exact ne_of_lt hv)]
      exact ⟨_, rfl⟩
    obtain ⟨z, he⟩ := he
    rw [he, store, wr, if_pos (by simp [clear]; omega)] at e
    simp only [Res.ok_bind] at e
    refine ⟨z, ?_⟩
    rw [addOld] at e
    simp only [clear] at e
    by_cases hb : p.first = true
    · simp only [hb, if_true] at e
      rw [wr, if_pos (by rw [h.dhist]; exact h.dindex)] at e
      simp only [Res.ok_bind, Res.pure_eq, Res.ok.injEq] at e
      rw [← e]
    · simp only [hb] at e
      simp only [Res.pure_eq, Bool.false_eq_true, if_false, Res.ok.injEq] at e
      rw [← e]
  have hdrop : (p'.hist.drop m).sum = 0 := by
    rw [hz, List.drop_set_of_lt h0]
    simp
  have s0 := onceAt_eq (t := 3 + m) hf 0
  rw [if_neg (by omega)] at s0
  rw [computeI']
  simp only
  rw [s0, onceAt_succ hf 0, onceAt_succ hf (0 + 1)]
  have := sumI_split hf h h' 2 m (by omega) n 0 0 (by omega)
  simp only [Nat.add_zero, Nat.zero_add, Nat.reduceAdd] at this ⊢
  rw [this]
  simp only [Res.ok_bind, List.drop_zero, zero_add]
  rw [show n + 3 = 2 + n + 1 by omega, onceAt_succ hf, show n + 4 = 2 + n + 1 + 1 by omega]
  obtain ⟨q, eq⟩ := computeDI_once (t := 3 + m) hf h hfl e (2 + n + 1)
  rw [eq]
  refine ⟨q, ?_⟩
  simp only [Res.ok_bind, Res.pure_eq]
  rw [show 3 + m - (2 + n + 1 + 1) = 0 by omega, if_neg (by omega), if_neg (by omega), if_neg (by omega), if_pos (by omega), a2, List.sum_append, hdrop,
    add_zero, error]

/-! ## Examples: three errors for the integral, two for the derivative, all gains 1 -/

def exH : Pid Int := ⟨id, id, id, 1, 1, 2, [10, 20, 30], [40, 20], 90, 100, 0, 0, 0, true, false, false, false, false, 1⟩

example : Safe 3 2 exH := ⟨rfl, rfl, by decide, by decide⟩
example : (compute 3 2 exH, (addInput 3 2 exH 95).bind fun p => compute 3 2 p) = (.ok (10 + 60 - 10), .ok (5 + 45 - 35)) := by decide
example : (computeI' (onceAt 12 (inputH 3 2 95)) 3 2 exH).bind (fun r => .ok r.2) = .ok (10 + 60 + 0) := by decide
example : (computeI' (onceAt 4 (inputH 3 2 95)) 3 2 exH).bind (fun r => .ok r.2) = .ok (10 + 45 - 35) := by decide
example : (computeI' (onceAt 5 (inputH 3 2 105)) 3 2 { exH with auto := true }).bind (fun r => .ok r.2) = .ok (10 + 30 - 45) := by decide

/-! ## `pid_add_input` -/

/-- The points of `pid_add_input`: before the access of that name. -/
inductive Pt where
  | oldSp | oldInput | setInput | sp | input | sign | compare | setSign | auto | clearIndex | clearAt (i : Nat) | enabled | threshold
  | slotIndex | slot | index | setIndex | first | dslotIndex | dslot | dindex | setDindex | dsize | dsizeAgain | setDsize | setFirst
  deriving DecidableEq

/-- The `memset` of pid.c:137, `k` elements from `i` on. -/
def clearI (H : Pt → Pid α → Pid α) : Nat → Nat → Pid α → Pid α
  | 0, _, p => p
  | k + 1, i, p =>
    let p := H (.clearAt i) p
    clearI H k (i + 1) { p with hist := p.hist.set i 0 }

/-- pid.c:30-40. -/
def signI (H : Pt → Pid α → Pid α) (n : Nat) (p : Pid α) (err : α) : Pid α :=
  let p := H .sign p
  let s := if 0 < err then 1 else if err < 0 then -1 else p.sign
  let p := H .compare p
  if p.sign ≠ s then
    let p := { H .setSign p with sign := s }
    let p := H .auto p
    if p.auto then
      let p := { H .clearIndex p with index := 0 }
      clearI H n 0 p
    else p
  else p

/-- pid.c:43-53, the element to be stored. -/
def entryI (H : Pt → Pid α → Pid α) (p : Pid α) (err : α) : Pid α × Option α :=
  if 0 < err then
    let p := H .enabled p
    if p.lowEn = false then (p, some err)
    else
      let p := H .threshold p
      if abs err < p.low then (p, some err) else (p, some 0)
  else if err < 0 then
    let p := H .enabled p
    if p.highEn = false then (p, some err)
    else
      let p := H .threshold p
      if abs err < p.high then (p, some err) else (p, some 0)
  else (p, none)

/-- pid.c:43-55, storing it and the next index. -/
def storeI (H : Pt → Pid α → Pid α) (n : Nat) (p : Pid α) (o : Option α) : Res (Pid α) := do
  let p ← match o with
    | none => .ok p
    | some x => do
      let p := H .slotIndex p
      let i := p.index
      let p := H .slot p
      let h ← wr p.hist i x
      pure { p with hist := h }
  let p := H .index p
  let i := p.index
  let p := H .setIndex p
  pure { p with index := (i + 1) % n }

/-- pid.c:57-64. -/
def addOldI (H : Pt → Pid α → Pid α) (d : Nat) (p : Pid α) (old : α) : Res (Pid α) := do
  let p := H .first p
  let p ← if p.first then do
      let p := H .dslotIndex p
      let i := p.dindex
      let p := H .dslot p
      let h ← wr p.dhist i old
      let p := H .dindex { p with dhist := h }
      let i := p.dindex
      let p := H .setDindex p
      let p := H .dsize { p with dindex := (i + 1) % d }
      if p.dsize < d then do
        let p := H .dsizeAgain p
        let k := p.dsize
        let p := H .setDsize p
        pure { p with dsize := k + 1 }
      else pure p
    else pure p
  let p := H .setFirst p
  pure { p with first := true }

/-- `pid_add_input`, pid.c:25-65. -/
def addInputI (H : Pt → Pid α → Pid α) (n d : Nat) (p : Pid α) (v : α) : Res (Pid α) := do
  let p := H .oldSp p
  let sp := p.sp
  let p := H .oldInput p
  let old := sp - p.input
  let p := { H .setInput p with input := v }
  let p := H .sp p
  let sp := p.sp
  let p := H .input p
  let err := sp - p.input
  let p := signI H n p err
  let r := entryI H p err
  let p ← storeI H n r.1 r.2
  addOldI H d p old

theorem clearI_quiet (n : Nat) : ∀ (k i : Nat) (p : Pid α), p.hist.length = n → i + k = n → (∀ j < i, p.hist[j]? = some 0) →
    clearI (fun _ p => p) k i p = { p with hist := List.replicate n 0 }
  | 0, i, p, hl, hk, hz => by
    rw [clearI]
    have : p.hist = List.replicate n 0 := by
      apply List.ext_getElem?
      intro j
      by_cases hj : j < n
      · rw [hz j (by omega), List.getElem?_replicate, if_pos hj]
      · rw [List.getElem?_eq_none (by omega), List.getElem?_eq_none (by simp; omega)]
    rw [← this]
  | k + 1, i, p, hl, hk, hz => by
    rw [clearI]
    rw [clearI_quiet n k (i + 1) _ (by simpa using hl) (by omega)]
    intro j hj
    simp only
    by_cases hji : j = i
    · subst hji; rw [List.getElem?_set_self (by omega)]
    · rw [List.getElem?_set_ne (by omega)]; exact hz j (by omega)

theorem signI_quiet {n d : Nat} {p : Pid α} (h : Safe n d p) (e : α) : signI (fun _ p => p) n p e = updateSign n p e := by
  rw [signI, updateSign]
  simp only
  generalize (if 0 < e then (1 : Int) else _) = s'
  split_ifs
  · rw [clearI_quiet n n 0 _ (by exact h.hist) (by omega) (by omega)]; rfl
  · rfl
  · rfl

theorem entryI_quiet (q : Pid α) (e : α) : entryI (fun _ p => p) q e = (q, entry q e) := by
  rw [entryI, entry]
  simp only
  by_cases c1 : 0 < e
  · simp only [if_pos c1]
    cases hl : q.lowEn <;> by_cases c2 : abs e < q.low <;> simp [c2]
  · simp only [if_neg c1]
    by_cases c3 : e < 0
    · simp only [if_pos c3]
      cases hl : q.highEn <;> by_cases c2 : abs e < q.high <;> simp [c2]
    · simp only [if_neg c3]

theorem storeI_quiet (n : Nat) (q : Pid α) (o : Option α) : storeI (fun _ p => p) n q o =
    store q.hist q.index o >>= fun h => .ok { q with hist := h, index := (q.index + 1) % n } := by
  unfold storeI
  cases o with
  | none => rfl
  | some x =>
    simp only [store]
    cases wr q.hist q.index x <;> rfl

theorem error_sign (n : Nat) (p : Pid α) (e : α) : error (updateSign n p e) = error p := by
  rw [updateSign]
  generalize (if 0 < e then (1 : Int) else _) = s'
  split_ifs <;> rfl

/-- **C207.** Without handlers this is the function of the first model. -/
theorem C207_quiet {n d : Nat} {p : Pid α} (h : Safe n d p) (v : α) : addInputI (fun _ p => p) n d p v = addInput n d p v := by
  rw [addInputI, addInput]
  have h1 : Safe n d { p with input := v } := ⟨h.hist, h.dhist, h.index, h.dindex⟩
  have e0 : p.sp - v = error { p with input := v } := rfl
  simp only [e0]
  rw [signI_quiet h1, error_sign]
  generalize updateSign n { p with input := v } (error { p with input := v }) = q
  rw [entryI_quiet]
  simp only
  rw [storeI_quiet]
  cases store q.hist q.index (entry q _) with
  | ok a =>
    simp only [Res.ok_bind]
    rw [addOldI, addOld]
    simp only [error]
    by_cases hf : q.first = true
    · simp only [hf, if_true]
      cases wr q.dhist q.dindex (p.sp - p.input) with
      | ok b =>
        simp only [Res.ok_bind, Res.pure_eq]
        split_ifs <;> rfl
      | ub => rfl
      | abort => rfl
      | diverge => rfl
    · simp only [hf]
      rfl
  | ub => rfl
  | abort => rfl
  | diverge => rfl

theorem clearI_safe {n d : Nat} {H : Pt → Pid α → Pid α} (hH : ∀ t p, Safe n d p → Safe n d (H t p)) : ∀ (k i : Nat) (p : Pid α), Safe n d p → Safe n d (clearI H k i p)
  | 0, _, _, h => h
  | k + 1, i, p, h => by
    have h1 := hH (.clearAt i) _ h
    exact clearI_safe hH k (i + 1) _ ⟨by simpa using h1.hist, h1.dhist, h1.index, h1.dindex⟩

/-- **C207.** Whatever handlers run that leave the controller in order, `pid_add_input` accesses nothing outside of the arrays and leaves the
controller in order. -/
theorem C207_safe {n d : Nat} {H : Pt → Pid α → Pid α} (hH : ∀ t p, Safe n d p → Safe n d (H t p)) {p : Pid α} (h : Safe n d p) (v : α) :
    ∃ p', addInputI H n d p v = .ok p' ∧ Safe n d p' := by
  have hn : 0 < n := Nat.lt_of_le_of_lt (Nat.zero_le _) h.index
  have hd : 0 < d := Nat.lt_of_le_of_lt (Nat.zero_le _) h.dindex
  have inp : ∀ {p : Pid α} {x : α}, Safe n d p → Safe n d { p with input := x } := fun h => ⟨h.hist, h.dhist, h.index, h.dindex⟩
  have sgn : ∀ {p : Pid α} {x : Int}, Safe n d p → Safe n d { p with sign := x } := fun h => ⟨h.hist, h.dhist, h.index, h.dindex⟩
  have ind : ∀ {p : Pid α} {x : Nat}, x < n → Safe n d p → Safe n d { p with index := x } := fun hx h => ⟨h.hist, h.dhist, hx, h.dindex⟩
  have hsign : ∀ {p : Pid α} (e : α), Safe n d p → Safe n d (signI H n p e) := by
    intro p e h
    rw [signI]
    simp only
    have h2 := hH .compare _ (hH .sign _ h)
    split_ifs
    all_goals first
      | exact h2
      | exact hH .auto _ (sgn (hH .setSign _ h2))
      | exact clearI_safe hH _ _ _ (ind hn (hH .clearIndex _ (hH .auto _ (sgn (hH .setSign _ h2)))))
  have hentry : ∀ {p : Pid α} (e : α), Safe n d p → Safe n d (entryI H p e).1 := by
    intro p e h
    rw [entryI]
    simp only
    have h2 := hH .enabled _ h
    split_ifs
    all_goals first
      | exact h
      | exact h2
      | exact hH .threshold _ h2
  have hstore : ∀ {p : Pid α} (o : Option α), Safe n d p → ∃ p', storeI H n p o = .ok p' ∧ Safe n d p' := by
    intro p o h
    unfold storeI
    cases o with
    | none => exact ⟨_, rfl, ind (Nat.mod_lt _ hn) (hH .setIndex _ (hH .index _ h))⟩
    | some x =>
      have h1 := hH .slotIndex _ h
      have h2 := hH .slot _ h1
      simp only
      rw [wr, if_pos (by rw [h2.hist]; exact h1.index)]
      have h3 : Safe n d { H .slot (H .slotIndex p) with hist := (H .slot (H .slotIndex p)).hist.set (H .slotIndex p).index x } :=
        ⟨by simpa using h2.hist, h2.dhist, h2.index, h2.dindex⟩
      exact ⟨_, rfl, ind (Nat.mod_lt _ hn) (hH .setIndex _ (hH .index _ h3))⟩
  have hold : ∀ {p : Pid α} (old : α), Safe n d p → ∃ p', addOldI H d p old = .ok p' ∧ Safe n d p' := by
    intro p old h
    have h0 := hH .first _ h
    have fst : ∀ {p : Pid α}, Safe n d p → Safe n d { H .setFirst p with first := true } := fun h =>
      have h := hH .setFirst _ h
      ⟨h.hist, h.dhist, h.index, h.dindex⟩
    rw [addOldI]
    simp only
    by_cases hf : (H .first p).first = true
    · rw [if_pos hf]
      have h1 := hH .dslotIndex _ h0
      have h2 := hH .dslot _ h1
      rw [wr, if_pos (by rw [h2.dhist]; exact h1.dindex)]
      simp only [Res.ok_bind]
      generalize hq : H .dslot (H .dslotIndex (H .first p)) = q at *
      have h3 : Safe n d { q with dhist := q.dhist.set (H .dslotIndex (H .first p)).dindex old } :=
        ⟨h2.hist, by simpa using h2.dhist, h2.index, h2.dindex⟩
      have h4 := hH .dindex _ h3
      have h5 := hH .setDindex _ h4
      have h6 : Safe n d { H .setDindex (H .dindex { q with dhist := q.dhist.set (H .dslotIndex (H .first p)).dindex old }) with
          dindex := ((H .dindex { q with dhist := q.dhist.set (H .dslotIndex (H .first p)).dindex old }).dindex + 1) % d } :=
        ⟨h5.hist, h5.dhist, h5.index, Nat.mod_lt _ hd⟩
      have h7 := hH .dsize _ h6
      generalize H .dsize _ = r at *
      by_cases hs : r.dsize < d
      · rw [if_pos hs]
        have h8 := hH .setDsize _ (hH .dsizeAgain _ h7)
        exact ⟨_, rfl, fst ⟨h8.hist, h8.dhist, h8.index, h8.dindex⟩⟩
      · rw [if_neg hs]
        exact ⟨_, rfl, fst h7⟩
    · rw [if_neg hf]
      exact ⟨_, rfl, fst h0⟩
  rw [addInputI]
  simp only
  obtain ⟨q, eq, hq⟩ := hstore _ (hentry _ (hsign _ (hH .input _ (hH .sp _ (inp (hH .setInput _ (hH .oldInput _ (hH .oldSp _ h))))))))
  rw [eq]
  exact hold _ hq

/-- A handler at point `t` only. -/
def onceAt' (t : Pt) (f : Pid α → Pid α) : Pt → Pid α → Pid α := fun u p => if u = t then f p else p

theorem clearI_late (f : Pid α → Pid α) : ∀ (k i : Nat) (p : Pid α), clearI (onceAt' .dsizeAgain f) k i p = clearI (fun _ p => p) k i p
  | 0, _, _ => rfl
  | k + 1, i, p => by
    rw [clearI, clearI, clearI_late f k]
    simp [onceAt']

/-- **C207**, where it fails: the derivative history lacks one element, and a handler adds an input between the check and the increment
of its size: the size is then one more than there are elements. -/
theorem C207_size_wrong {n d : Nat} {p : Pid α} (h : Safe n d p) (h1 : p.first = true) (hs : p.dsize + 1 = d) (v w : α) :
    ∃ p', addInputI (onceAt' .dsizeAgain (inputH n d w)) n d p v = .ok p' ∧ Safe n d p' ∧ p'.dsize = d + 1 := by
  obtain ⟨p', e, hp⟩ := C207_safe (H := onceAt' .dsizeAgain (inputH n d w)) (fun t p h => by
    rw [onceAt']
    split_ifs
    · obtain ⟨q, eq, hq⟩ := C206_calls h (.input w)
      rw [step] at eq
      rw [inputH, eq]; exact hq
    · exact h) h v
  refine ⟨p', e, hp, ?_⟩
  have hn : 0 < n := Nat.lt_of_le_of_lt (Nat.zero_le _) h.index
  have hd : 0 < d := by omega
  have e1 : ∀ (p : Pid α) (e : α), signI (onceAt' .dsizeAgain (inputH n d w)) n p e = signI (fun _ p => p) n p e := fun p e => by
    simp [signI, onceAt', clearI_late (inputH n d w)]
  have e2 : ∀ (p : Pid α) (e : α), entryI (onceAt' .dsizeAgain (inputH n d w)) p e = entryI (fun _ p => p) p e := fun p e => by
    simp [entryI, onceAt']
  have e3 : ∀ (p : Pid α) (o : Option α), storeI (onceAt' .dsizeAgain (inputH n d w)) n p o = storeI (fun _ p => p) n p o := fun p o => by
    cases o <;> simp [storeI, onceAt']
  have h1' : Safe n d { p with input := v } := ⟨h.hist, h.dhist, h.index, h.dindex⟩
  rw [addInputI] at e
  simp only [e1, e2, e3, onceAt', reduceCtorEq, if_false] at e
  rw [signI_quiet h1'] at e
  have hq := safe_sign h1' (p.sp - v)
  have hq1 : (updateSign n { p with input := v } (p.sp - v)).first = true ∧ (updateSign n { p with input := v } (p.sp - v)).dsize = p.dsize := by
    rw [updateSign]
    simp only
    generalize (if 0 < p.sp - v then (1 : Int) else _) = s'
    split_ifs <;> exact ⟨h1, rfl⟩
  generalize updateSign n { p with input := v } (p.sp - v) = q at *
  rw [entryI_quiet] at e
  simp only at e
  rw [storeI_quiet] at e
  obtain ⟨a, ea, la⟩ : ∃ a, store q.hist q.index (entry q (p.sp - v)) = .ok a ∧ a.length = n := by
    cases entry q (p.sp - v) with
    | none => exact ⟨_, rfl, hq.hist⟩
    | some x => exact ⟨_, by rw [store, wr, if_pos (by rw [hq.hist]; exact hq.index)], by simpa using hq.hist⟩
  rw [ea] at e
  replace e : addOldI (onceAt' .dsizeAgain (inputH n d w)) d { q with hist := a, index := (q.index + 1) % n } (p.sp - p.input) = .ok p' := e
  rw [addOldI] at e
  simp only [onceAt', reduceCtorEq, if_false, if_true, hq1.1] at e
  rw [wr, if_pos (by rw [hq.dhist]; exact hq.dindex)] at e
  simp only [Res.ok_bind, if_pos (show q.dsize < d by omega), Res.pure_eq, Res.ok.injEq] at e
  rw [← e]
  simp only
  have hr : Safe n d { q with hist := a, index := (q.index + 1) % n, dhist := q.dhist.set q.dindex (p.sp - p.input), dindex := (q.dindex + 1) % d } :=
    ⟨la, by simpa using hq.dhist, Nat.mod_lt _ hn, Nat.mod_lt _ hd⟩
  obtain ⟨r, er, hr'⟩ := C206_calls hr (.input w)
  obtain ⟨-, -, -, -, -, -, -, b1, -, -, -⟩ := addInput_reads hr er
  have b3 := (b1 hq1.1).2.2
  simp only [hq1.2, if_pos (show p.dsize < d by omega)] at b3
  rw [step] at er
  simp only [hq1.1, hq1.2] at er b3 ⊢
  rw [inputH, er]
  simp only
  omega

/-- **C207**, what follows: the size stays, and `pid_compute_d` takes the derivative from the first element of the array for ever, which
is the oldest one in one of `d` calls only. -/
theorem C207_stuck_wrong {n d : Nat} {p : Pid α} (h : Safe n d p) (hs : p.dsize = d + 1) (os : List (Op α)) :
    ∃ p', run n d p os = .ok p' ∧ p'.dsize = d + 1 ∧ computeD d p' = .ok (dterm p' (error p') (p'.dhist.getD 0 0)) := by
  induction os generalizing p with
  | nil =>
    refine ⟨p, rfl, hs, ?_⟩
    have hd : 0 < d := Nat.lt_of_le_of_lt (Nat.zero_le _) h.dindex
    rw [computeD, if_neg (by omega), if_neg (by omega), rd_getD (by rw [h.dhist]; exact hd)]
    simp only [Res.ok_bind, Res.pure_eq, dterm]
    split_ifs <;> rfl
  | cons o os ih =>
    obtain ⟨q, e, hq⟩ := C206_calls h o
    rw [run, e]
    refine ih hq ?_
    cases o with
    | set s =>
      rw [step] at e
      cases e
      cases s <;> exact hs
    | input v =>
      obtain ⟨-, -, -, -, -, -, -, b1, b2, -, -⟩ := addInput_reads h e
      cases hb : p.first with
      | true => rw [(b1 hb).2.2, if_neg (by omega), hs]
      | false => rw [(b2 hb).2.2, hs]

/-! ## Example: one of two elements in the derivative history -/

def exG : Pid Int := ⟨id, id, id, 1, 1, 1, [10, 20, 30], [40, 0], 90, 100, 0, 0, 0, true, false, false, false, false, 1⟩

example : Safe 3 2 exG ∧ Filled 2 exG := ⟨⟨rfl, rfl, by decide, by decide⟩, by unfold Filled; decide⟩
example : ((addInputI (onceAt' .dsizeAgain (inputH 3 2 95)) 3 2 exG 94).bind fun p => .ok (p.dsize, p.dhist, p.dindex)) = .ok (3, [6, 10], 1) := by decide
example : ((addInputI (onceAt' .slot (fun p => set 3 p .clear)) 3 2 exG 94).bind fun p => .ok (p.hist, p.index)) = .ok ([0, 6, 0], 1) := by decide

end Gel.Pid
