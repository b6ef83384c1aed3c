import Verif.Keypad.IsrSelf

/-!
# Keypad: `keypad_routine` called by an interrupt handler in the loop of `keypad_routine` (C250)
-/
namespace Gel.Keypad

open Time Spec

/-! ## A handler in the loop -/

/-- The log of a handler at point `p` for the points from `n` up to `m`. -/
def logN (r : Int × Event) (p n m : Nat) : List (Int × Event) := if n ≤ p ∧ p < m then [r] else []

theorem logN_append (r : Int × Event) (p : Nat) {n m l : Nat} (h1 : n ≤ m) (h2 : m ≤ l) : logN r p n m ++ logN r p m l = logN r p n l := by
  unfold logN
  split_ifs <;> first | omega | rfl

/-- Tables before and after the handler's call, which does the same to each of the former. -/
structure Fires (T : Bool → List (Key w)) (b : Args w) (r : Int × Event) : Prop where
  call : callN (some b) (T false) = .ok (T true, [r])

theorem fires_point {T : Bool → List (Key w)} {b : Args w} {r : Int × Event} (h : Fires T b r) (p n : Nat) :
    callN (if n = p then some b else none) (T (decide (p < n))) = .ok (T (decide (p < n + 1)), logN r p n (n + 1)) := by
  by_cases hn : n = p
  · subst hn
    simp [h.call, logN]
  · have h1 : decide (p < n + 1) = decide (p < n) := by rw [decide_eq_decide]; omega
    rw [if_neg hn, h1, logN, if_neg (by omega)]
    rfl

theorem fires_ld {T : Bool → List (Key w)} {b : Args w} {r : Int × Event} (h : Fires T b r) (p n i : Nat) (next : Key w → Prog w α)
    (q : Prog w α) (hr : ∀ f, ∃ x, rd (T f) i = .ok x ∧ next x = q) {tbl : List (Key w)} {z : α} {m : Nat} (hm : n + 1 ≤ m)
    (he : execN (fun n => if n = p then some b else none) (n + 1) q (T (decide (p < n + 1))) = .ok (tbl, z, logN r p (n + 1) m)) :
    execN (fun n => if n = p then some b else none) n (.ld i next) (T (decide (p < n))) = .ok (tbl, z, logN r p n m) := by
  obtain ⟨x, hx, hq⟩ := hr (decide (p < n + 1))
  rw [execN, fires_point h]
  simp only [Res.ok_bind, hx, hq, he, Res.pure_eq]
  rw [logN_append r p (by omega) hm]

theorem fires_st {T T' : Bool → List (Key w)} {b : Args w} {r : Int × Event} (h : Fires T b r) (p n i : Nat) (g : Key w → Key w)
    (q : Prog w α) (hr : ∀ f, ∃ x, rd (T f) i = .ok x ∧ wr (T f) i (g x) = .ok (T' f)) {tbl : List (Key w)} {z : α} {m : Nat} (hm : n + 1 ≤ m)
    (he : execN (fun n => if n = p then some b else none) (n + 1) q (T' (decide (p < n + 1))) = .ok (tbl, z, logN r p (n + 1) m)) :
    execN (fun n => if n = p then some b else none) n (.st i g q) (T (decide (p < n))) = .ok (tbl, z, logN r p n m) := by
  obtain ⟨x, hx, hw⟩ := hr (decide (p < n + 1))
  rw [execN, fires_point h]
  simp only [Res.ok_bind, hx, hw, he, Res.pure_eq]
  rw [logN_append r p (by omega) hm]

/-- Keys in rest without the bitmap are passed over, before and after the handler. -/
theorem fires_pass {T : Bool → List (Key w)} {b : Args w} {r : Int × Event} (h : Fires T b r) (p : Nat) (bv : BitVec w) (found : Option Nat)
    (fuel : Nat) (z : Option Nat) (tbl : List (Key w)) : ∀ (xs : List (Key w)) (i : Nat),
    (∀ x ∈ xs, x.bitvalue ≠ 0 ∧ Idle x) → (∀ x ∈ xs, x.bitvalue ≠ bv) → (∀ j (hj : j < xs.length) f, rd (T f) (i + j) = .ok xs[j]) →
    (∀ n, ∃ m, n ≤ m ∧ execN (fun n => if n = p then some b else none) n (loopP bv fuel (i + xs.length) found) (T (decide (p < n))) =
      .ok (if p < m then T true else tbl, z, logN r p n m)) →
    ∀ n, ∃ m, n ≤ m ∧ execN (fun n => if n = p then some b else none) n (loopP bv (xs.length + fuel) i found) (T (decide (p < n))) =
      .ok (if p < m then T true else tbl, z, logN r p n m)
  | [], i, _, _, _, hc, n => by simpa using hc n
  | x :: xs, i, hx, hd, hr, hc, n => by
    have ih := fires_pass h p bv found fuel z tbl xs (i + 1) (fun y hy => hx y (by simp [hy])) (fun y hy => hd y (by simp [hy]))
      (fun j hj f => by have := hr (j + 1) (by simpa using hj) f; rw [show i + 1 + j = i + (j + 1) by omega, this]; rfl)
      (fun n => by have := hc n; rwa [show i + 1 + xs.length = i + (x :: xs).length by simp; omega])
    have hr0 : ∀ f, rd (T f) i = .ok x := fun f => hr 0 (by simp) f
    obtain ⟨h0, ho, hl⟩ := hx x (by simp)
    have hb := hd x (by simp)
    rw [show (x :: xs).length + fuel = (xs.length + fuel) + 1 by simp; omega, loopP]
    rcases hl with hl | hl
    · obtain ⟨m, hm, e⟩ := ih (n + 4)
      refine ⟨m, by omega, ?_⟩
      refine fires_ld h p n i _ _ (fun f => ⟨x, hr0 f, by rw [if_neg h0, if_neg hb]⟩) (by omega) ?_
      refine fires_ld h p (n + 1) i _ _ (fun f => ⟨x, hr0 f, by rw [if_neg (by simp [ho])]⟩) (by omega) ?_
      refine fires_ld h p (n + 2) i _ _ (fun f => ⟨x, hr0 f, by rw [if_pos (by simp [hl])]⟩) (by omega) ?_
      exact fires_ld h p (n + 3) i _ _ (fun f => ⟨x, hr0 f, by rw [if_neg (by simp [hl])]⟩) (by omega) e
    · obtain ⟨m, hm, e⟩ := ih (n + 3)
      refine ⟨m, by omega, ?_⟩
      refine fires_ld h p n i _ _ (fun f => ⟨x, hr0 f, by rw [if_neg h0, if_neg hb]⟩) (by omega) ?_
      refine fires_ld h p (n + 1) i _ _ (fun f => ⟨x, hr0 f, by rw [if_neg (by simp [ho])]⟩) (by omega) ?_
      exact fires_ld h p (n + 2) i _ _ (fun f => ⟨x, hr0 f, by rw [if_neg (by simp [hl])]⟩) (by omega) e

/-- **C250** (partial), a handler in the loop. A key is pressed, the others are in rest, both calls are given its bitmap: the press is reported by the
handler's call, or by the interrupted one if the loop is over before point `p`. Missing: events other than the press. -/
theorem C250_loop_partial (a b : Args w) (p : Nat) (pre post rest : List (Key w)) (k t : Key w) (ht : t.bitvalue = 0)
    (hpre : ∀ x ∈ pre, x.bitvalue ≠ 0 ∧ Idle x) (hpost : ∀ x ∈ post, x.bitvalue ≠ 0 ∧ Idle x) (hk : k.bitvalue ≠ 0) (hb : k.bitvalue = a.bitvalue)
    (hb' : b.bitvalue = a.bitvalue) (hd : ∀ x ∈ pre ++ post, x.bitvalue ≠ a.bitvalue) (hi : Idle k) :
    ∃ tbl' e o, routineN (once (.inl p) b) (pre ++ k :: (post ++ t :: rest)) a = .ok (tbl', (k.code, e), o) ∧
      (o = [(k.code, .press)] ∧ e = (reports a b 0).2 ∨ o = [] ∧ e = .press) := by
  obtain ⟨K, hK⟩ : ∃ K, K = (process b { k with value := true }).1 := ⟨_, rfl⟩
  have hKp : K = { k with value := true, ignore := false, oldvalue := true, timeState := b.timestamp, lastevent := .press } := by
    rw [hK]
    simp [process, hi.1]
  have hKe : (process b { k with value := true }).2 = .press := by simp [process, hi.1]
  let T : Key w → Bool → List (Key w) := fun k0 f => pre ++ (if f then K else k0) :: (post ++ t :: rest)
  have hF : ∀ k0 : Key w, k0.bitvalue = k.bitvalue → k0.code = k.code → ({ k0 with value := true } : Key w) = { k with value := true } →
      Fires (T k0) b (k.code, .press) := by
    intro k0 h1 h2 h3
    refine ⟨?_⟩
    have := callN_match b pre post rest k0 t ht hpre hpost (h1 ▸ hk) (by rw [h1, hb, hb']) (by rw [hb']; exact hd)
    rw [h3, hKe, ← hK, h2] at this
    exact this
  have hF1 := hF k rfl rfl rfl
  have hF2 := hF { k with value := true } rfl rfl rfl
  have hpost' : ∀ x ∈ post, x.bitvalue ≠ a.bitvalue := fun x hx => hd x (by simp [hx])
  have hpre' : ∀ x ∈ pre, x.bitvalue ≠ a.bitvalue := fun x hx => hd x (by simp [hx])
  have rmid : ∀ k0 f, rd (T k0 f) pre.length = .ok (if f then K else k0) := fun k0 f => rd_mid _ _ _
  have rpre : ∀ k0 j (hj : j < pre.length) f, rd (T k0 f) (0 + j) = .ok pre[j] := by
    intro k0 j hj f
    rw [rd, Nat.zero_add, List.getElem?_append_left hj, List.getElem?_eq_getElem hj]
  have rpost : ∀ k0 j (hj : j < post.length) f, rd (T k0 f) (pre.length + 1 + j) = .ok post[j] := by
    intro k0 j hj f
    rw [rd, List.getElem?_append_right (by omega), show pre.length + 1 + j - pre.length = j + 1 by omega, List.getElem?_cons_succ,
      List.getElem?_append_left hj, List.getElem?_eq_getElem hj]
  have rend : ∀ k0 f, rd (T k0 f) (pre.length + 1 + post.length) = .ok t := by
    intro k0 f
    rw [rd, List.getElem?_append_right (by omega), show pre.length + 1 + post.length - pre.length = post.length + 1 by omega, List.getElem?_cons_succ,
      List.getElem?_append_right (by omega), Nat.sub_self]
    rfl
  have hKv : ({ K with value := true } : Key w) = K := by rw [hKp]
  have hKb : K.bitvalue = k.bitvalue := by rw [hKp]
  have end2 : ∀ fuel n, ∃ m, n ≤ m ∧ execN (fun n => if n = p then some b else none) n
      (loopP a.bitvalue (fuel + 1) (pre.length + 1 + post.length) (some pre.length)) (T { k with value := true } (decide (p < n))) =
      .ok (if p < m then T { k with value := true } true else T { k with value := true } false, some pre.length, logN (k.code, .press) p n m) := by
    intro fuel n
    refine ⟨n + 2, by omega, ?_⟩
    rw [loopP]
    refine fires_ld hF2 p n _ _ _ (fun f => ⟨t, rend _ f, by rw [if_pos ht]⟩) (by omega) ?_
    rw [execN, fires_point hF2]
    by_cases h : p < n + 1 + 1 <;> simp [h]
  have pass2 := fun fuel => fires_pass hF2 p a.bitvalue (some pre.length) (fuel + 1) _ _ post (pre.length + 1) hpost hpost' (rpost _) (end2 fuel)
  have mid : ∀ fuel n, ∃ m, n ≤ m ∧ execN (fun n => if n = p then some b else none) n
      (loopP a.bitvalue (post.length + (fuel + 1) + 1) (0 + pre.length) none) (T k (decide (p < n))) =
      .ok (if p < m then T k true else T { k with value := true } false, some pre.length, logN (k.code, .press) p n m) := by
    intro fuel n
    obtain ⟨m, hm, e⟩ := pass2 fuel (n + 2)
    refine ⟨m, by omega, ?_⟩
    rw [Nat.zero_add, loopP]
    refine fires_ld hF1 p n _ _ _ (fun f => ⟨_, rmid _ f, ?_⟩) (by omega)
      (fires_st (T' := T { k with value := true }) hF1 p (n + 1) pre.length (fun k => { k with value := true }) _ (fun f => ⟨_, rmid _ f, ?_⟩) (by omega) e)
    · cases f
      · simp only [Bool.false_eq_true, if_false]
        rw [if_neg hk, if_pos hb]
      · simp only [if_true]
        rw [if_neg (hKb ▸ hk), if_pos (hKb.trans hb)]
    · cases f
      · exact wr_mid _ _ _ _
      · simp only [if_true, hKv]
        exact wr_mid _ _ _ _
  obtain ⟨m, -, e⟩ := fires_pass hF1 p a.bitvalue none _ _ _ pre 0 hpre hpre' (rpre _) (mid (rest.length + 1)) 0
  have hlen : (pre ++ k :: (post ++ t :: rest)).length + 1 = pre.length + (post.length + (rest.length + 1 + 1) + 1) := by simp; omega
  have hq : (fun n => once (.inl p) b (.inl n)) = fun n => if n = p then some b else none := by
    funext n
    simp [once]
  have hq' : (fun n => once (.inl p) b (.inr n)) = fun _ => none := by
    funext n
    simp [once]
  have hT : pre ++ k :: (post ++ t :: rest) = T k (decide (p < 0)) := by simp [T]
  rw [routineN, hlen, hq, hq', hT, e]
  simp only [Res.ok_bind]
  have fin : ∀ k0 : Key w, k0.code = k.code → ∀ o : List (Int × Event), ∃ tbl', (do
      let k1 ← rd (pre ++ k0 :: (post ++ t :: rest)) pre.length
      let (tbl, e, o') ← execN (fun _ => none) 0 (processP a pre.length) (pre ++ k0 :: (post ++ t :: rest))
      pure (tbl, (k1.code, e), o ++ o') : Res (List (Key w) × (Int × Event) × List (Int × Event))) =
        .ok (tbl', (k.code, (process a k0).2), o) := by
    intro k0 h0 o
    have hf := finish (tbl := pre ++ k0 :: (post ++ t :: rest)) a pre.length
    simp only [rd_mid, wr_mid, Res.ok_bind, Res.pure_eq] at hf
    simp only [rd_mid, Res.ok_bind, execN_quiet]
    cases hx : exec quiet 0 (processP a pre.length) (pre ++ k0 :: (post ++ t :: rest)) with
    | ok x =>
      obtain ⟨tbl, e, m⟩ := x
      rw [hx] at hf
      simp only [Res.ok_bind, Res.ok.injEq, Prod.mk.injEq] at hf
      exact ⟨tbl, by simp [h0, hf.2.2]⟩
    | ub => rw [hx] at hf; cases hf
    | abort => rw [hx] at hf; cases hf
    | diverge => rw [hx] at hf; cases hf
  by_cases hp : p < m
  · rw [if_pos hp]
    obtain ⟨tbl', e'⟩ := fin K (by rw [hKp]) (logN (k.code, .press) p 0 m)
    refine ⟨tbl', _, _, e', Or.inl ⟨by simp [logN, hp], ?_⟩⟩
    rw [hKp]
    cases h1 : isStrictlyExpired b.timestamp a.timestamp a.click <;> cases h2 : isStrictlyExpired b.timestamp a.timestamp a.longclick <;>
      simp [process, reports, h1, h2]
  · rw [if_neg hp]
    obtain ⟨tbl', e'⟩ := fin { k with value := true } rfl (logN (k.code, .press) p 0 m)
    exact ⟨tbl', _, _, e', Or.inr ⟨by simp [logN, hp], by simp [process, hi.1]⟩⟩

-- Key 2 is pressed: a handler before the first access of the loop, and at its last point.
example : (do
    let (_, r) ← routineN (once (.inl 0) ⟨10, 20, 5, 8, 2⟩) [upKey 1 11, upKey 2 12, upKey 0 0] ⟨10, 20, 5, 7, 2⟩
    pure r) = .ok ((12, .nothing), [(12, .press)]) := by decide +kernel

example : (do
    let (_, r) ← routineN (once (.inl 7) ⟨10, 20, 5, 8, 2⟩) [upKey 1 11, upKey 2 12, upKey 0 0] ⟨10, 20, 5, 7, 2⟩
    pure r) = .ok ((12, .nothing), [(12, .press)]) := by decide +kernel

-- The loop has no such point.
example : (do
    let (_, r) ← routineN (once (.inl 8) ⟨10, 20, 5, 8, 2⟩) [upKey 1 11, upKey 2 12, upKey 0 0] ⟨10, 20, 5, 7, 2⟩
    pure r) = .ok ((12, .press), []) := by decide +kernel

end Gel.Keypad
