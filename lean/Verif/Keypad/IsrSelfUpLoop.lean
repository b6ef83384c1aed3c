import Verif.Keypad.IsrSelfLoop
import Verif.Keypad.IsrSelfUp

/-!
# Keypad: a key let go, with `keypad_routine` called by an interrupt handler in the loop of `keypad_routine` (C251)
-/
namespace Gel.Keypad

open Time Spec

/-- `fires_pass` for any way the loop may end. -/
theorem fires_over {T : Bool → List (Key w)} {b : Args w} {r : Int × Event} (h : Fires T b r) (p : Nat) (bv : BitVec w) (found : Option Nat)
    (fuel : Nat) (Q : Nat → List (Key w) → Option Nat → Prop) : ∀ (xs : List (Key w)) (i : Nat),
    (∀ x ∈ xs, x.bitvalue ≠ 0 ∧ Idle x) → (∀ x ∈ xs, x.bitvalue ≠ bv) → (∀ j (hj : j < xs.length) f, rd (T f) (i + j) = .ok xs[j]) →
    ∀ n, (∀ n' ≥ n, ∃ m tbl z, n' ≤ m ∧ Q m tbl z ∧
      execN (fun n => if n = p then some b else none) n' (loopP bv fuel (i + xs.length) found) (T (decide (p < n'))) = .ok (tbl, z, logN r p n' m)) →
    ∃ m tbl z, n ≤ m ∧ Q m tbl z ∧
      execN (fun n => if n = p then some b else none) n (loopP bv (xs.length + fuel) i found) (T (decide (p < n))) = .ok (tbl, z, logN r p n m)
  | [], i, _, _, _, n, hc => by simpa using hc n (Nat.le_refl n)
  | x :: xs, i, hx, hd, hr, n, hc => by
    have ih := fun n' (hn : n ≤ n') => fires_over h p bv found fuel Q xs (i + 1) (fun y hy => hx y (by simp [hy])) (fun y hy => hd y (by simp [hy]))
      (fun j hj f => by have := hr (j + 1) (by simpa using hj) f; rw [show i + 1 + j = i + (j + 1) by omega, this]; rfl) n'
      (fun n'' hn' => by have := hc n'' (by omega); rwa [show i + 1 + xs.length = i + (x :: xs).length by simp; omega])
    have hr0 : ∀ f, rd (T f) i = .ok x := fun f => hr 0 (by simp) f
    obtain ⟨h0, ho, hl⟩ := hx x (by simp)
    have hb := hd x (by simp)
    rw [show (x :: xs).length + fuel = (xs.length + fuel) + 1 by simp; omega, loopP]
    rcases hl with hl | hl
    · obtain ⟨m, tbl, z, hm, hQ, e⟩ := ih (n + 4) (by omega)
      refine ⟨m, tbl, z, by omega, hQ, ?_⟩
      refine fires_ld h p n i _ _ (fun f => ⟨x, hr0 f, by rw [if_neg h0, if_neg hb]⟩) (by omega) ?_
      refine fires_ld h p (n + 1) i _ _ (fun f => ⟨x, hr0 f, by rw [if_neg (by simp [ho])]⟩) (by omega) ?_
      refine fires_ld h p (n + 2) i _ _ (fun f => ⟨x, hr0 f, by rw [if_pos (by simp [hl])]⟩) (by omega) ?_
      exact fires_ld h p (n + 3) i _ _ (fun f => ⟨x, hr0 f, by rw [if_neg (by simp [hl])]⟩) (by omega) e
    · obtain ⟨m, tbl, z, hm, hQ, e⟩ := ih (n + 3) (by omega)
      refine ⟨m, tbl, z, by omega, hQ, ?_⟩
      refine fires_ld h p n i _ _ (fun f => ⟨x, hr0 f, by rw [if_neg h0, if_neg hb]⟩) (by omega) ?_
      refine fires_ld h p (n + 1) i _ _ (fun f => ⟨x, hr0 f, by rw [if_neg (by simp [ho])]⟩) (by omega) ?_
      exact fires_ld h p (n + 2) i _ _ (fun f => ⟨x, hr0 f, by rw [if_neg (by simp [hl])]⟩) (by omega) e

/-- A load, when it is known whether the handler has run by then. -/
theorem fires_ld_at {T : Bool → List (Key w)} {b : Args w} {r : Int × Event} (h : Fires T b r) (p n i : Nat) (next : Key w → Prog w α) (x : Key w)
    (hr : rd (T (decide (p < n + 1))) i = .ok x) {tbl : List (Key w)} {z : α} {m : Nat} (hm : n + 1 ≤ m)
    (he : execN (fun n => if n = p then some b else none) (n + 1) (next x) (T (decide (p < n + 1))) = .ok (tbl, z, logN r p (n + 1) m)) :
    execN (fun n => if n = p then some b else none) n (.ld i next) (T (decide (p < n))) = .ok (tbl, z, logN r p n m) := by
  rw [execN, fires_point h]
  simp only [Res.ok_bind, hr, he, Res.pure_eq]
  rw [logN_append r p (by omega) hm]

/-- **C251** (partial), a handler in the loop. A key that was pressed is let go, the others are in rest, both calls are given a bitmap of no key: the
release is reported by the handler's call and the interrupted one reports nothing, or by the interrupted one if the loop is over before
point `p`. Missing: see `C251_partial`. -/
theorem C251_loop_partial (a b : Args w) (p : Nat) (pre post rest : List (Key w)) (k t : Key w) (ht : t.bitvalue = 0)
    (hpre : ∀ x ∈ pre, x.bitvalue ≠ 0 ∧ Idle x) (hpost : ∀ x ∈ post, x.bitvalue ≠ 0 ∧ Idle x) (hk : k.bitvalue ≠ 0)
    (hd : ∀ x ∈ pre ++ k :: post, x.bitvalue ≠ a.bitvalue ∧ x.bitvalue ≠ b.bitvalue) (ho : k.oldvalue = true) (hl : k.lastevent = .press) :
    ∃ tbl' i e o, routineN (once (.inl p) b) (pre ++ k :: (post ++ t :: rest)) a = .ok (tbl', (i, e), o) ∧
      (o = [(k.code, .release)] ∧ e = .nothing ∨ o = [] ∧ e = .release ∧ i = k.code) := by
  have hkd := hd k (by simp)
  obtain ⟨K, hK⟩ : ∃ K : Key w, K = { k with value := false, ignore := false, oldvalue := false, timeState := b.timestamp, lastevent := .release } :=
    ⟨_, rfl⟩
  have hKp : process b { k with value := false } = (K, .release) := by
    rw [hK]
    simp [process, ho, hl]
  let T : Key w → Bool → List (Key w) := fun k0 f => pre ++ (if f then K else k0) :: (post ++ t :: rest)
  have hF : ∀ k0 : Key w, k0.bitvalue = k.bitvalue → k0.code = k.code → k0.oldvalue = true → ({ k0 with value := false } : Key w) = { k with value := false } →
      Fires (T k0) b (k.code, .release) := by
    intro k0 h1 h2 h3 h4
    refine ⟨?_⟩
    show callN (some b) (pre ++ k0 :: (post ++ t :: rest)) = .ok (pre ++ K :: (post ++ t :: rest), _)
    rw [callN, routine, scan_up _ _ _ _ hpre (h1 ▸ hk) (fun x hx => (hd x (by simp [hx])).2) (h1 ▸ hkd.2) (Or.inl h3), Res.ok_bind, h4]
    simp only [rd_mid, wr_mid, Res.ok_bind, Res.pure_eq, hKp]
  have hF1 := hF k rfl rfl ho rfl
  have hF2 := hF { k with value := false } rfl rfl ho rfl
  have hpost' : ∀ x ∈ post, x.bitvalue ≠ a.bitvalue := fun x hx => (hd x (by simp [hx])).1
  have hpre' : ∀ x ∈ pre, x.bitvalue ≠ a.bitvalue := fun x hx => (hd x (by simp [hx])).1
  have rmid : ∀ k0 f, rd (T k0 f) pre.length = .ok (if f then K else k0) := fun k0 f => rd_mid _ _ _
  have rpre : ∀ k0 j (hj : j < pre.length) f, rd (T k0 f) (0 + j) = .ok pre[j] := by
    intro k0 j hj f
    rw [rd, Nat.zero_add, List.getElem?_append_left hj, List.getElem?_eq_getElem hj]
  have rpost : ∀ k0 j (hj : j < post.length) f, rd (T k0 f) (pre.length + 1 + j) = .ok post[j] := by
    intro k0 j hj f
    rw [rd, List.getElem?_append_right (by omega), show pre.length + 1 + j - pre.length = j + 1 by omega, List.getElem?_cons_succ,
      List.getElem?_append_left hj, List.getElem?_eq_getElem hj]
  have rend : ∀ k0 f, rd (T k0 f) (pre.length + 1 + post.length) = .ok t := by
    intro k0 f
    rw [rd, List.getElem?_append_right (by omega), show pre.length + 1 + post.length - pre.length = post.length + 1 by omega, List.getElem?_cons_succ,
      List.getElem?_append_right (by omega), Nat.sub_self]
    rfl
  have hKb : K.bitvalue = k.bitvalue := by rw [hK]
  have hKo : K.oldvalue = false := by rw [hK]
  have hKl : K.lastevent = .release := by rw [hK]
  have hKv : ({ K with value := false } : Key w) = K := by rw [hK]
  let Q : Nat → List (Key w) → Option Nat → Prop := fun m tbl z =>
    p < m ∧ tbl = T k true ∧ (z = none ∨ z = some pre.length) ∨ ¬ p < m ∧ tbl = T { k with value := false } false ∧ z = some pre.length
  -- The keys after it, when the handler has run.
  have gone : ∀ fuel n, p < n → ∃ m tbl z, n ≤ m ∧ Q m tbl z ∧ execN (fun n => if n = p then some b else none) n
      (loopP a.bitvalue (post.length + (fuel + 1)) (pre.length + 1) none) (T k (decide (p < n))) = .ok (tbl, z, logN (k.code, .release) p n m) := by
    intro fuel n hn
    refine fires_over hF1 p a.bitvalue none (fuel + 1) Q post (pre.length + 1) hpost hpost' (rpost _) n fun n' hn' => ?_
    refine ⟨n' + 2, T k true, none, by omega, Or.inl ⟨by omega, rfl, Or.inl rfl⟩, ?_⟩
    rw [loopP]
    refine fires_ld hF1 p n' _ _ _ (fun f => ⟨t, rend _ f, by rw [if_pos ht]⟩) (by omega) ?_
    rw [execN, fires_point hF1, show decide (p < n' + 1 + 1) = true from decide_eq_true (by omega)]
    rfl
  have mid : ∀ fuel n, ∃ m tbl z, n ≤ m ∧ Q m tbl z ∧ execN (fun n => if n = p then some b else none) n
      (loopP a.bitvalue (post.length + (fuel + 1) + 1) (0 + pre.length) none) (T k (decide (p < n))) = .ok (tbl, z, logN (k.code, .release) p n m) := by
    intro fuel n
    rw [Nat.zero_add, loopP]
    have first : ∀ f, ∃ x, rd (T k f) pre.length = .ok x ∧ x.bitvalue ≠ 0 ∧ x.bitvalue ≠ a.bitvalue := by
      intro f
      refine ⟨_, rmid k f, ?_⟩
      cases f
      · exact ⟨hk, hkd.1⟩
      · exact ⟨by simpa [hKb] using hk, by simpa [hKb] using hkd.1⟩
    by_cases hp : p < n + 2
    · obtain ⟨m, tbl, z, hm, hQ, e⟩ := gone fuel (n + 3) (by omega)
      refine ⟨m, tbl, z, by omega, hQ, ?_⟩
      obtain ⟨x, h1, h2, h3⟩ := first (decide (p < n + 1))
      refine fires_ld_at hF1 p n pre.length _ x h1 (by omega) ?_
      rw [if_neg h2, if_neg h3]
      refine fires_ld_at hF1 p (n + 1) pre.length _ K ?_ (by omega) ?_
      · rw [show decide (p < n + 1 + 1) = true from decide_eq_true (by omega), rmid]
        rfl
      · rw [if_neg (by simp [hKo])]
        refine fires_ld_at hF1 p (n + 2) pre.length _ K ?_ (by omega) ?_
        · rw [show decide (p < n + 2 + 1) = true from decide_eq_true (by omega), rmid]
          rfl
        · rw [if_neg (by simp [hKl])]
          exact e
    · refine ⟨n + 4, T { k with value := false } (decide (p < n + 4)), some pre.length, by omega, ?_, ?_⟩
      · by_cases h4 : p < n + 4
        · exact Or.inl ⟨h4, by rw [decide_eq_true h4]; rfl, Or.inr rfl⟩
        · exact Or.inr ⟨h4, by rw [decide_eq_false h4], rfl⟩
      obtain ⟨x, h1, h2, h3⟩ := first (decide (p < n + 1))
      refine fires_ld_at hF1 p n pre.length _ x h1 (by omega) ?_
      rw [if_neg h2, if_neg h3]
      refine fires_ld_at hF1 p (n + 1) pre.length _ k ?_ (by omega) ?_
      · rw [show decide (p < n + 1 + 1) = false from decide_eq_false (by omega), rmid]
        rfl
      · rw [if_pos ho]
        refine fires_st (T' := T { k with value := false }) hF1 p (n + 2) pre.length (fun k => { k with value := false }) _
          (fun f => ⟨_, rmid _ f, ?_⟩) (by omega) ?_
        · cases f
          · exact wr_mid _ _ _ _
          · simp only [if_true, hKv]
            exact wr_mid _ _ _ _
        · rw [execN, fires_point hF2]
          rfl
  obtain ⟨m, tbl, z, -, hQ, e⟩ := fires_over hF1 p a.bitvalue none _ Q pre 0 hpre hpre' (rpre _) 0 fun n _ => mid (rest.length + 1) n
  have hlen : (pre ++ k :: (post ++ t :: rest)).length + 1 = pre.length + (post.length + (rest.length + 1 + 1) + 1) := by simp; omega
  have hq : (fun n => once (.inl p) b (.inl n)) = fun n => if n = p then some b else none := by
    funext n
    simp [once]
  have hq' : (fun n => once (.inl p) b (.inr n)) = fun _ => none := by
    funext n
    simp [once]
  have hT : pre ++ k :: (post ++ t :: rest) = T k (decide (p < 0)) := by simp [T]
  rw [routineN, hlen, hq, hq', hT, e]
  simp only [Res.ok_bind]
  have fin : ∀ k0 : Key w, k0.code = k.code → ∀ o : List (Int × Event), ∃ tbl', (do
      let k1 ← rd (pre ++ k0 :: (post ++ t :: rest)) pre.length
      let (tbl, e, o') ← execN (fun _ => none) 0 (processP a pre.length) (pre ++ k0 :: (post ++ t :: rest))
      pure (tbl, (k1.code, e), o ++ o') : Res (List (Key w) × (Int × Event) × List (Int × Event))) =
        .ok (tbl', (k.code, (process a k0).2), o) := by
    intro k0 h0 o
    have hf := finish (tbl := pre ++ k0 :: (post ++ t :: rest)) a pre.length
    simp only [rd_mid, wr_mid, Res.ok_bind, Res.pure_eq] at hf
    simp only [rd_mid, Res.ok_bind, execN_quiet]
    cases hx : exec quiet 0 (processP a pre.length) (pre ++ k0 :: (post ++ t :: rest)) with
    | ok x =>
      obtain ⟨tbl, e, m⟩ := x
      rw [hx] at hf
      simp only [Res.ok_bind, Res.ok.injEq, Prod.mk.injEq] at hf
      exact ⟨tbl, by simp [h0, hf.2.2]⟩
    | ub => rw [hx] at hf; cases hf
    | abort => rw [hx] at hf; cases hf
    | diverge => rw [hx] at hf; cases hf
  rcases hQ with ⟨hp, rfl, rfl | rfl⟩ | ⟨hp, rfl, rfl⟩
  · exact ⟨_, _, _, _, rfl, Or.inl ⟨by simp [logN, hp], rfl⟩⟩
  · obtain ⟨tbl', e'⟩ := fin K (by rw [hK]) (logN (k.code, .release) p 0 m)
    refine ⟨tbl', _, _, _, e', Or.inl ⟨by simp [logN, hp], ?_⟩⟩
    rw [hK]
    simp [process]
  · obtain ⟨tbl', e'⟩ := fin { k with value := false } rfl (logN (k.code, .release) p 0 m)
    exact ⟨tbl', _, _, _, e', Or.inr ⟨by simp [logN, hp], by simp [process, ho, hl], rfl⟩⟩

-- Key 2 is let go: a handler before the first access of the loop, before the store of `value`, and at a point the loop does not have.
example : (do
    let (_, r) ← routineN (once (.inl 0) ⟨10, 20, 5, 9, 0⟩) [upKey 1 11, downKey, upKey 0 0] ⟨10, 20, 5, 9, 0⟩
    pure r) = .ok ((0, .nothing), [(12, .release)]) := by decide +kernel

example : (do
    let (_, r) ← routineN (once (.inl 6) ⟨10, 20, 5, 9, 0⟩) [upKey 1 11, downKey, upKey 0 0] ⟨10, 20, 5, 9, 0⟩
    pure r) = .ok ((12, .nothing), [(12, .release)]) := by decide +kernel

example : (do
    let (_, r) ← routineN (once (.inl 8) ⟨10, 20, 5, 9, 0⟩) [upKey 1 11, downKey, upKey 0 0] ⟨10, 20, 5, 9, 0⟩
    pure r) = .ok ((12, .release), []) := by decide +kernel

end Gel.Keypad
