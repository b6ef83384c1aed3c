import Verif.Keypad.IsrReset

/-!
# Keypad: `keypad_routine` called by an interrupt handler during `keypad_routine` (C250)

The main program's call is the program of single loads and stores of `IsrReset.lean`; the handler's is the call of the first model, run to its end
at one point. What both report is kept. Points are counted as there.
-/
namespace Gel.Keypad

open Time Spec

/-- The handler's call of `keypad_routine` (`none`: no interrupt): the table and what it reports. -/
def callN (b : Option (Args w)) (tbl : List (Key w)) : Res (List (Key w) × List (Int × Event)) :=
  match b with
  | none => pure (tbl, [])
  | some b => do
    let (tbl, r) ← routine tbl b
    pure (tbl, [r])

/-- `exec` with calls of `keypad_routine` by a handler before each access and after the last, and what those report. -/
def execN (b : Nat → Option (Args w)) : Nat → Prog w α → List (Key w) → Res (List (Key w) × α × List (Int × Event))
  | n, .ret a, tbl => do
    let (tbl, o) ← callN (b n) tbl
    pure (tbl, a, o)
  | n, .ld i next, tbl => do
    let (tbl, o) ← callN (b n) tbl
    let k ← rd tbl i
    let (tbl, a, o') ← execN b (n + 1) (next k) tbl
    pure (tbl, a, o ++ o')
  | n, .st i f next, tbl => do
    let (tbl, o) ← callN (b n) tbl
    let k ← rd tbl i
    let tbl ← wr tbl i (f k)
    let (tbl, a, o') ← execN b (n + 1) next tbl
    pure (tbl, a, o ++ o')
  | _, .fail, _ => .diverge

/-- `keypad_routine`, keypad.c:10-85, interrupted by itself: the table, what the call reports and what the handler's calls report. -/
def routineN (b : Nat ⊕ Nat → Option (Args w)) (tbl : List (Key w)) (a : Args w) :
    Res (List (Key w) × (Int × Event) × List (Int × Event)) := do
  let (tbl, found, o) ← execN (fun n => b (.inl n)) 0 (loopP a.bitvalue (tbl.length + 1) 0 none) tbl
  match found with
  | none => pure (tbl, (0, .nothing), o)
  | some i => do
    let k ← rd tbl i
    let (tbl, e, o') ← execN (fun n => b (.inr n)) 0 (processP a i) tbl
    pure (tbl, (k.code, e), o ++ o')

/-- The handler calls `keypad_routine` at point `p` and at no other. -/
def once (p : Nat ⊕ Nat) (b : Args w) : Nat ⊕ Nat → Option (Args w) := fun q => if q = p then some b else none

theorem execN_quiet (p : Prog w α) : ∀ (n : Nat) (tbl : List (Key w)),
    execN (fun _ => none) n p tbl = (do let (tbl, a, _) ← exec quiet n p tbl; pure (tbl, a, [])) := by
  induction p with
  | ret a => intro n tbl; rfl
  | ld i next ih =>
    intro n tbl
    simp only [execN, exec, callN, Res.pure_eq, Res.ok_bind]
    cases rd tbl i with
    | ok k =>
      simp only [Res.ok_bind, ih]
      cases exec quiet (n + 1) (next k) tbl <;> rfl
    | ub => rfl
    | abort => rfl
    | diverge => rfl
  | st i f next ih =>
    intro n tbl
    simp only [execN, exec, callN, Res.pure_eq, Res.ok_bind]
    cases rd tbl i with
    | ok k =>
      simp only [Res.ok_bind]
      cases wr tbl i (f k) with
      | ok tbl' =>
        simp only [Res.ok_bind, ih]
        cases exec quiet (n + 1) next tbl' <;> rfl
      | ub => rfl
      | abort => rfl
      | diverge => rfl
    | ub => rfl
    | abort => rfl
    | diverge => rfl
  | fail => intro n tbl; rfl

/-- **C250.** Without a handler this is the call of the first model (of a table with an end). -/
theorem C250_quiet (tbl ks : List (Key w)) (a : Args w) (h : Table tbl ks) :
    routineN (fun _ => none) tbl a = (do let (tbl, r) ← routine tbl a; pure (tbl, r, [])) := by
  rw [← C212_quiet tbl ks a h, routineN, routineI, execN_quiet]
  cases exec quiet 0 (loopP a.bitvalue (tbl.length + 1) 0 none) tbl with
  | ok x =>
    obtain ⟨tbl', found, m⟩ := x
    cases found with
    | none => rfl
    | some i =>
      simp only [Res.ok_bind, Res.pure_eq, execN_quiet]
      cases rd tbl' i with
      | ok k =>
        simp only [Res.ok_bind]
        cases exec quiet 0 (processP a i) tbl' <;> rfl
      | ub => rfl
      | abort => rfl
      | diverge => rfl
  | ub => rfl
  | abort => rfl
  | diverge => rfl

/-- The handler's call, with the key pressed and the others in rest. -/
theorem callN_match (b : Args w) (pre post rest : List (Key w)) (k t : Key w) (ht : t.bitvalue = 0)
    (hpre : ∀ x ∈ pre, x.bitvalue ≠ 0 ∧ Idle x) (hpost : ∀ x ∈ post, x.bitvalue ≠ 0 ∧ Idle x) (hk : k.bitvalue ≠ 0) (hb : k.bitvalue = b.bitvalue)
    (hd : ∀ x ∈ pre ++ post, x.bitvalue ≠ b.bitvalue) :
    callN (some b) (pre ++ k :: (post ++ t :: rest)) = .ok (pre ++ (process b { k with value := true }).1 :: (post ++ t :: rest),
      [(k.code, (process b { k with value := true }).2)]) := by
  rw [callN, routine, scan_match _ pre post rest k t ht hpre hpost hk hb hd, Res.ok_bind]
  simp only [rd_mid, wr_mid, Res.ok_bind, Res.pure_eq]

/-- After the loop, which has found the pressed key. -/
theorem routineN_rest (a b : Args w) (c : Nat) (pre post rest : List (Key w)) (k t : Key w) (ht : t.bitvalue = 0)
    (hpre : ∀ x ∈ pre, x.bitvalue ≠ 0 ∧ Idle x) (hpost : ∀ x ∈ post, x.bitvalue ≠ 0 ∧ Idle x) (hk : k.bitvalue ≠ 0) (hb : k.bitvalue = a.bitvalue)
    (hd : ∀ x ∈ pre ++ post, x.bitvalue ≠ a.bitvalue) :
    routineN (once (.inr c) b) (pre ++ k :: (post ++ t :: rest)) a = (do
      let (tbl, e, o) ← execN (fun n => if n = c then some b else none) 0 (processP a pre.length) (pre ++ { k with value := true } :: (post ++ t :: rest))
      pure (tbl, (k.code, e), o)) := by
  have hnz : ∀ x ∈ pre ++ k :: post, x.bitvalue ≠ 0 := by
    intro x hx
    simp only [List.mem_append, List.mem_cons] at hx
    rcases hx with h | rfl | h
    · exact (hpre x h).1
    · exact hk
    · exact (hpost x h).1
  obtain ⟨l, g, m, e1, e2⟩ := loop_quiet (rest := rest) a.bitvalue ht (pre ++ k :: post) [] ((pre ++ k :: (post ++ t :: rest)).length + 1) none 0 hnz
    (by simp; omega)
  simp only [List.length_nil, List.nil_append, List.append_assoc, List.cons_append] at e1 e2
  rw [scan_match _ pre post rest k t ht hpre hpost hk hb hd] at e1
  injection e1 with e1
  injection e1 with h1 h2
  subst h1 h2
  have hq : (fun n => once (.inr c) b (.inl n)) = fun _ => none := by
    funext n
    simp [once]
  have hq' : (fun n => once (.inr c) b (.inr n)) = fun n => if n = c then some b else none := by
    funext n
    simp [once]
  rw [routineN, hq, hq', execN_quiet, e2]
  simp only [Res.ok_bind, Res.pure_eq, rd_mid, List.nil_append]

/-- What the handler's call and the interrupted one report, in this order, for a handler before access `c` after the loop. -/
def reports (a b : Args w) (c : Nat) : Event × Event :=
  if c ≤ 1 then
    (.press, if isStrictlyExpired b.timestamp a.timestamp a.click then .click
      else if isStrictlyExpired b.timestamp a.timestamp a.longclick then .longclick else .nothing)
  else if c ≤ 3 then (.press, .nothing)
  else if c ≤ 6 then (.press, .press)
  else if c ≤ 9 then (.nothing, .press)
  else (if isStrictlyExpired a.timestamp b.timestamp b.click then .click
      else if isStrictlyExpired a.timestamp b.timestamp b.longclick then .longclick else .nothing, .press)

/-- **C250.** A key is pressed, the others are in rest, and both calls are given its bitmap: what each reports, for every point after the loop. -/
theorem C250_exact (a b : Args w) (c : Nat) (hc : c ≤ 10) (pre post rest : List (Key w)) (k t : Key w) (ht : t.bitvalue = 0)
    (hpre : ∀ x ∈ pre, x.bitvalue ≠ 0 ∧ Idle x) (hpost : ∀ x ∈ post, x.bitvalue ≠ 0 ∧ Idle x) (hk : k.bitvalue ≠ 0) (hb : k.bitvalue = a.bitvalue)
    (hb' : b.bitvalue = a.bitvalue) (hd : ∀ x ∈ pre ++ post, x.bitvalue ≠ a.bitvalue) (hi : Idle k) :
    ∃ tbl', routineN (once (.inr c) b) (pre ++ k :: (post ++ t :: rest)) a =
      .ok (tbl', (k.code, (reports a b c).2), [(k.code, (reports a b c).1)]) := by
  rw [routineN_rest a b c pre post rest k t ht hpre hpost hk hb hd]
  have hH : ∀ k' : Key w, k'.bitvalue = k.bitvalue → callN (some b) (pre ++ k' :: (post ++ t :: rest)) =
      .ok (pre ++ (process b { k' with value := true }).1 :: (post ++ t :: rest), [(k'.code, (process b { k' with value := true }).2)]) :=
    fun k' h => callN_match b pre post rest k' t ht hpre hpost (h ▸ hk) (by rw [h, hb, hb']) (by rw [hb']; exact hd)
  have hN : ∀ tbl : List (Key w), callN none tbl = .ok (tbl, []) := fun _ => rfl
  obtain ⟨ho, hl⟩ := hi
  obtain ⟨bv, cd, ts, tp, v, o, ig, le⟩ := k
  simp only at ho hl hH
  subst ho
  have : c = 0 ∨ c = 1 ∨ c = 2 ∨ c = 3 ∨ c = 4 ∨ c = 5 ∨ c = 6 ∨ c = 7 ∨ c = 8 ∨ c = 9 ∨ c = 10 := by omega
  rcases this with rfl | rfl | rfl | rfl | rfl | rfl | rfl | rfl | rfl | rfl | rfl
  · cases h1 : isStrictlyExpired b.timestamp a.timestamp a.click <;> cases h2 : isStrictlyExpired b.timestamp a.timestamp a.longclick <;>
      simp [processP, changedP, steadyP, releaseP, longclickP, longpressP, pressingP, execN, hN, hH, rd_mid, wr_mid, process, reports, h1, h2]
  · cases h1 : isStrictlyExpired b.timestamp a.timestamp a.click <;> cases h2 : isStrictlyExpired b.timestamp a.timestamp a.longclick <;>
      simp [processP, changedP, steadyP, releaseP, longclickP, longpressP, pressingP, execN, hN, hH, rd_mid, wr_mid, process, reports, h1, h2]
  · simp [processP, changedP, execN, hN, hH, rd_mid, wr_mid, process, reports]
  · simp [processP, changedP, execN, hN, hH, rd_mid, wr_mid, process, reports]
  · simp [processP, changedP, execN, hN, hH, rd_mid, wr_mid, process, reports]
  · simp [processP, changedP, execN, hN, hH, rd_mid, wr_mid, process, reports]
  · simp [processP, changedP, execN, hN, hH, rd_mid, wr_mid, process, reports]
  · rcases hl with rfl | rfl <;> simp [processP, changedP, execN, hN, hH, rd_mid, wr_mid, process, reports]
  · rcases hl with rfl | rfl <;> simp [processP, changedP, execN, hN, hH, rd_mid, wr_mid, process, reports]
  · rcases hl with rfl | rfl <;> simp [processP, changedP, execN, hN, hH, rd_mid, wr_mid, process, reports]
  · cases h1 : isStrictlyExpired a.timestamp b.timestamp b.click <;> cases h2 : isStrictlyExpired a.timestamp b.timestamp b.longclick <;>
      simp [processP, changedP, execN, hN, hH, rd_mid, wr_mid, process, reports, h1, h2]

/-- **C250** (partial). A press is reported by exactly one of the two calls, for a handler after the loop. Missing: between the comparison of `value`
with `oldvalue` and the store of `oldvalue` (accesses 4 to 6), where it is false (`C250_twice_wrong`); events other than the press; for a handler in the loop see `C250_loop_partial`. -/
theorem C250_partial (a b : Args w) (c : Nat) (hc : c ≤ 3 ∨ 7 ≤ c ∧ c ≤ 10) (pre post rest : List (Key w)) (k t : Key w) (ht : t.bitvalue = 0)
    (hpre : ∀ x ∈ pre, x.bitvalue ≠ 0 ∧ Idle x) (hpost : ∀ x ∈ post, x.bitvalue ≠ 0 ∧ Idle x) (hk : k.bitvalue ≠ 0) (hb : k.bitvalue = a.bitvalue)
    (hb' : b.bitvalue = a.bitvalue) (hd : ∀ x ∈ pre ++ post, x.bitvalue ≠ a.bitvalue) (hi : Idle k) :
    ∃ tbl' e e', routineN (once (.inr c) b) (pre ++ k :: (post ++ t :: rest)) a = .ok (tbl', (k.code, e), [(k.code, e')]) ∧
      (e = .press ↔ e' ≠ .press) := by
  obtain ⟨tbl', h⟩ := C250_exact a b c (by omega) pre post rest k t ht hpre hpost hk hb hb' hd hi
  refine ⟨tbl', _, _, h, ?_⟩
  unfold reports
  split_ifs <;> first | omega | simp

/-- **C250** (what is false). Between the comparison of `value` with `oldvalue` and the store of `oldvalue` both calls report the press. -/
theorem C250_twice_wrong (a b : Args w) (c : Nat) (hc : 4 ≤ c ∧ c ≤ 6) (pre post rest : List (Key w)) (k t : Key w) (ht : t.bitvalue = 0)
    (hpre : ∀ x ∈ pre, x.bitvalue ≠ 0 ∧ Idle x) (hpost : ∀ x ∈ post, x.bitvalue ≠ 0 ∧ Idle x) (hk : k.bitvalue ≠ 0) (hb : k.bitvalue = a.bitvalue)
    (hb' : b.bitvalue = a.bitvalue) (hd : ∀ x ∈ pre ++ post, x.bitvalue ≠ a.bitvalue) (hi : Idle k) :
    ∃ tbl', routineN (once (.inr c) b) (pre ++ k :: (post ++ t :: rest)) a = .ok (tbl', (k.code, .press), [(k.code, .press)]) := by
  obtain ⟨tbl', h⟩ := C250_exact a b c (by omega) pre post rest k t ht hpre hpost hk hb hb' hd hi
  have hr : reports a b c = (.press, .press) := by
    unfold reports
    rw [if_neg (by omega), if_neg (by omega), if_pos (by omega)]
  rw [hr] at h
  exact ⟨tbl', h⟩

-- Key 2 is pressed: the handler before the store of `oldvalue`, and after it.
example : (do
    let (_, r) ← routineN (once (.inr 6) ⟨10, 20, 5, 8, 2⟩) [upKey 1 11, upKey 2 12, upKey 0 0] ⟨10, 20, 5, 7, 2⟩
    pure r) = .ok ((12, .press), [(12, .press)]) := by decide +kernel

example : (do
    let (_, r) ← routineN (once (.inr 7) ⟨10, 20, 5, 8, 2⟩) [upKey 1 11, upKey 2 12, upKey 0 0] ⟨10, 20, 5, 7, 2⟩
    pure r) = .ok ((12, .press), [(12, .nothing)]) := by decide +kernel

-- Just after the loop: the press is the handler's.
example : (do
    let (_, r) ← routineN (once (.inr 0) ⟨10, 20, 5, 8, 2⟩) [upKey 1 11, upKey 2 12, upKey 0 0] ⟨10, 20, 5, 7, 2⟩
    pure r) = .ok ((12, .nothing), [(12, .press)]) := by decide +kernel

-- In the loop.
example : (do
    let (_, r) ← routineN (once (.inl 3) ⟨10, 20, 5, 8, 2⟩) [upKey 1 11, upKey 2 12, upKey 0 0] ⟨10, 20, 5, 7, 2⟩
    pure r) = .ok ((12, .nothing), [(12, .press)]) := by decide +kernel

end Gel.Keypad
