import Verif.Keypad.IsrSelf

/-!
# Keypad: a key let go, with `keypad_routine` called by an interrupt handler during `keypad_routine` (C251)
-/
namespace Gel.Keypad

open Time Spec

/-- The loop with a key that is not in rest and whose bitmap is not given. -/
theorem scan_up (bv : BitVec w) (pre tl : List (Key w)) (k : Key w) (hpre : ∀ x ∈ pre, x.bitvalue ≠ 0 ∧ Idle x) (hk : k.bitvalue ≠ 0)
    (hd : ∀ x ∈ pre, x.bitvalue ≠ bv) (hb : k.bitvalue ≠ bv) (hi : k.oldvalue = true ∨ k.value = false ∧ k.lastevent = .press) :
    scan bv (pre ++ k :: tl) 0 none = .ok (pre ++ { k with value := false } :: tl, some pre.length) := by
  obtain ⟨g, _, g1, e⟩ := scan_pass bv (k :: tl) pre 0 none hpre
  rw [e, g1 hd, touch_none _ _ hd, Nat.zero_add, scan, if_neg hk, if_neg hb]
  by_cases ho : k.oldvalue = true
  · rw [if_pos ho]
    rfl
  · obtain ⟨hv, hl⟩ := hi.resolve_left ho
    have hkv : ({ k with value := false } : Key w) = k := by rw [← hv]
    rw [if_neg ho, if_pos (by simp [hl]), hkv]
    rfl

/-- The loop with all keys in rest, none with the bitmap. -/
theorem scan_rest (bv : BitVec w) (ks rest : List (Key w)) (t : Key w) (ht : t.bitvalue = 0) (hks : ∀ x ∈ ks, x.bitvalue ≠ 0 ∧ Idle x)
    (hd : ∀ x ∈ ks, x.bitvalue ≠ bv) : scan bv (ks ++ t :: rest) 0 none = .ok (ks ++ t :: rest, none) := by
  obtain ⟨g, _, g1, e⟩ := scan_pass bv (t :: rest) ks 0 none hks
  rw [e, g1 hd, touch_none _ _ hd, scan, if_pos ht]
  rfl

/-- After the loop. -/
theorem routineN_found (a b : Args w) (c : Nat) (tbl ks pre tl : List (Key w)) (k : Key w) (h : Table tbl ks)
    (hs : scan a.bitvalue tbl 0 none = .ok (pre ++ k :: tl, some pre.length)) :
    routineN (once (.inr c) b) tbl a = (do
      let (tbl, e, o) ← execN (fun n => if n = c then some b else none) 0 (processP a pre.length) (pre ++ k :: tl)
      pure (tbl, (k.code, e), o)) := by
  obtain ⟨hk, t', rest', ht', rfl⟩ := h
  obtain ⟨l, g, m, e1, e2⟩ := loop_quiet (rest := rest') a.bitvalue ht' ks [] ((ks ++ t' :: rest').length + 1) none 0 hk (by simp; omega)
  simp only [List.length_nil, List.nil_append] at e1 e2
  rw [hs] at e1
  injection e1 with e1
  injection e1 with h1 h2
  subst h1 h2
  have hq : (fun n => once (.inr c) b (.inl n)) = fun _ => none := by
    funext n
    simp [once]
  have hq' : (fun n => once (.inr c) b (.inr n)) = fun n => if n = c then some b else none := by
    funext n
    simp [once]
  rw [routineN, hq, hq', execN_quiet, e2]
  simp only [Res.ok_bind, Res.pure_eq, rd_mid, List.nil_append]

/-- What the handler's call and the interrupted one report, in this order, when the key is let go. `ts` is the time of the press. -/
def upReports (a b : Args w) (ts : BitVec w) (c : Nat) : Event × Event :=
  let late (start : BitVec w) : Event :=
    if isStrictlyExpired start b.timestamp b.click then .release
    else if isStrictlyExpired start b.timestamp b.longclick then .longclick else .nothing
  if c ≤ 6 then (.release, .nothing)
  else if c = 7 then (late ts, if late ts = .nothing then .release else .nothing)
  else if c ≤ 9 then (late a.timestamp, if late a.timestamp = .nothing then .release else .nothing)
  else if c = 10 then (late a.timestamp, .release)
  else (.nothing, .release)

/-- **C251.** A key that was pressed is let go, the others are in rest, and both calls are given a bitmap of no key: what each reports, for every
point after the loop. After the last one the handler finds no key. -/
theorem C251_exact (a b : Args w) (c : Nat) (hc : c ≤ 11) (pre post rest : List (Key w)) (k t : Key w) (ht : t.bitvalue = 0)
    (hpre : ∀ x ∈ pre, x.bitvalue ≠ 0 ∧ Idle x) (hpost : ∀ x ∈ post, x.bitvalue ≠ 0 ∧ Idle x) (hk : k.bitvalue ≠ 0)
    (hd : ∀ x ∈ pre ++ k :: post, x.bitvalue ≠ a.bitvalue ∧ x.bitvalue ≠ b.bitvalue) (ho : k.oldvalue = true) (hl : k.lastevent = .press) :
    ∃ tbl', routineN (once (.inr c) b) (pre ++ k :: (post ++ t :: rest)) a =
      .ok (tbl', (k.code, (upReports a b k.timeState c).2), [(if c = 11 then 0 else k.code, (upReports a b k.timeState c).1)]) := by
  have hnz : ∀ x ∈ pre ++ k :: post, x.bitvalue ≠ 0 := by
    intro x hx
    simp only [List.mem_append, List.mem_cons] at hx
    rcases hx with h | rfl | h
    · exact (hpre x h).1
    · exact hk
    · exact (hpost x h).1
  have hkd := hd k (by simp)
  rw [routineN_found a b c _ (pre ++ k :: post) pre (post ++ t :: rest) { k with value := false } ⟨hnz, t, rest, ht, by simp⟩
    (scan_up _ _ _ _ hpre hk (fun x hx => (hd x (by simp [hx])).1) hkd.1 (Or.inl ho))]
  have hH : ∀ k' : Key w, k'.bitvalue = k.bitvalue → k'.oldvalue = true ∨ k'.value = false ∧ k'.lastevent = .press →
      callN (some b) (pre ++ k' :: (post ++ t :: rest)) =
      .ok (pre ++ (process b { k' with value := false }).1 :: (post ++ t :: rest), [(k'.code, (process b { k' with value := false }).2)]) := by
    intro k' h h'
    rw [callN, routine, scan_up _ _ _ _ hpre (h ▸ hk) (fun x hx => (hd x (by simp [hx])).2) (h ▸ hkd.2) h', Res.ok_bind]
    simp only [rd_mid, wr_mid, Res.ok_bind, Res.pure_eq]
  have hR : ∀ k' : Key w, k'.bitvalue = k.bitvalue → Idle k' →
      callN (some b) (pre ++ k' :: (post ++ t :: rest)) = .ok (pre ++ k' :: (post ++ t :: rest), [(0, .nothing)]) := by
    intro k' h h'
    have := scan_rest b.bitvalue (pre ++ k' :: post) rest t ht (by
      intro x hx
      simp only [List.mem_append, List.mem_cons] at hx
      rcases hx with hx | rfl | hx
      · exact hpre x hx
      · exact ⟨h ▸ hk, h'⟩
      · exact hpost x hx) (by
      intro x hx
      simp only [List.mem_append, List.mem_cons] at hx
      rcases hx with hx | rfl | hx
      · exact (hd x (by simp [hx])).2
      · exact h ▸ hkd.2
      · exact (hd x (by simp [hx])).2)
    simp only [List.append_assoc, List.cons_append] at this
    rw [callN, routine, this]
    rfl
  have hN : ∀ tbl : List (Key w), callN none tbl = .ok (tbl, []) := fun _ => rfl
  obtain ⟨bv, cd, ts, tp, v, o, ig, le⟩ := k
  simp only at ho hl hH hR
  subst ho hl
  have : c = 0 ∨ c = 1 ∨ c = 2 ∨ c = 3 ∨ c = 4 ∨ c = 5 ∨ c = 6 ∨ c = 7 ∨ c = 8 ∨ c = 9 ∨ c = 10 ∨ c = 11 := by omega
  rcases this with rfl | rfl | rfl | rfl | rfl | rfl | rfl | rfl | rfl | rfl | rfl | rfl
  · simp [processP, steadyP, releaseP, longclickP, longpressP, pressingP, execN, hN, hH, rd_mid, wr_mid, process, upReports]
  · simp [processP, changedP, steadyP, releaseP, longclickP, longpressP, pressingP, execN, hN, hH, rd_mid, wr_mid, process, upReports]
  · simp [processP, changedP, execN, hN, hH, rd_mid, wr_mid, process, upReports]
  · simp [processP, changedP, execN, hN, hH, rd_mid, wr_mid, process, upReports]
  · simp [processP, changedP, execN, hN, hH, rd_mid, wr_mid, process, upReports]
  · simp [processP, changedP, execN, hN, hH, rd_mid, wr_mid, process, upReports]
  · simp [processP, changedP, execN, hN, hH, rd_mid, wr_mid, process, upReports]
  · cases h1 : isStrictlyExpired ts b.timestamp b.click <;> cases h2 : isStrictlyExpired ts b.timestamp b.longclick <;>
      simp [processP, changedP, execN, hN, hH, rd_mid, wr_mid, process, upReports, h1, h2]
  · cases h1 : isStrictlyExpired a.timestamp b.timestamp b.click <;> cases h2 : isStrictlyExpired a.timestamp b.timestamp b.longclick <;>
      simp [processP, changedP, execN, hN, hH, rd_mid, wr_mid, process, upReports, h1, h2]
  · cases h1 : isStrictlyExpired a.timestamp b.timestamp b.click <;> cases h2 : isStrictlyExpired a.timestamp b.timestamp b.longclick <;>
      simp [processP, changedP, execN, hN, hH, rd_mid, wr_mid, process, upReports, h1, h2]
  · cases h1 : isStrictlyExpired a.timestamp b.timestamp b.click <;> cases h2 : isStrictlyExpired a.timestamp b.timestamp b.longclick <;>
      simp [processP, changedP, execN, hN, hH, rd_mid, wr_mid, process, upReports, h1, h2]
  · have hR' := hR ⟨bv, cd, a.timestamp, tp, false, false, false, .release⟩ rfl ⟨rfl, Or.inr rfl⟩
    simp [processP, changedP, execN, hN, hR', rd_mid, wr_mid, upReports]

/-- **C251** (partial), a key let go. Exactly one of the two calls reports the release, up to the store of `oldvalue`, and afterwards if the
handler's timestamp is not later than those before by more than the times. Missing: the rest, where LONGCLICK may replace the release or
both report it. For a handler in the loop see `C251_loop_partial`. -/
theorem C251_partial (a b : Args w) (c : Nat) (hc : c ≤ 11) (pre post rest : List (Key w)) (k t : Key w) (ht : t.bitvalue = 0)
    (hpre : ∀ x ∈ pre, x.bitvalue ≠ 0 ∧ Idle x) (hpost : ∀ x ∈ post, x.bitvalue ≠ 0 ∧ Idle x) (hk : k.bitvalue ≠ 0)
    (hd : ∀ x ∈ pre ++ k :: post, x.bitvalue ≠ a.bitvalue ∧ x.bitvalue ≠ b.bitvalue) (ho : k.oldvalue = true) (hl : k.lastevent = .press)
    (h7 : c = 7 → isStrictlyExpired k.timeState b.timestamp b.click = true ∨ isStrictlyExpired k.timeState b.timestamp b.longclick = false)
    (h8 : 8 ≤ c ∧ c ≤ 10 → isStrictlyExpired a.timestamp b.timestamp b.click = false ∧ isStrictlyExpired a.timestamp b.timestamp b.longclick = false) :
    ∃ tbl' e i e', routineN (once (.inr c) b) (pre ++ k :: (post ++ t :: rest)) a = .ok (tbl', (k.code, e), [(i, e')]) ∧
      (e = .release ∧ e' = .nothing ∨ e = .nothing ∧ e' = .release ∧ i = k.code) := by
  obtain ⟨tbl', h⟩ := C251_exact a b c hc pre post rest k t ht hpre hpost hk hd ho hl
  refine ⟨tbl', _, _, _, h, ?_⟩
  have : c ≤ 6 ∨ c = 7 ∨ (c = 8 ∨ c = 9) ∨ c = 10 ∨ c = 11 := by omega
  rcases this with h | rfl | h | rfl | rfl
  · right
    simp [upReports, h]
    omega
  · cases h1 : isStrictlyExpired k.timeState b.timestamp b.click
    · have h2 := (h7 rfl).resolve_left (by simp [h1])
      simp [upReports, h1, h2]
    · simp [upReports, h1]
  · obtain ⟨h1, h2⟩ := h8 (by omega)
    rcases h with rfl | rfl <;> simp [upReports, h1, h2]
  · obtain ⟨h1, h2⟩ := h8 (by omega)
    simp [upReports, h1, h2]
  · simp [upReports]

/-- **C251** (what is false). Just before KEY_RELEASE is stored, with a handler later than the call by more than `click`: both report the release. -/
theorem C251_wrong (a b : Args w) (pre post rest : List (Key w)) (k t : Key w) (ht : t.bitvalue = 0)
    (hpre : ∀ x ∈ pre, x.bitvalue ≠ 0 ∧ Idle x) (hpost : ∀ x ∈ post, x.bitvalue ≠ 0 ∧ Idle x) (hk : k.bitvalue ≠ 0)
    (hd : ∀ x ∈ pre ++ k :: post, x.bitvalue ≠ a.bitvalue ∧ x.bitvalue ≠ b.bitvalue) (ho : k.oldvalue = true) (hl : k.lastevent = .press)
    (hx : isStrictlyExpired a.timestamp b.timestamp b.click = true) :
    ∃ tbl', routineN (once (.inr 10) b) (pre ++ k :: (post ++ t :: rest)) a = .ok (tbl', (k.code, .release), [(k.code, .release)]) := by
  obtain ⟨tbl', h⟩ := C251_exact a b 10 (by omega) pre post rest k t ht hpre hpost hk hd ho hl
  exact ⟨tbl', by simpa [upReports, hx] using h⟩

/-- Key 2, pressed at 7. -/
def downKey : Key 8 := ⟨2, 12, 7, 0, true, true, false, .press⟩

-- Before the store of `oldvalue`, before that of the time with a handler after `click`, and before the last store with a short `click`.
example : (do
    let (_, r) ← routineN (once (.inr 6) ⟨10, 20, 5, 9, 0⟩) [upKey 1 11, downKey, upKey 0 0] ⟨10, 20, 5, 9, 0⟩
    pure r) = .ok ((12, .nothing), [(12, .release)]) := by decide +kernel

example : (do
    let (_, r) ← routineN (once (.inr 7) ⟨10, 20, 5, 18, 0⟩) [upKey 1 11, downKey, upKey 0 0] ⟨10, 20, 5, 17, 0⟩
    pure r) = .ok ((12, .nothing), [(12, .release)]) := by decide +kernel

example : (do
    let (_, r) ← routineN (once (.inr 8) ⟨10, 20, 5, 9, 0⟩) [upKey 1 11, downKey, upKey 0 0] ⟨10, 20, 5, 9, 0⟩
    pure r) = .ok ((12, .release), [(12, .nothing)]) := by decide +kernel

example : (do
    let (_, r) ← routineN (once (.inr 10) ⟨0, 20, 5, 10, 0⟩) [upKey 1 11, downKey, upKey 0 0] ⟨0, 20, 5, 9, 0⟩
    pure r) = .ok ((12, .release), [(12, .release)]) := by decide +kernel

end Gel.Keypad
