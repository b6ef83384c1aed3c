import Verif.Keypad.Isr

/-!
# Keypad: `keypad_reset_keys` called by an interrupt handler during `keypad_routine` (C212)

The call as a program of single loads from and stores to the keys, in the order in which C evaluates them, with a handler before each that
runs to its end. Point `inl n` is before access `n` of the loop (keypad.c:16-38), `inr n` before access `n` of the rest (keypad.c:43-82);
each part has a last point after its last access. A compiler may keep what it has loaded, which gives fewer points.
`bitvalue` and `code` are never stored to, so only the load of `bitvalue` that ends the loop is an access of its own.
-/
namespace Gel.Keypad

open Time Spec

/-- A program of loads and stores: `ld i` loads a member of key `i` (the rest of the program picks it), `st i` stores to one. -/
inductive Prog (w : Nat) (α : Type) where
  | ret (a : α)
  | ld (i : Nat) (next : Key w → Prog w α)
  | st (i : Nat) (f : Key w → Key w) (next : Prog w α)
  | fail

/-- Runs a program with a handler before each access and after the last: the table, the result and the number of accesses. -/
def exec (H : Nat → List (Key w) → List (Key w)) : Nat → Prog w α → List (Key w) → Res (List (Key w) × α × Nat)
  | n, .ret a, tbl => .ok (H n tbl, a, n)
  | n, .ld i next, tbl => do
    let tbl := H n tbl
    let k ← rd tbl i
    exec H (n + 1) (next k) tbl
  | n, .st i f next, tbl => do
    let tbl := H n tbl
    let k ← rd tbl i
    let tbl ← wr tbl i (f k)
    exec H (n + 1) next tbl
  | _, .fail, _ => .diverge

/-- The loop of `keypad_routine`, keypad.c:16-38, from key `i` on: `found` (`none` for -1). -/
def loopP (bv : BitVec w) : Nat → Nat → Option Nat → Prog w (Option Nat)
  | 0, _, _ => .fail
  | fuel + 1, i, found =>
    .ld i fun k => if k.bitvalue = 0 then .ret found
      else if k.bitvalue = bv then .st i (fun k => { k with value := true }) (loopP bv fuel (i + 1) (some i))
      else .ld i fun k => if k.oldvalue then .st i (fun k => { k with value := false }) (.ret (some i))
      else .ld i fun k => if k.lastevent ≠ .release then
          .ld i fun k => if k.lastevent ≠ .nothing then .ret (some i) else loopP bv fuel (i + 1) found
        else loopP bv fuel (i + 1) found

/-- keypad.c:69-82, from `else if (key->_state.value != key->_state.oldvalue)` on. -/
def changedP (a : Args w) (i : Nat) : Prog w Event :=
  .ld i fun k0 => .ld i fun k1 => if k0.value ≠ k1.oldvalue then
      .st i (fun k => { k with ignore := false }) <| .ld i fun k2 => .st i (fun k => { k with oldvalue := k2.value }) <|
      .st i (fun k => { k with timeState := a.timestamp }) <|
      .ld i fun k3 => if k3.value then .st i (fun k => { k with lastevent := .press }) (.ret .press)
        else .ld i fun k4 => if k4.lastevent = .press then .st i (fun k => { k with lastevent := .release }) (.ret .release)
        else .ret .nothing
    else .ret .nothing

/-- keypad.c:64-68, KEY_PRESSING. -/
def pressingP (a : Args w) (i : Nat) : Prog w Event :=
  .ld i fun k => if k.lastevent = .click then .ld i fun k => if k.value = true then
      .ld i fun k => if isStrictlyExpired k.timePeriod a.timestamp a.period then
        .st i (fun k => { k with timePeriod := a.timestamp }) (.ret .pressing)
      else .ret .nothing
    else .ret .nothing
  else .ret .nothing

/-- keypad.c:60-63, KEY_LONGPRESS. -/
def longpressP (a : Args w) (i : Nat) : Prog w Event :=
  .ld i fun k => if k.lastevent = .longclick then .ld i fun k => if k.value = true then
      .ld i fun k => if isStrictlyExpired k.timePeriod a.timestamp a.period then
        .st i (fun k => { k with timePeriod := a.timestamp }) (.ret .longpress)
      else pressingP a i
    else pressingP a i
  else pressingP a i

/-- keypad.c:54-59, KEY_LONGCLICK. -/
def longclickP (a : Args w) (i : Nat) : Prog w Event :=
  let due := .ld i fun k => if isStrictlyExpired k.timeState a.timestamp a.longclick then
      .st i (fun k => { k with timeState := a.timestamp }) <| .st i (fun k => { k with timePeriod := a.timestamp }) <|
      .st i (fun k => { k with lastevent := .longclick }) (.ret .longclick)
    else longpressP a i
  .ld i fun k => if k.lastevent = .click then due
    else .ld i fun k => if k.lastevent = .press then due else longpressP a i

/-- keypad.c:50-53, KEY_RELEASE. -/
def releaseP (a : Args w) (i : Nat) : Prog w Event :=
  let due := .ld i fun k => if k.value = false then
      .ld i fun k => if isStrictlyExpired k.timeState a.timestamp a.click then
        .st i (fun k => { k with lastevent := .release }) (.ret .release)
      else longclickP a i
    else longclickP a i
  .ld i fun k => if k.lastevent ≠ .release then due
    else .ld i fun k => if k.lastevent = .nothing then due else longclickP a i

/-- keypad.c:46-68, the key as it was. -/
def steadyP (a : Args w) (i : Nat) : Prog w Event :=
  .ld i fun k => if k.lastevent = .press then .ld i fun k => if k.value = true then
      .ld i fun k => if isStrictlyExpired k.timeState a.timestamp a.click then
        .st i (fun k => { k with timePeriod := a.timestamp }) <| .st i (fun k => { k with lastevent := .click }) (.ret .click)
      else releaseP a i
    else releaseP a i
  else releaseP a i

/-- `keypad_routine` with the key it found, keypad.c:43-82. -/
def processP (a : Args w) (i : Nat) : Prog w Event :=
  .ld i fun k0 => .ld i fun k1 => if k0.value = k1.oldvalue then
      .ld i fun k => if k.ignore = false then steadyP a i else changedP a i
    else changedP a i

/-- `keypad_routine`, keypad.c:10-85. A table without an end is run off before the bound is reached. -/
def routineI (H : Nat ⊕ Nat → List (Key w) → List (Key w)) (tbl : List (Key w)) (a : Args w) : Res (List (Key w) × Int × Event) := do
  let (tbl, found, _) ← exec (fun n => H (.inl n)) 0 (loopP a.bitvalue (tbl.length + 1) 0 none) tbl
  match found with
  | none => pure (tbl, 0, .nothing)
  | some i => do
    let k ← rd tbl i
    let (tbl, e, _) ← exec (fun n => H (.inr n)) 0 (processP a i) tbl
    pure (tbl, k.code, e)

/-- The handler does `f` at point `p` and nothing at the others. -/
def doneAt (p : Nat ⊕ Nat) (f : List (Key w) → List (Key w)) : Nat ⊕ Nat → List (Key w) → List (Key w) :=
  fun q tbl => if q = p then f tbl else tbl

/-- The handler's `keypad_reset_keys`. -/
def resetH (tbl : List (Key w)) : List (Key w) :=
  match reset tbl with
  | .ok tbl => tbl
  | _ => tbl

/-- The number of accesses in the loop of a call without handlers. -/
def loopLen (tbl : List (Key w)) (a : Args w) : Nat :=
  match exec (fun _ tbl => tbl) 0 (loopP a.bitvalue (tbl.length + 1) 0 none) tbl with
  | .ok (_, _, n) => n
  | _ => 0

/-! ## The found key -/

/-- A program on one key, with a reset before access `c` (`none`: it is over). -/
def tick : Option Nat → Key w → Option Nat × Key w
  | none, k => (none, k)
  | some 0, k => (none, fresh k)
  | some (n + 1), k => (some n, k)

def execK : Option Nat → Prog w α → Key w → Option (Option Nat × Key w × α)
  | c, .ret a, k => some ((tick c k).1, (tick c k).2, a)
  | c, .ld _ next, k => execK (tick c k).1 (next (tick c k).2) (tick c k).2
  | c, .st _ f next, k => execK (tick c k).1 next (f (tick c k).2)
  | _, .fail, _ => none

/-- A program that uses key `i` only. -/
inductive At {w : Nat} {α : Type} (i : Nat) : Prog w α → Prop
  | ret (a) : At i (.ret a)
  | ld {next} : (∀ k, At i (next k)) → At i (.ld i next)
  | st {f next} (h : At i next) (hf : ∀ k : Key w, (f k).bitvalue = k.bitvalue := by intro _; rfl) : At i (.st i f next)

theorem at_pressing (a : Args w) (i : Nat) : At i (pressingP a i) := by
  refine .ld fun _ => ?_
  split
  · refine .ld fun _ => ?_
    split
    · refine .ld fun _ => ?_
      split
      · exact .st (.ret _)
      · exact .ret _
    · exact .ret _
  · exact .ret _

theorem at_longpress (a : Args w) (i : Nat) : At i (longpressP a i) := by
  refine .ld fun _ => ?_
  split
  · refine .ld fun _ => ?_
    split
    · refine .ld fun _ => ?_
      split
      · exact .st (.ret _)
      · exact at_pressing a i
    · exact at_pressing a i
  · exact at_pressing a i

theorem at_longclick (a : Args w) (i : Nat) : At i (longclickP a i) := by
  have hdue : At i (.ld i fun k => if isStrictlyExpired k.timeState a.timestamp a.longclick then
      .st i (fun k => { k with timeState := a.timestamp }) <| .st i (fun k => { k with timePeriod := a.timestamp }) <|
      .st i (fun k => { k with lastevent := .longclick }) (.ret .longclick)
    else longpressP a i) := by
    refine .ld fun _ => ?_
    split
    · exact .st (.st (.st (.ret _)))
    · exact at_longpress a i
  refine .ld fun _ => ?_
  split
  · exact hdue
  · refine .ld fun _ => ?_
    split
    · exact hdue
    · exact at_longpress a i

theorem at_release (a : Args w) (i : Nat) : At i (releaseP a i) := by
  have hdue : At i (.ld i fun k => if k.value = false then
      .ld i fun k => if isStrictlyExpired k.timeState a.timestamp a.click then
        .st i (fun k => { k with lastevent := .release }) (.ret .release)
      else longclickP a i
    else longclickP a i) := by
    refine .ld fun _ => ?_
    split
    · refine .ld fun _ => ?_
      split
      · exact .st (.ret _)
      · exact at_longclick a i
    · exact at_longclick a i
  refine .ld fun _ => ?_
  split
  · exact hdue
  · refine .ld fun _ => ?_
    split
    · exact hdue
    · exact at_longclick a i

theorem at_changed (a : Args w) (i : Nat) : At i (changedP a i) := by
  refine .ld fun _ => .ld fun _ => ?_
  split
  · refine .st (.ld fun _ => .st (.st (.ld fun _ => ?_)))
    split
    · exact .st (.ret _)
    · refine .ld fun _ => ?_
      split
      · exact .st (.ret _)
      · exact .ret _
  · exact .ret _

theorem at_steady (a : Args w) (i : Nat) : At i (steadyP a i) := by
  refine .ld fun _ => ?_
  split
  · refine .ld fun _ => ?_
    split
    · refine .ld fun _ => ?_
      split
      · exact .st (.st (.ret _))
      · exact at_release a i
    · exact at_release a i
  · exact at_release a i

theorem at_process (a : Args w) (i : Nat) : At i (processP a i) := by
  refine .ld fun _ => .ld fun _ => ?_
  split
  · refine .ld fun _ => ?_
    split
    · exact at_steady a i
    · exact at_changed a i
  · exact at_changed a i

theorem rd_mid (pre tl : List (Key w)) (k : Key w) : rd (pre ++ k :: tl) pre.length = .ok k := by
  rw [rd, List.getElem?_append_right (by simp)]
  simp

theorem wr_mid (pre tl : List (Key w)) (k k' : Key w) : wr (pre ++ k :: tl) pre.length k' = .ok (pre ++ k' :: tl) := by
  rw [wr, if_pos (by simp), List.set_append_right _ _ (by simp)]
  simp

/-- A program on one key without handlers. -/
theorem exec_none {H : Nat → List (Key w) → List (Key w)} {pre tl : List (Key w)} {p : Prog w α} (hp : At pre.length p) :
    ∀ n k, (∀ m tbl, n ≤ m → H m tbl = tbl) → ∃ k' r m, execK none p k = some (none, k', r) ∧
      exec H n p (pre ++ k :: tl) = .ok (pre ++ k' :: tl, r, m) := by
  induction hp with
  | ret a => intro n k h; exact ⟨k, a, n, rfl, by rw [exec, h n _ (Nat.le_refl _)]⟩
  | @ld next _ ih =>
    intro n k h
    obtain ⟨k', r, m, e1, e2⟩ := ih k (n + 1) k fun m tbl hm => h m tbl (by omega)
    refine ⟨k', r, m, e1, ?_⟩
    rw [exec]
    simp only [h n _ (Nat.le_refl _), rd_mid, Res.ok_bind]
    exact e2
  | @st f next _ _ ih =>
    intro n k h
    obtain ⟨k', r, m, e1, e2⟩ := ih (n + 1) (f k) fun m tbl hm => h m tbl (by omega)
    refine ⟨k', r, m, e1, ?_⟩
    rw [exec]
    simp only [h n _ (Nat.le_refl _), rd_mid, wr_mid, Res.ok_bind]
    exact e2

theorem resetH_eq {ks rest : List (Key w)} {t : Key w} (ht : t.bitvalue = 0) (hk : ∀ k ∈ ks, k.bitvalue ≠ 0) :
    resetH (ks ++ t :: rest) = ks.map fresh ++ t :: rest := by
  rw [resetH, reset_eq t rest ht ks hk]

theorem resetH_mid {pre post rest : List (Key w)} {k t : Key w} (ht : t.bitvalue = 0) (hk : ∀ x ∈ pre ++ k :: post, x.bitvalue ≠ 0) :
    resetH (pre ++ k :: (post ++ t :: rest)) = pre.map fresh ++ fresh k :: (post.map fresh ++ t :: rest) := by
  have := resetH_eq (rest := rest) ht hk
  simpa using this

/-- A program on one key with a reset before access `n + d`. -/
theorem exec_once {H : Nat → List (Key w) → List (Key w)} {pre post rest : List (Key w)} {t : Key w} {p : Prog w α} (hp : At pre.length p)
    (ht : t.bitvalue = 0) (hpre : ∀ x ∈ pre, x.bitvalue ≠ 0) (hpost : ∀ x ∈ post, x.bitvalue ≠ 0) (hst : ∀ q tbl, H q tbl = if q = c then resetH tbl else tbl) :
    ∀ n d k, n + d = c → k.bitvalue ≠ 0 → (∀ d' k' r, execK (some d) p k = some (d', k', r) → d' = none →
      ∃ m, exec H n p (pre ++ k :: (post ++ t :: rest)) = .ok (pre.map fresh ++ k' :: (post.map fresh ++ t :: rest), r, m)) := by
  have hreset : ∀ k : Key w, k.bitvalue ≠ 0 → resetH (pre ++ k :: (post ++ t :: rest)) = pre.map fresh ++ fresh k :: (post.map fresh ++ t :: rest) := by
    intro k hk
    refine resetH_mid ht fun x hx => ?_
    rcases List.mem_append.1 hx with h | h
    · exact hpre x h
    · rcases List.mem_cons.1 h with rfl | h
      · exact hk
      · exact hpost x h
  have hfired : ∀ {p : Prog w α}, At pre.length p → ∀ n k, c < n → ∃ k' r m, execK none p k = some (none, k', r) ∧
      exec H n p (pre.map fresh ++ k :: (post.map fresh ++ t :: rest)) = .ok (pre.map fresh ++ k' :: (post.map fresh ++ t :: rest), r, m) := by
    intro p hp n k hn
    exact exec_none (pre := pre.map fresh) (by simpa using hp) n k fun m tbl hm => by rw [hst, if_neg (by omega)]
  have hlen : (pre.map fresh).length = pre.length := by simp
  induction hp with
  | ret a =>
    intro n d k hn hk d' k' r e hd
    cases d with
    | zero =>
      simp only [execK, tick, Option.some.injEq, Prod.mk.injEq] at e
      obtain ⟨_, rfl, rfl⟩ := e
      exact ⟨n, by rw [exec, hst, if_pos (by omega), hreset k hk]⟩
    | succ d =>
      simp only [execK, tick, Option.some.injEq, Prod.mk.injEq] at e
      obtain ⟨h, _⟩ := e
      rw [hd] at h
      cases h
  | @ld next hnext ih =>
    intro n d k hn hk d' k' r e hd
    rw [exec]
    cases d with
    | zero =>
      obtain ⟨k2, r2, m, e1, e2⟩ := hfired (hnext (fresh k)) (n + 1) (fresh k) (by omega)
      simp only [execK, tick] at e
      rw [e1] at e
      simp only [Option.some.injEq, Prod.mk.injEq] at e
      obtain ⟨_, rfl, rfl⟩ := e
      refine ⟨m, ?_⟩
      simp only [hst, if_pos (show n = c by omega), hreset k hk]
      rw [← hlen, rd_mid, Res.ok_bind]
      exact e2
    | succ d =>
      simp only [execK, tick] at e
      simp only [hst, if_neg (show ¬ n = c by omega), rd_mid, Res.ok_bind]
      exact ih k (n + 1) d k (by omega) hk d' k' r e hd
  | @st f next hnext hf ih =>
    intro n d k hn hk d' k' r e hd
    rw [exec]
    cases d with
    | zero =>
      obtain ⟨k2, r2, m, e1, e2⟩ := hfired hnext (n + 1) (f (fresh k)) (by omega)
      simp only [execK, tick] at e
      rw [e1] at e
      simp only [Option.some.injEq, Prod.mk.injEq] at e
      obtain ⟨_, rfl, rfl⟩ := e
      refine ⟨m, ?_⟩
      simp only [hst, if_pos (show n = c by omega), hreset k hk]
      rw [← hlen, rd_mid, Res.ok_bind, wr_mid, Res.ok_bind]
      exact e2
    | succ d =>
      simp only [execK, tick] at e
      simp only [hst, if_neg (show ¬ n = c by omega), rd_mid, wr_mid, Res.ok_bind]
      exact ih (n + 1) d (f k) (by omega) (by rw [hf]; exact hk) d' k' r e hd

theorem pressing_quiet (a : Args w) (i : Nat) (k : Key w) : execK none (pressingP a i) k = some (none,
    if k.lastevent = .click ∧ k.value = true ∧ isStrictlyExpired k.timePeriod a.timestamp a.period then
      ({ k with timePeriod := a.timestamp }, .pressing)
    else (k, .nothing)) := by
  simp only [pressingP, execK, tick]
  by_cases h1 : k.lastevent = .click <;> by_cases h2 : k.value = true <;>
    by_cases h3 : isStrictlyExpired k.timePeriod a.timestamp a.period = true <;> simp [h1, h2, h3, execK, tick]

theorem longpress_quiet (a : Args w) (i : Nat) (k : Key w) : execK none (longpressP a i) k =
    if k.lastevent = .longclick ∧ k.value = true ∧ isStrictlyExpired k.timePeriod a.timestamp a.period then
      some (none, { k with timePeriod := a.timestamp }, .longpress)
    else execK none (pressingP a i) k := by
  simp only [longpressP, execK, tick]
  by_cases h1 : k.lastevent = .longclick <;> by_cases h2 : k.value = true <;>
    by_cases h3 : isStrictlyExpired k.timePeriod a.timestamp a.period = true <;> simp [h1, h2, h3, execK, tick]

theorem longclick_quiet (a : Args w) (i : Nat) (k : Key w) : execK none (longclickP a i) k =
    if (k.lastevent = .click ∨ k.lastevent = .press) ∧ isStrictlyExpired k.timeState a.timestamp a.longclick then
      some (none, { k with timeState := a.timestamp, timePeriod := a.timestamp, lastevent := .longclick }, .longclick)
    else execK none (longpressP a i) k := by
  simp only [longclickP, execK, tick]
  by_cases h1 : k.lastevent = .click <;> by_cases h2 : k.lastevent = .press <;>
    by_cases h3 : isStrictlyExpired k.timeState a.timestamp a.longclick = true <;> simp [h1, h2, h3, execK, tick]

theorem release_quiet (a : Args w) (i : Nat) (k : Key w) : execK none (releaseP a i) k =
    if (k.lastevent ≠ .release ∨ k.lastevent = .nothing) ∧ k.value = false ∧ isStrictlyExpired k.timeState a.timestamp a.click then
      some (none, { k with lastevent := .release }, .release)
    else execK none (longclickP a i) k := by
  simp only [releaseP, execK, tick]
  by_cases h1 : k.lastevent = .release <;> by_cases h2 : k.value = false <;>
    by_cases h3 : isStrictlyExpired k.timeState a.timestamp a.click = true <;> simp [h1, h2, h3, execK, tick]

theorem steady_quiet (a : Args w) (i : Nat) (k : Key w) : execK none (steadyP a i) k =
    if k.lastevent = .press ∧ k.value = true ∧ isStrictlyExpired k.timeState a.timestamp a.click then
      some (none, { k with timePeriod := a.timestamp, lastevent := .click }, .click)
    else execK none (releaseP a i) k := by
  simp only [steadyP, execK, tick]
  by_cases h1 : k.lastevent = .press <;> by_cases h2 : k.value = true <;>
    by_cases h3 : isStrictlyExpired k.timeState a.timestamp a.click = true <;> simp [h1, h2, h3, execK, tick]

/-- Without handlers the found key is handled as in the first model. -/
theorem processP_quiet (a : Args w) (i : Nat) (k : Key w) : execK none (processP a i) k = some (none, process a k) := by
  simp only [processP, execK, tick]
  by_cases h1 : k.value = k.oldvalue
  · by_cases h2 : k.ignore = false
    · simp only [h1, h2, if_true, execK, tick, steady_quiet, release_quiet, longclick_quiet, longpress_quiet, pressing_quiet, process, true_and]
      simp only [apply_ite some, apply_ite (Prod.mk (none : Option Nat))]
    · simp [h1, h2, execK, tick, changedP, process]
  · simp only [h1, if_false, changedP, execK, tick, process, false_and, ne_eq, not_false_eq_true, if_true]
    by_cases h2 : k.value = true
    · simp [h2, execK, tick]
    · by_cases h3 : k.lastevent = .press <;> simp [h2, h3, execK, tick]

/-! ## The loop -/

theorem exec_congr {H H' : Nat → List (Key w) → List (Key w)} (p : Prog w α) : ∀ n tbl, (∀ m tbl, n ≤ m → H m tbl = H' m tbl) →
    exec H n p tbl = exec H' n p tbl := by
  induction p with
  | ret a => intro n tbl h; rw [exec, exec, h n _ (Nat.le_refl _)]
  | ld i next ih =>
    intro n tbl h
    rw [exec, exec, h n _ (Nat.le_refl _)]
    cases hr : rd (H' n tbl) i with
    | ok k => exact ih k (n + 1) _ fun m tbl hm => h m tbl (by omega)
    | ub => rfl
    | abort => rfl
    | diverge => rfl
  | st i f next ih =>
    intro n tbl h
    rw [exec, exec, h n _ (Nat.le_refl _)]
    cases hr : rd (H' n tbl) i with
    | ok k =>
      simp only [Res.ok_bind]
      cases hw : wr (H' n tbl) i (f k) with
      | ok tbl' => exact ih (n + 1) _ fun m tbl hm => h m tbl (by omega)
      | ub => rfl
      | abort => rfl
      | diverge => rfl
    | ub => rfl
    | abort => rfl
    | diverge => rfl
  | fail => intro n tbl h; rfl

/-- Nothing happens at a point. -/
abbrev quiet : Nat → List (Key w) → List (Key w) := fun _ tbl => tbl

/-- The handler comes now. -/
theorem exec_fire {f : List (Key w) → List (Key w)} (p : Prog w α) (c : Nat) (tbl : List (Key w)) :
    exec (fun n tbl => if n = c then f tbl else tbl) c p tbl = exec quiet c p (f tbl) := by
  cases p with
  | ret a => simp [exec]
  | ld i next =>
    rw [exec, exec]
    simp only [if_true]
    cases hr : rd (f tbl) i with
    | ok k => exact exec_congr _ _ _ fun m tbl hm => if_neg (by omega)
    | ub => rfl
    | abort => rfl
    | diverge => rfl
  | st i g next =>
    rw [exec, exec]
    simp only [if_true]
    cases hr : rd (f tbl) i with
    | ok k =>
      simp only [Res.ok_bind]
      cases hw : wr (f tbl) i (g k) with
      | ok tbl' => exact exec_congr _ _ _ fun m tbl hm => if_neg (by omega)
      | ub => rfl
      | abort => rfl
      | diverge => rfl
    | ub => rfl
    | abort => rfl
    | diverge => rfl
  | fail => rfl

theorem exec_ld (H : Nat → List (Key w) → List (Key w)) (pre tl : List (Key w)) (k : Key w) (next : Key w → Prog w α) (n : Nat)
    (h : H n (pre ++ k :: tl) = pre ++ k :: tl) :
    exec H n (.ld pre.length next) (pre ++ k :: tl) = exec H (n + 1) (next k) (pre ++ k :: tl) := by
  rw [exec]
  simp only [h, rd_mid, Res.ok_bind]

theorem exec_st (H : Nat → List (Key w) → List (Key w)) (pre tl : List (Key w)) (k : Key w) (f : Key w → Key w) (next : Prog w α) (n : Nat)
    (h : H n (pre ++ k :: tl) = pre ++ k :: tl) :
    exec H n (.st pre.length f next) (pre ++ k :: tl) = exec H (n + 1) next (pre ++ f k :: tl) := by
  rw [exec]
  simp only [h, rd_mid, wr_mid, Res.ok_bind]

/-- The loop without handlers is that of the first model. -/
theorem loop_quiet {t : Key w} {rest : List (Key w)} (bv : BitVec w) (ht : t.bitvalue = 0) :
    ∀ (ks dn : List (Key w)) (fuel : Nat) (found : Option Nat) (n : Nat), (∀ k ∈ ks, k.bitvalue ≠ 0) → ks.length < fuel →
      ∃ l g m, scan bv (ks ++ t :: rest) dn.length found = .ok (l, g) ∧
        exec quiet n (loopP bv fuel dn.length found) (dn ++ (ks ++ t :: rest)) = .ok (dn ++ l, g, m) := by
  intro ks
  induction ks with
  | nil =>
    intro dn fuel found n _ hf
    obtain ⟨fuel, rfl⟩ : ∃ f, fuel = f + 1 := ⟨fuel - 1, by simp at hf; omega⟩
    refine ⟨t :: rest, found, n + 1, by simp [scan, ht], ?_⟩
    rw [loopP, List.nil_append, exec_ld _ _ _ _ _ _ rfl, if_pos ht, exec]
  | cons k ks ih =>
    intro dn fuel found n hk hf
    obtain ⟨fuel, rfl⟩ : ∃ f, fuel = f + 1 := ⟨fuel - 1, by simp at hf; omega⟩
    have hks : ∀ x ∈ ks, x.bitvalue ≠ 0 := fun x hx => hk x (by simp [hx])
    have hf' : ks.length < fuel := by simp at hf; omega
    rw [loopP, List.cons_append, exec_ld _ _ _ _ _ _ rfl, if_neg (hk k (by simp)), scan, if_neg (hk k (by simp))]
    by_cases hb : k.bitvalue = bv
    · obtain ⟨l, g, m, e1, e2⟩ := ih (dn ++ [{ k with value := true }]) fuel (some dn.length) (n + 2) hks hf'
      simp only [List.length_append, List.length_cons, List.length_nil, Nat.zero_add] at e1 e2
      refine ⟨{ k with value := true } :: l, g, m, by rw [if_pos hb, e1]; rfl, ?_⟩
      rw [if_pos hb, exec_st _ _ _ _ _ _ _ rfl]
      simpa using e2
    · rw [if_neg hb, if_neg hb, exec_ld _ _ _ _ _ _ rfl]
      by_cases ho : k.oldvalue = true
      · refine ⟨{ k with value := false } :: (ks ++ t :: rest), some dn.length, n + 3, by rw [if_pos ho], ?_⟩
        rw [if_pos ho, exec_st _ _ _ _ _ _ _ rfl, exec]
      · obtain ⟨l, g, m, e1, e2⟩ := ih (dn ++ [k]) fuel found (n + 3) hks hf'
        obtain ⟨l', g', m', e1', e2'⟩ := ih (dn ++ [k]) fuel found (n + 4) hks hf'
        simp only [List.length_append, List.length_cons, List.length_nil, Nat.zero_add, List.append_assoc, List.cons_append, List.nil_append] at e1 e2 e1' e2'
        rw [if_neg ho, if_neg ho, exec_ld _ _ _ _ _ _ rfl]
        by_cases h1 : k.lastevent = .release
        · rw [if_neg (show ¬ (k.lastevent ≠ .release) from fun h => h h1), if_neg (show ¬ (k.lastevent ≠ .release ∧ _) from fun h => h.1 h1)]
          exact ⟨k :: l, g, m, by rw [e1]; rfl, e2⟩
        · rw [if_pos h1, exec_ld _ _ _ _ _ _ rfl]
          by_cases h2 : k.lastevent = .nothing
          · rw [if_neg (show ¬ (k.lastevent ≠ .nothing) from fun h => h h2), if_neg (show ¬ (_ ∧ k.lastevent ≠ .nothing) from fun h => h.2 h2)]
            exact ⟨k :: l', g', m', by rw [e1']; rfl, e2'⟩
          · refine ⟨k :: (ks ++ t :: rest), some dn.length, n + 4, by rw [if_pos ⟨h1, h2⟩], ?_⟩
            rw [if_pos h2, exec]

/-- What the call does after the loop, without handlers. -/
theorem finish {tbl : List (Key w)} (a : Args w) (i : Nat) :
    (do let k ← rd tbl i
        let (tbl, e, _) ← exec quiet 0 (processP a i) tbl
        pure (tbl, k.code, e) : Res (List (Key w) × Int × Event)) =
    (do let k ← rd tbl i
        let (k', e) := process a k
        let keys ← wr tbl i k'
        pure (keys, k.code, e)) := by
  by_cases hi : i < tbl.length
  · have hs : tbl = tbl.take i ++ tbl[i] :: tbl.drop (i + 1) := by rw [← List.drop_eq_getElem_cons hi, List.take_append_drop]
    have hl : i = (tbl.take i).length := by rw [List.length_take]; omega
    generalize tbl[i] = k at hs
    generalize tbl.take i = pre at hs hl
    generalize tbl.drop (i + 1) = tl at hs
    subst hs hl
    obtain ⟨k', r, m, e1, e2⟩ := exec_none (H := quiet) (pre := pre) (tl := tl) (at_process a pre.length) 0 k fun _ _ _ => rfl
    rw [processP_quiet] at e1
    have e1' : process a k = (k', r) := by simpa using e1
    simp only [rd_mid, Res.ok_bind, e2, wr_mid, e1']
  · have : rd tbl i = .ub := by rw [rd, List.getElem?_eq_none (by omega)]
    simp only [this, Res.ub_bind]

/-- **C212.** Without a handler this is the call of the first model (of a table with an end). -/
theorem C212_quiet (tbl ks : List (Key w)) (a : Args w) (h : Table tbl ks) : routineI (fun _ tbl => tbl) tbl a = routine tbl a := by
  obtain ⟨hk, t, rest, ht, rfl⟩ := h
  obtain ⟨l, g, m, e1, e2⟩ := loop_quiet (rest := rest) a.bitvalue ht ks [] ((ks ++ t :: rest).length + 1) none 0 hk (by simp; omega)
  simp only [List.length_nil, List.nil_append] at e1 e2
  rw [routineI, e2, Res.ok_bind, routine, e1, Res.ok_bind]
  cases g with
  | none => rfl
  | some i => exact finish a i

/-! ## A reset in the loop -/

theorem quiet_ld {i : Nat} {pre tl : List (Key w)} {k : Key w} {next : Key w → Prog w α} {n : Nat} (hi : i = pre.length) :
    exec quiet n (.ld i next) (pre ++ k :: tl) = exec quiet (n + 1) (next k) (pre ++ k :: tl) := by
  subst hi
  exact exec_ld _ _ _ _ _ _ rfl

theorem quiet_st {i : Nat} {pre tl : List (Key w)} {k : Key w} {f : Key w → Key w} {next : Prog w α} {n : Nat} (hi : i = pre.length) :
    exec quiet n (.st i f next) (pre ++ k :: tl) = exec quiet (n + 1) next (pre ++ f k :: tl) := by
  subst hi
  exact exec_st _ _ _ _ _ _ _ rfl

/-- `found`, after some keys have been looked at. -/
def Found (bv : BitVec w) (dn : List (Key w)) (found : Option Nat) : Prop :=
  found = none ∧ (∀ x ∈ dn, x.bitvalue ≠ bv) ∨ ∃ j, found = some j ∧ j < dn.length ∧ ∃ x ∈ dn, x.bitvalue = bv

/-- The loop as if it had begun after the reset, or all keys reset and one found. -/
def Done (bv : BitVec w) (ks : List (Key w)) (t : Key w) (rest T : List (Key w)) (g : Option Nat) : Prop :=
  scan bv (ks.map fresh ++ t :: rest) 0 none = .ok (T, g) ∨ T = ks.map fresh ++ t :: rest ∧ ∃ j, j < ks.length ∧ g = some j

theorem fire_scan {bv : BitVec w} {us vs rest : List (Key w)} {t : Key w} {found : Option Nat} (ht : t.bitvalue = 0)
    (hnz : ∀ x ∈ us ++ vs, x.bitvalue ≠ 0) (hnd : ((us ++ vs).map (·.bitvalue)).Nodup) (hinv : Found bv us found) {l : List (Key w)} {g : Option Nat}
    (h : scan bv (vs.map fresh ++ t :: rest) us.length found = .ok (l, g)) : Done bv (us ++ vs) t rest (us.map fresh ++ l) g := by
  rcases hinv with ⟨rfl, hu⟩ | ⟨j, rfl, hj, x, hx, hxb⟩
  · left
    have hu' : ∀ k ∈ us.map fresh, k.bitvalue ≠ bv := by
      intro x hx
      obtain ⟨y, hy, rfl⟩ := List.mem_map.1 hx
      exact hu y hy
    obtain ⟨g', _, h2, h3⟩ := scan_pass bv (vs.map fresh ++ t :: rest) (us.map fresh) 0 none (fresh_idle fun x hx => hnz x (by simp [hx]))
    rw [h2 hu', touch_none _ _ hu'] at h3
    simp only [List.length_map, Nat.zero_add, h, Res.ok_bind] at h3
    rw [List.map_append, List.append_assoc, h3]
    rfl
  · right
    have hv' : ∀ k ∈ vs.map fresh, k.bitvalue ≠ bv := by
      intro y hy
      obtain ⟨z, hz, rfl⟩ := List.mem_map.1 hy
      intro hzb
      rw [List.map_append, List.nodup_append] at hnd
      exact hnd.2.2 x.bitvalue (List.mem_map_of_mem hx) z.bitvalue (List.mem_map_of_mem hz) (hxb.trans (by exact hzb.symm))
    obtain ⟨g', _, h2, h3⟩ := scan_pass bv (t :: rest) (vs.map fresh) us.length (some j) (fresh_idle fun x hx => hnz x (by simp [hx]))
    rw [h2 hv', touch_none _ _ hv', scan, if_pos ht, h] at h3
    injection h3 with h3
    injection h3 with h3 h4
    refine ⟨?_, j, by simp; omega, h4⟩
    rw [h3]
    simp

/-- The loop after the reset. -/
theorem loop_fired {bv : BitVec w} {us vs rest : List (Key w)} {t : Key w} {found : Option Nat} (ht : t.bitvalue = 0)
    (hnz : ∀ x ∈ us ++ vs, x.bitvalue ≠ 0) (hnd : ((us ++ vs).map (·.bitvalue)).Nodup) (hinv : Found bv us found) (fuel n : Nat)
    (hf : vs.length < fuel) : ∃ T g m, exec quiet n (loopP bv fuel us.length found) (us.map fresh ++ (vs.map fresh ++ t :: rest)) = .ok (T, g, m) ∧
      Done bv (us ++ vs) t rest T g := by
  obtain ⟨l, g, m, e1, e2⟩ := loop_quiet (rest := rest) bv ht (vs.map fresh) (us.map fresh) fuel found n (fun x hx => by
    obtain ⟨y, hy, rfl⟩ := List.mem_map.1 hx
    exact hnz y (by simp [hy])) (by simpa using hf)
  simp only [List.length_map] at e1 e2
  exact ⟨_, g, m, e2, fire_scan ht hnz hnd hinv e1⟩

theorem done_congr {bv : BitVec w} {ks ks' : List (Key w)} {t : Key w} {rest T : List (Key w)} {g : Option Nat} (h : ks.map fresh = ks'.map fresh)
    (hd : Done bv ks t rest T g) : Done bv ks' t rest T g := by
  have hl : ks.length = ks'.length := by
    have := congrArg List.length h
    simpa using this
  unfold Done at *
  rw [← h, ← hl]
  exact hd

/-- A reset in the loop. -/
theorem loop_once {bv : BitVec w} {t : Key w} {rest : List (Key w)} {c : Nat} (ht : t.bitvalue = 0) :
    ∀ (ks dn : List (Key w)) (fuel : Nat) (found : Option Nat) (n : Nat), n ≤ c → (∀ k ∈ dn ++ ks, k.bitvalue ≠ 0) →
      ((dn ++ ks).map (·.bitvalue)).Nodup → Found bv dn found → ks.length < fuel →
      ∀ T0 g0 m, exec quiet n (loopP bv fuel dn.length found) (dn ++ (ks ++ t :: rest)) = .ok (T0, g0, m) → c ≤ m →
      ∃ T g m', exec (fun n tbl => if n = c then resetH tbl else tbl) n (loopP bv fuel dn.length found) (dn ++ (ks ++ t :: rest)) = .ok (T, g, m') ∧
        Done bv (dn ++ ks) t rest T g := by
  intro ks
  induction ks with
  | nil =>
    intro dn fuel found n hn hnz hnd hinv hf T0 g0 m hq hm
    have hR : resetH (dn ++ ([] ++ t :: rest)) = dn.map fresh ++ (([] : List (Key w)).map fresh ++ t :: rest) := by
      simpa using resetH_eq (rest := rest) ht (ks := dn) (by simpa using hnz)
    by_cases h0 : n = c
    · subst h0
      rw [exec_fire, hR]
      exact loop_fired ht hnz hnd hinv fuel n hf
    · obtain ⟨fuel, rfl⟩ : ∃ f, fuel = f + 1 := ⟨fuel - 1, by simp at hf; omega⟩
      obtain ⟨T, g, m1, e1, e2⟩ := loop_fired (rest := rest) ht hnz hnd hinv (fuel + 1) n hf
      simp only [List.map_nil, List.nil_append] at e1 hR hq ⊢
      rw [loopP, quiet_ld (by simp), if_pos ht] at e1
      rw [loopP, quiet_ld rfl, if_pos ht, exec] at hq
      injection hq with hq
      have hc : n + 1 = c := by
        have : m = n + 1 := by
          injection hq with _ hq
          injection hq with _ hq
          exact hq.symm
        omega
      subst hc
      rw [loopP, exec_ld _ _ _ _ _ _ (if_neg h0), if_pos ht, exec_fire, hR]
      exact ⟨T, g, m1, e1, e2⟩
  | cons k ks ih =>
    intro dn fuel found n hn hnz hnd hinv hf T0 g0 m hq hm
    have hk : k.bitvalue ≠ 0 := hnz k (by simp)
    have hR : ∀ k' : Key w, fresh k' = fresh k →
        resetH (dn ++ k' :: (ks ++ t :: rest)) = dn.map fresh ++ (fresh k :: (ks.map fresh ++ t :: rest)) := by
      intro k' hk'
      have hkb : k'.bitvalue = k.bitvalue := by
        have := congrArg Key.bitvalue hk'
        exact this
      rw [resetH_mid ht, hk']
      intro x hx
      rcases List.mem_append.1 hx with h | h
      · exact hnz x (by simp [h])
      · rcases List.mem_cons.1 h with rfl | h
        · rw [hkb]; exact hk
        · exact hnz x (by simp [h])
    obtain ⟨fuel, rfl⟩ : ∃ f, fuel = f + 1 := ⟨fuel - 1, by simp at hf; omega⟩
    have hf' : ks.length < fuel := by simp at hf; omega
    have hfired := fun n => loop_fired (rest := rest) ht hnz hnd hinv (fuel + 1) n hf
    simp only [List.map_cons, List.cons_append] at hfired hq ⊢
    by_cases h0 : n = c
    · subst h0
      rw [exec_fire, hR k rfl]
      exact hfired n
    rw [loopP, quiet_ld rfl, if_neg hk] at hq
    rw [loopP, exec_ld _ _ _ _ _ _ (if_neg h0), if_neg hk]
    have hlen : dn.length = (dn.map (fresh (w := w))).length := by simp
    -- the next key, with found
    have hnext : ∀ (k' : Key w) (f' : Option Nat) (n' : Nat), fresh k' = fresh k → n' ≤ c → Found bv (dn ++ [k']) f' →
        ∀ T0 g0 m, exec quiet n' (loopP bv fuel (dn.length + 1) f') (dn ++ k' :: (ks ++ t :: rest)) = .ok (T0, g0, m) → c ≤ m →
        ∃ T g m', exec (fun n tbl => if n = c then resetH tbl else tbl) n' (loopP bv fuel (dn.length + 1) f') (dn ++ k' :: (ks ++ t :: rest)) = .ok (T, g, m') ∧
          Done bv (dn ++ k :: ks) t rest T g := by
      intro k' f' n' hk' hn' hinv' T0 g0 m hq hm
      have hkb : k'.bitvalue = k.bitvalue := by
        have := congrArg Key.bitvalue hk'
        exact this
      have := ih (dn ++ [k']) fuel f' n' hn' (by
        intro x hx
        simp only [List.append_assoc, List.cons_append, List.nil_append, List.mem_append, List.mem_cons] at hx
        rcases hx with h | rfl | h
        · exact hnz x (by simp [h])
        · rw [hkb]; exact hk
        · exact hnz x (by simp [h])) (by simpa [hkb] using hnd) hinv' hf' T0 g0 m (by simpa using hq) hm
      obtain ⟨T, g, m', e, hd⟩ := this
      refine ⟨T, g, m', by simpa using e, done_congr ?_ hd⟩
      simp [hk']
    by_cases hb : k.bitvalue = bv
    · rw [if_pos hb] at hq ⊢
      by_cases h1 : n + 1 = c
      · subst h1
        rw [exec_fire, hR k rfl]
        obtain ⟨T, g, m1, e1, e2⟩ := hfired n
        rw [loopP, quiet_ld hlen, if_neg (show ¬ (fresh k).bitvalue = 0 from hk), if_pos (show (fresh k).bitvalue = bv from hb)] at e1
        exact ⟨T, g, m1, e1, e2⟩
      · rw [quiet_st rfl] at hq
        rw [exec_st _ _ _ _ _ _ _ (if_neg h1)]
        exact hnext _ _ _ rfl (by omega) (Or.inr ⟨dn.length, rfl, by simp, { k with value := true }, by simp, hb⟩) _ _ _ hq hm
    · rw [if_neg hb] at hq ⊢
      have hinv' : Found bv (dn ++ [k]) found := by
        rcases hinv with ⟨h1, h2⟩ | ⟨j, h1, h2, x, h3, h4⟩
        · refine Or.inl ⟨h1, fun x hx => ?_⟩
          rcases List.mem_append.1 hx with h | h
          · exact h2 x h
          · rw [List.mem_singleton.1 h]; exact hb
        · exact Or.inr ⟨j, h1, by simp; omega, x, by simp [h3], h4⟩
      by_cases h1 : n + 1 = c
      · subst h1
        rw [exec_fire, hR k rfl]
        obtain ⟨T, g, m1, e1, e2⟩ := hfired n
        rw [loopP, quiet_ld hlen, if_neg (show ¬ (fresh k).bitvalue = 0 from hk), if_neg (show ¬ (fresh k).bitvalue = bv from hb)] at e1
        exact ⟨T, g, m1, e1, e2⟩
      rw [quiet_ld rfl] at hq
      rw [exec_ld _ _ _ _ _ _ (if_neg h1)]
      by_cases ho : k.oldvalue = true
      · rw [if_pos ho] at hq ⊢
        have hall : Done bv (dn ++ k :: ks) t rest (dn.map fresh ++ (fresh k :: (ks.map fresh ++ t :: rest))) (some dn.length) :=
          Or.inr ⟨by simp, dn.length, by simp, rfl⟩
        by_cases h2 : n + 1 + 1 = c
        · subst h2
          rw [exec_fire, hR k rfl, quiet_st hlen, exec]
          exact ⟨_, _, _, rfl, hall⟩
        · rw [quiet_st rfl, exec] at hq
          rw [exec_st _ _ _ _ _ _ _ (if_neg h2)]
          have hc : n + 1 + 1 + 1 = c := by
            injection hq with hq
            injection hq with _ hq
            injection hq with _ hq
            omega
          subst hc
          rw [exec_fire, hR { k with value := false } rfl, exec]
          exact ⟨_, _, _, rfl, hall⟩
      · rw [if_neg ho] at hq ⊢
        by_cases h2 : n + 1 + 1 = c
        · subst h2
          rw [exec_fire, hR k rfl]
          obtain ⟨T, g, m1, e1, e2⟩ := hfired n
          rw [loopP, quiet_ld hlen, if_neg (show ¬ (fresh k).bitvalue = 0 from hk), if_neg (show ¬ (fresh k).bitvalue = bv from hb), quiet_ld hlen, if_neg (by simp [fresh])] at e1
          exact ⟨T, g, m1, e1, e2⟩
        rw [quiet_ld rfl] at hq
        rw [exec_ld _ _ _ _ _ _ (if_neg h2)]
        by_cases hr : k.lastevent = .release
        · rw [if_neg (show ¬ (k.lastevent ≠ .release) from fun h => h hr)] at hq ⊢
          exact hnext k found _ rfl (by omega) hinv' _ _ _ hq hm
        · rw [if_pos hr] at hq ⊢
          by_cases h3 : n + 1 + 1 + 1 = c
          · subst h3
            rw [exec_fire, hR k rfl]
            obtain ⟨T, g, m1, e1, e2⟩ := hfired n
            rw [loopP, quiet_ld hlen, if_neg (show ¬ (fresh k).bitvalue = 0 from hk), if_neg (show ¬ (fresh k).bitvalue = bv from hb), quiet_ld hlen, if_neg (by simp [fresh]), quiet_ld hlen, if_pos (by simp [fresh])] at e1
            exact ⟨T, g, m1, e1, e2⟩
          rw [quiet_ld rfl] at hq
          rw [exec_ld _ _ _ _ _ _ (if_neg h3)]
          by_cases hno : k.lastevent = .nothing
          · rw [if_neg (show ¬ (k.lastevent ≠ .nothing) from fun h => h hno)] at hq ⊢
            exact hnext k found _ rfl (by omega) hinv' _ _ _ hq hm
          · rw [if_pos hno] at hq ⊢
            rw [exec] at hq
            have hc : n + 1 + 1 + 1 + 1 = c := by
              injection hq with hq
              injection hq with _ hq
              injection hq with _ hq
              omega
            subst hc
            rw [exec_fire, hR k rfl, exec]
            exact ⟨_, _, _, rfl, Or.inr ⟨by simp, dn.length, by simp, rfl⟩⟩

/-- **C212** (partial). A reset while the call is in its loop: the call reports and leaves what it would if it came after the reset, or it
reports nothing and the keys are reset. Missing: the points after the loop, see `C212_rest_partial` and `C212_change_partial`; at some of them
it is false. -/
theorem C212_loop_partial (tbl ks : List (Key w)) (a : Args w) (c : Nat) (h : Table tbl ks) (hnd : (ks.map (·.bitvalue)).Nodup)
    (hc : c ≤ loopLen tbl a) : ∃ r, routineI (doneAt (.inl c) resetH) tbl a = .ok r ∧
      ((do let tbl ← reset tbl; routine tbl a) = .ok r ∨ reset tbl = .ok r.1 ∧ r.2.2 = .nothing) := by
  obtain ⟨hk, t, rest, ht, rfl⟩ := h
  obtain ⟨l0, g0, m0, _, q2⟩ := loop_quiet (rest := rest) a.bitvalue ht ks [] ((ks ++ t :: rest).length + 1) none 0 hk (by simp; omega)
  simp only [List.length_nil, List.nil_append] at q2
  have hm : loopLen (ks ++ t :: rest) a = m0 := by
    rw [loopLen]
    have : exec (fun _ tbl => tbl) 0 (loopP a.bitvalue ((ks ++ t :: rest).length + 1) 0 none) (ks ++ t :: rest) = .ok (l0, g0, m0) := q2
    rw [this]
  obtain ⟨T, g, m', e, hd⟩ := loop_once (bv := a.bitvalue) (rest := rest) (c := c) ht ks [] ((ks ++ t :: rest).length + 1) none 0 (Nat.zero_le _)
    (by simpa using hk) (by simpa using hnd) (Or.inl ⟨rfl, by simp⟩) (by simp; omega) l0 g0 m0 q2 (by omega)
  simp only [List.length_nil, List.nil_append] at e hd
  have e' : exec (fun n => doneAt (.inl c) resetH (.inl n)) 0 (loopP a.bitvalue ((ks ++ t :: rest).length + 1) 0 none) (ks ++ t :: rest) = .ok (T, g, m') := by
    rw [← e]
    refine exec_congr _ _ _ fun m tbl _ => ?_
    simp only [doneAt, Sum.inl.injEq]
  have hq : (fun n => doneAt (w := w) (.inl c) resetH (.inr n)) = quiet := by
    funext n tbl
    simp [doneAt]
  rw [routineI, e', Res.ok_bind, reset_eq t rest ht ks hk, Res.ok_bind, hq]
  rcases hd with hd | ⟨rfl, j, hj, rfl⟩
  · obtain ⟨ks', c', e', h1, _⟩ := routine_eq a (ks.map fresh) t rest ht (fun x hx => (fresh_idle hk x hx).1)
    have hr := h1
    rw [routine, hd, Res.ok_bind] at hr
    rw [h1]
    cases g with
    | none => exact ⟨_, rfl, Or.inl hr.symm⟩
    | some i =>
      simp only [finish]
      exact ⟨_, hr, Or.inl rfl⟩
  · simp only [finish]
    have hrd : rd (ks.map fresh ++ t :: rest) j = .ok (fresh ks[j]) := by
      rw [rd, List.getElem?_append_left (by simpa using hj), List.getElem?_map, List.getElem?_eq_getElem hj]
      rfl
    have hpr : process a (fresh ks[j]) = (fresh ks[j], .nothing) := by simp [process, fresh]
    have hwr : wr (ks.map fresh ++ t :: rest) j (fresh ks[j]) = .ok (ks.map fresh ++ t :: rest) := by
      rw [wr, if_pos (by simp; omega)]
      congr 1
      apply List.ext_getElem?
      intro m
      by_cases hm : m = j
      · subst hm
        rw [List.getElem?_set_self (by simp; omega), List.getElem?_append_left (by simpa using hj), List.getElem?_map, List.getElem?_eq_getElem hj]
        rfl
      · rw [List.getElem?_set_ne (fun h => hm h.symm)]
    rw [hrd, Res.ok_bind, hpr]
    simp only [hwr, Res.ok_bind]
    exact ⟨_, rfl, Or.inr ⟨rfl, rfl⟩⟩

/-! ## A reset after the loop -/

/-- **C212.** A reset at a point after the loop, with the key that was found: what is reported and left. -/
theorem C212_exact (tbl ks pre post rest : List (Key w)) (k k' t : Key w) (a : Args w) (c : Nat) (e : Event) (h : Table tbl ks)
    (hs : scan a.bitvalue tbl 0 none = .ok (pre ++ k :: (post ++ t :: rest), some pre.length)) (ht : t.bitvalue = 0)
    (hnz : ∀ x ∈ pre ++ k :: post, x.bitvalue ≠ 0) (he : execK (some c) (processP a pre.length) k = some (none, k', e)) :
    routineI (doneAt (.inr c) resetH) tbl a = .ok (pre.map fresh ++ k' :: (post.map fresh ++ t :: rest), k.code, e) := by
  obtain ⟨hk, t', rest', ht', rfl⟩ := h
  obtain ⟨l, g, m, e1, e2⟩ := loop_quiet (rest := rest') a.bitvalue ht' ks [] ((ks ++ t' :: rest').length + 1) none 0 hk (by simp; omega)
  simp only [List.length_nil, List.nil_append] at e1 e2
  rw [hs] at e1
  injection e1 with e1
  injection e1 with h1 h2
  subst h1 h2
  have hq : (fun n => doneAt (w := w) (.inr c) resetH (.inl n)) = quiet := by
    funext n tbl
    simp [doneAt]
  obtain ⟨m', e3⟩ := exec_once (H := fun n => doneAt (w := w) (.inr c) resetH (.inr n)) (c := c) (post := post) (rest := rest) (at_process a pre.length) ht
    (fun x hx => hnz x (by simp [hx])) (fun x hx => hnz x (by simp [hx])) (fun q tbl => by simp only [doneAt, Sum.inr.injEq]) 0 c k (by omega)
    (hnz k (by simp)) none k' e he rfl
  rw [routineI, hq, e2, Res.ok_bind]
  simp only [rd_mid, Res.ok_bind, e3]
  rfl

/-- The first three loads. -/
theorem early_key (a : Args w) (i : Nat) (k : Key w) (c : Nat) (hc : c ≤ 2) : execK (some c) (processP a i) k = some (none, fresh k, .nothing) := by
  have : c = 0 ∨ c = 1 ∨ c = 2 := by omega
  rcases this with rfl | rfl | rfl
  · simp [processP, changedP, execK, tick, fresh]
  · cases hv : k.value <;> simp [processP, changedP, execK, tick, fresh, hv]
  · by_cases h : k.value = k.oldvalue <;> simp [processP, changedP, execK, tick, fresh, h]

/-- **C212** (partial). A reset after the loop, up to the load of `ignore`: the call reports nothing and the keys are reset. -/
theorem C212_rest_partial (tbl ks pre post rest : List (Key w)) (k t : Key w) (a : Args w) (c : Nat) (h : Table tbl ks)
    (hs : scan a.bitvalue tbl 0 none = .ok (pre ++ k :: (post ++ t :: rest), some pre.length)) (ht : t.bitvalue = 0)
    (hnz : ∀ x ∈ pre ++ k :: post, x.bitvalue ≠ 0) (hc : c ≤ 2) :
    ∃ tbl', routineI (doneAt (.inr c) resetH) tbl a = .ok (tbl', k.code, .nothing) ∧ reset (pre ++ k :: (post ++ t :: rest)) = .ok tbl' := by
  refine ⟨_, C212_exact tbl ks pre post rest k _ t a c _ h hs ht hnz (early_key a _ k c hc), ?_⟩
  have := reset_eq t rest ht (pre ++ k :: post) hnz
  simpa using this

/-- A key that changed. -/
theorem change_key (a : Args w) (i : Nat) (k : Key w) (c : Nat) (hv : k.value ≠ k.oldvalue)
    (hc : c ≤ 10 ∨ c = 11 ∧ k.value = false ∧ k.lastevent = .press) (h6 : k.value = true → c ≠ 6 ∧ c ≠ 9) :
    ∃ k' e, execK (some c) (processP a i) k = some (none, k', e) ∧ Rel k k' .idle ∧ (e = .nothing ∨ e = (process a k).2) := by
  by_cases h2 : c ≤ 2
  · exact ⟨_, _, early_key a i k c h2, ⟨rfl, rfl, rfl, Or.inl rfl⟩, Or.inl rfl⟩
  obtain ⟨bv, cd, ts, tp, v, o, ig, le⟩ := k
  have : c = 3 ∨ c = 4 ∨ c = 5 ∨ c = 6 ∨ c = 7 ∨ c = 8 ∨ c = 9 ∨ c = 10 ∨ c = 11 := by omega
  cases v
  · cases o
    · exact absurd rfl hv
    · by_cases hp : le = .press
      · subst hp
        rcases this with rfl | rfl | rfl | rfl | rfl | rfl | rfl | rfl | rfl <;>
          simp [processP, changedP, execK, tick, fresh, Rel, process]
      · rcases this with rfl | rfl | rfl | rfl | rfl | rfl | rfl | rfl | rfl <;>
          simp [processP, changedP, execK, tick, fresh, Rel, process, hp] at hc ⊢
  · cases o
    · have h6' := h6 rfl
      rcases this with rfl | rfl | rfl | rfl | rfl | rfl | rfl | rfl | rfl <;>
        simp [processP, changedP, execK, tick, fresh, Rel, process] at hc h6' ⊢
    · exact absurd rfl hv

theorem ref_idle {ks sts : List (Key w)} (hl : sts.length = ks.length)
    (h : ∀ j (h : j < ks.length) (h' : j < sts.length), Rel ks[j] sts[j] .idle) (t : Nat) :
    Ref ks sts (0, .idle) (fun j => (sts[j]?.map (·.value)).getD false) t := by
  refine ⟨hl, fun h => absurd rfl h, ?_, ?_, ?_⟩
  · intro j h1 h2
    have := h j h1 h2
    split <;> exact this
  · intro j h'
    rw [List.getElem?_eq_getElem h']
    rfl
  · intro r hr
    simp [Phase.refs] at hr

/-- **C212** (partial). A reset while the call deals with a key that was pressed or let go, but for a pressed key not before the stores of
`oldvalue` (access 6) and `lastevent` (access 9): the call reports nothing or what it does without the reset, and all calls afterwards report
exactly what is due (C120) from no key down. Missing: those two points, for which it is false (`C212_lost_wrong`, `C212_stuck_wrong`), and the
handling of a key that did not change, for which it is false (`C212_release_wrong`, `C212_click_wrong`). -/
theorem C212_change_partial (tbl ks pre post rest : List (Key w)) (k t : Key w) (a : Args w) (c : Nat) (h : Table tbl ks)
    (hs : scan a.bitvalue tbl 0 none = .ok (pre ++ k :: (post ++ t :: rest), some pre.length)) (ht : t.bitvalue = 0)
    (hnz : ∀ x ∈ pre ++ k :: post, x.bitvalue ≠ 0) (hnd : ((pre ++ k :: post).map (·.bitvalue)).Nodup) (hv : k.value ≠ k.oldvalue)
    (hc : c ≤ 10 ∨ c = 11 ∧ k.value = false ∧ k.lastevent = .press) (h6 : k.value = true → c ≠ 6 ∧ c ≠ 9) :
    ∃ tbl' e, routineI (doneAt (.inr c) resetH) tbl a = .ok (tbl', k.code, e) ∧
      (e = .nothing ∨ ∃ tbl'', routine tbl a = .ok (tbl'', k.code, e)) ∧
      ∀ as τ, CallsFrom (pre ++ k :: post) as τ (0, .idle) → ∀ n, ∃ c, outFrom tbl' as n =
          .ok (c, ((padFrom ((pre ++ k :: post).map (·.bitvalue)) as τ (0, .idle) n).call ((pre ++ k :: post).map (·.bitvalue)) as τ n).2.2) ∧
        (((padFrom ((pre ++ k :: post).map (·.bitvalue)) as τ (0, .idle) n).call ((pre ++ k :: post).map (·.bitvalue)) as τ n).2.2 ≠ .nothing →
          (pre ++ k :: post)[((padFrom ((pre ++ k :: post).map (·.bitvalue)) as τ (0, .idle) n).call
            ((pre ++ k :: post).map (·.bitvalue)) as τ n).2.1]?.map (·.code) = some c) := by
  obtain ⟨k', e, e1, hR, he⟩ := change_key a pre.length k c hv hc h6
  refine ⟨_, e, C212_exact tbl ks pre post rest k k' t a c e h hs ht hnz e1, ?_, ?_⟩
  · rcases he with he | he
    · exact Or.inl he
    · right
      refine ⟨pre ++ (process a k).1 :: (post ++ t :: rest), ?_⟩
      rw [routine, hs, Res.ok_bind]
      simp only [rd_mid, Res.ok_bind, wr_mid, he]
      rfl
  · intro as τ hcf n
    have hl : (pre.map fresh ++ k' :: post.map fresh).length = (pre ++ k :: post).length := by simp
    have := ref_from (rest := rest) ht hnz hnd (ref_idle hl (fun j h1 h2 => by
      rcases Nat.lt_trichotomy j pre.length with hj | hj | hj
      · rw [List.getElem_append_left hj, List.getElem_append_left (by simpa using hj), List.getElem_map]
        exact ⟨rfl, rfl, rfl, Or.inl rfl⟩
      · subst hj
        rw [List.getElem_append_right (by simp), List.getElem_append_right (by simp)]
        simpa using hR
      · obtain ⟨q, rfl⟩ : ∃ q, j = pre.length + 1 + q := ⟨j - pre.length - 1, by omega⟩
        rw [List.getElem_append_right (by omega), List.getElem_append_right (by simp; omega)]
        simp only [List.length_map, show pre.length + 1 + q - pre.length = q + 1 by omega, List.getElem_cons_succ, List.getElem_map]
        exact ⟨rfl, rfl, rfl, Or.inl rfl⟩) (τ 0)) hcf n
    simpa using this

/-- The loop with one key pressed and the others in rest. -/
theorem scan_match (bv : BitVec w) (pre post rest : List (Key w)) (k t : Key w) (ht : t.bitvalue = 0)
    (hpre : ∀ x ∈ pre, x.bitvalue ≠ 0 ∧ Idle x) (hpost : ∀ x ∈ post, x.bitvalue ≠ 0 ∧ Idle x) (hk : k.bitvalue ≠ 0) (hb : k.bitvalue = bv)
    (hd : ∀ x ∈ pre ++ post, x.bitvalue ≠ bv) :
    scan bv (pre ++ k :: (post ++ t :: rest)) 0 none = .ok (pre ++ { k with value := true } :: (post ++ t :: rest), some pre.length) := by
  have h1 : ∀ x ∈ pre, x.bitvalue ≠ bv := fun x hx => hd x (by simp [hx])
  have h2 : ∀ x ∈ post, x.bitvalue ≠ bv := fun x hx => hd x (by simp [hx])
  obtain ⟨g, _, g1, e⟩ := scan_pass bv (k :: (post ++ t :: rest)) pre 0 none hpre
  obtain ⟨g', _, g1', e'⟩ := scan_pass bv (t :: rest) post (pre.length + 1) (some pre.length) hpost
  rw [e, g1 h1, touch_none _ _ h1, Nat.zero_add, scan, if_neg hk, if_pos hb, e', g1' h2, touch_none _ _ h2, scan, if_pos ht]
  rfl

/-- **C212** (what is false). A key is pressed, and the reset comes just before the call stores KEY_PRESS: the call reports PRESS, and no call
afterwards with any other bitmap, or none, reports anything for any key. -/
theorem C212_stuck_wrong (pre post rest : List (Key w)) (k t : Key w) (a : Args w) (ht : t.bitvalue = 0)
    (hpre : ∀ x ∈ pre, x.bitvalue ≠ 0 ∧ Idle x) (hpost : ∀ x ∈ post, x.bitvalue ≠ 0 ∧ Idle x) (hk : k.bitvalue ≠ 0) (hb : k.bitvalue = a.bitvalue)
    (hd : ∀ x ∈ pre ++ post, x.bitvalue ≠ a.bitvalue) (ho : k.oldvalue = false) :
    ∃ tbl', routineI (doneAt (.inr 9) resetH) (pre ++ k :: (post ++ t :: rest)) a = .ok (tbl', k.code, .press) ∧
      ∀ as, (∀ n, (as n).bitvalue ≠ k.bitvalue) → ∀ n, outFrom tbl' as n = .ok (k.code, .nothing) := by
  have hnz : ∀ x ∈ pre ++ k :: post, x.bitvalue ≠ 0 := by
    intro x hx
    simp only [List.mem_append, List.mem_cons] at hx
    rcases hx with h | rfl | h
    · exact (hpre x h).1
    · exact hk
    · exact (hpost x h).1
  have hnz' : ∀ x ∈ pre ++ { k with value := true } :: post, x.bitvalue ≠ 0 := by
    intro x hx
    simp only [List.mem_append, List.mem_cons] at hx
    rcases hx with h | rfl | h
    · exact (hpre x h).1
    · exact hk
    · exact (hpost x h).1
  refine ⟨_, C212_exact _ (pre ++ k :: post) pre post rest { k with value := true } { fresh k with lastevent := .press } t a 9 .press
    ⟨hnz, t, rest, ht, by simp⟩ (scan_match _ pre post rest k t ht hpre hpost hk hb hd) ht hnz'
    (by simp [processP, changedP, execK, tick, fresh, ho]), ?_⟩
  exact fun as has n => stuck_calls (k := k) (k2 := { fresh k with lastevent := .press }) ht (fresh_idle fun x hx => (hpre x hx).1)
    (fresh_idle fun x hx => (hpost x hx).1) rfl rfl hk rfl rfl rfl (by simp) (by simp) as has n

/-- **C212** (what is false). CLICK is due, and the reset comes just before the call stores the time or KEY_CLICK: the call reports CLICK, and
no call afterwards with any other bitmap, or none, reports anything for any key. -/
theorem C212_click_wrong (pre post rest : List (Key w)) (k t : Key w) (a : Args w) (c : Nat) (hc : c = 6 ∨ c = 7) (ht : t.bitvalue = 0)
    (hpre : ∀ x ∈ pre, x.bitvalue ≠ 0 ∧ Idle x) (hpost : ∀ x ∈ post, x.bitvalue ≠ 0 ∧ Idle x) (hk : k.bitvalue ≠ 0) (hb : k.bitvalue = a.bitvalue)
    (hd : ∀ x ∈ pre ++ post, x.bitvalue ≠ a.bitvalue) (ho : k.oldvalue = true) (hi : k.ignore = false) (hl : k.lastevent = .press)
    (hx : isStrictlyExpired k.timeState a.timestamp a.click = true) :
    ∃ tbl', routineI (doneAt (.inr c) resetH) (pre ++ k :: (post ++ t :: rest)) a = .ok (tbl', k.code, .click) ∧
      ∀ as, (∀ n, (as n).bitvalue ≠ k.bitvalue) → ∀ n, outFrom tbl' as n = .ok (k.code, .nothing) := by
  have hnz : ∀ k' : Key w, k'.bitvalue = k.bitvalue → ∀ x ∈ pre ++ k' :: post, x.bitvalue ≠ 0 := by
    intro k' hk' x hx
    simp only [List.mem_append, List.mem_cons] at hx
    rcases hx with h | rfl | h
    · exact (hpre x h).1
    · rw [hk']; exact hk
    · exact (hpost x h).1
  obtain ⟨k2, e, s1, s2, s3, s4, s5, s6⟩ : ∃ k2, execK (some c) (processP a pre.length) { k with value := true } = some (none, k2, .click) ∧
      k2.bitvalue = k.bitvalue ∧ k2.code = k.code ∧ k2.oldvalue = false ∧ k2.value = false ∧ k2.ignore = true ∧ k2.lastevent = .click := by
    rcases hc with rfl | rfl
    · refine ⟨{ fresh k with timePeriod := a.timestamp, lastevent := .click }, ?_, rfl, rfl, rfl, rfl, rfl, rfl⟩
      simp [processP, steadyP, execK, tick, fresh, ho, hi, hl, hx]
    · refine ⟨{ fresh k with lastevent := .click }, ?_, rfl, rfl, rfl, rfl, rfl, rfl⟩
      simp [processP, steadyP, execK, tick, fresh, ho, hi, hl, hx]
  refine ⟨_, C212_exact _ (pre ++ k :: post) pre post rest { k with value := true } k2 t a c .click
    ⟨hnz k rfl, t, rest, ht, by simp⟩ (scan_match _ pre post rest k t ht hpre hpost hk hb hd) ht (hnz _ rfl) e, ?_⟩
  exact fun as has n => stuck_calls ht (fresh_idle fun x hx => (hpre x hx).1) (fresh_idle fun x hx => (hpost x hx).1) s1 s2 hk s3 s4 s5
    (by simp [s6]) (by simp [s6]) as has n

/-- **C212** (what is false). A key is pressed, and the reset comes just before the call stores `oldvalue`: neither this call nor any
afterwards reports anything while the key is held, nor the one that finds it let go. -/
theorem C212_lost_wrong (pre post rest : List (Key w)) (k t : Key w) (a : Args w) (ht : t.bitvalue = 0)
    (hpre : ∀ x ∈ pre, x.bitvalue ≠ 0 ∧ Idle x) (hpost : ∀ x ∈ post, x.bitvalue ≠ 0 ∧ Idle x) (hk : k.bitvalue ≠ 0) (hb : k.bitvalue = a.bitvalue)
    (hd : ∀ x ∈ pre ++ post, x.bitvalue ≠ a.bitvalue) (ho : k.oldvalue = false) :
    ∃ tbl', routineI (doneAt (.inr 6) resetH) (pre ++ k :: (post ++ t :: rest)) a = .ok (tbl', k.code, .nothing) ∧
      ∀ as N, (∀ n < N, (as n).bitvalue = k.bitvalue) → (∀ n < N, outFrom tbl' as n = .ok (k.code, .nothing)) ∧
        ((as N).bitvalue ≠ k.bitvalue → outFrom tbl' as N = .ok (k.code, .nothing)) := by
  have hnz : ∀ k' : Key w, k'.bitvalue = k.bitvalue → ∀ x ∈ pre ++ k' :: post, x.bitvalue ≠ 0 := by
    intro k' hk' x hx
    simp only [List.mem_append, List.mem_cons] at hx
    rcases hx with h | rfl | h
    · exact (hpre x h).1
    · rw [hk']; exact hk
    · exact (hpost x h).1
  obtain ⟨k2, hk2⟩ : ∃ k2 : Key w, k2 = { fresh k with oldvalue := true, timeState := a.timestamp } := ⟨_, rfl⟩
  have e : execK (some 6) (processP a pre.length) { k with value := true } = some (none, k2, .nothing) := by
    subst hk2
    simp [processP, changedP, execK, tick, fresh, ho]
  have hs : k2.bitvalue = k.bitvalue ∧ k2.code = k.code ∧ k2.oldvalue = true ∧ k2.ignore = true ∧ k2.lastevent = .nothing := by
    subst hk2
    exact ⟨rfl, rfl, rfl, rfl, rfl⟩
  obtain ⟨s1, s2, s3, s4, s5⟩ := hs
  clear hk2
  refine ⟨_, C212_exact _ (pre ++ k :: post) pre post rest { k with value := true } k2 t a 6 .nothing
    ⟨hnz k rfl, t, rest, ht, by simp⟩ (scan_match _ pre post rest k t ht hpre hpost hk hb hd) ht (hnz _ rfl) e, ?_⟩
  intro as N has
  have hf := fresh_idle (fun x hx => (hpre x hx).1 : ∀ x ∈ pre, x.bitvalue ≠ 0)
  have hf' := fresh_idle (fun x hx => (hpost x hx).1 : ∀ x ∈ post, x.bitvalue ≠ 0)
  have hdf : ∀ x ∈ pre.map fresh ++ post.map fresh, x.bitvalue ≠ k.bitvalue := by
    intro x hx
    rw [← List.map_append] at hx
    obtain ⟨y, hy, rfl⟩ := List.mem_map.1 hx
    rw [hb]
    exact hd y hy
  have call : ∀ n < N, ∀ v, routine (pre.map fresh ++ { k2 with value := v } :: (post.map fresh ++ t :: rest)) (as n) =
      .ok (pre.map fresh ++ { k2 with value := true } :: (post.map fresh ++ t :: rest), k.code, .nothing) := by
    intro n hn v
    have hbn := has n hn
    rw [routine_active (as n) (pre.map fresh) (post.map fresh) { k2 with value := v } t rest ht hf hf' (by exact s1 ▸ hk)
      (Or.inl ⟨s1.trans hbn.symm, fun x hx => by rw [hbn]; exact hdf x hx⟩),
      touch_none _ _ fun x hx => by rw [hbn]; exact hdf x (by simp [hx])]
    simp [one, process, s1, s2, s3, s4, hbn]
  have inv : ∀ n ≤ N, ∃ v, runFrom (pre.map fresh ++ k2 :: (post.map fresh ++ t :: rest)) as n =
      .ok (pre.map fresh ++ { k2 with value := v } :: (post.map fresh ++ t :: rest)) := by
    intro n
    induction n with
    | zero => intro _; exact ⟨k2.value, rfl⟩
    | succ n ih =>
      intro hn
      obtain ⟨v, e⟩ := ih (by omega)
      refine ⟨true, ?_⟩
      rw [runFrom, e, Res.ok_bind, call n (by omega) v]
      rfl
  constructor
  · intro n hn
    obtain ⟨v, e⟩ := inv n (by omega)
    rw [outFrom, e, Res.ok_bind, call n hn v]
    rfl
  · intro hne
    obtain ⟨v, e⟩ := inv N (Nat.le_refl _)
    rw [outFrom, e, Res.ok_bind, routine_active (as N) (pre.map fresh) (post.map fresh) { k2 with value := v } t rest ht hf hf' (by exact s1 ▸ hk)
      (Or.inr ⟨fun h => hne (h.symm.trans s1), by simp [Idle, s3]⟩)]
    have hne' : ¬ k.bitvalue = (as N).bitvalue := fun h => hne h.symm
    simp [one, process, s1, s2, s3, s4, s5, hne']

/-- **C212** (what is false). A key is held, whatever is due, and the reset comes after the load of `ignore`: if the time of the call is later than
`click` the call reports RELEASE, which it does neither before the reset (the key is down) nor after it. -/
theorem C212_release_wrong (pre post rest : List (Key w)) (k t : Key w) (a : Args w) (ht : t.bitvalue = 0)
    (hpre : ∀ x ∈ pre, x.bitvalue ≠ 0 ∧ Idle x) (hpost : ∀ x ∈ post, x.bitvalue ≠ 0 ∧ Idle x) (hk : k.bitvalue ≠ 0) (hb : k.bitvalue = a.bitvalue)
    (hd : ∀ x ∈ pre ++ post, x.bitvalue ≠ a.bitvalue) (ho : k.oldvalue = true) (hi : k.ignore = false)
    (hx : isStrictlyExpired 0 a.timestamp a.click = true) :
    (∃ tbl', routineI (doneAt (.inr 3) resetH) (pre ++ k :: (post ++ t :: rest)) a = .ok (tbl', k.code, .release)) ∧
    (∃ tbl' e, routine (pre ++ k :: (post ++ t :: rest)) a = .ok (tbl', k.code, e) ∧ e ≠ .release) ∧
    ∃ tbl', (do let tbl ← reset (pre ++ k :: (post ++ t :: rest)); routine tbl a) = .ok (tbl', k.code, .press) := by
  have hnz : ∀ k' : Key w, k'.bitvalue = k.bitvalue → ∀ x ∈ pre ++ k' :: post, x.bitvalue ≠ 0 := by
    intro k' hk' x hx
    simp only [List.mem_append, List.mem_cons] at hx
    rcases hx with h | rfl | h
    · exact (hpre x h).1
    · rw [hk']; exact hk
    · exact (hpost x h).1
  refine ⟨⟨_, C212_exact _ (pre ++ k :: post) pre post rest { k with value := true } { fresh k with lastevent := .release } t a 3 .release
    ⟨hnz k rfl, t, rest, ht, by simp⟩ (scan_match _ pre post rest k t ht hpre hpost hk hb hd) ht (hnz _ rfl) ?_⟩, ?_, ?_⟩
  · have hx' : isStrictlyExpired (0#w) a.timestamp a.click = true := hx
    simp [processP, steadyP, releaseP, execK, tick, fresh, ho, hi, hx']
  · rw [routine, scan_match _ pre post rest k t ht hpre hpost hk hb hd, Res.ok_bind]
    simp only [rd_mid, Res.ok_bind, wr_mid]
    refine ⟨_, _, rfl, ?_⟩
    simp only [process, ho, hi]
    simp only [and_self, if_true, true_and, Bool.true_eq_false, false_and, and_false, if_false]
    split_ifs <;> simp
  · have hr := reset_eq t rest ht (pre ++ k :: post) (hnz k rfl)
    simp only [List.map_append, List.map_cons, List.append_assoc, List.cons_append] at hr
    rw [hr, Res.ok_bind, routine, scan_match _ (pre.map fresh) (post.map fresh) rest (fresh k) t ht (fresh_idle fun x hx => (hpre x hx).1)
      (fresh_idle fun x hx => (hpost x hx).1) hk hb (by
        intro x hx
        rw [← List.map_append] at hx
        obtain ⟨y, hy, rfl⟩ := List.mem_map.1 hx
        exact hd y hy), Res.ok_bind]
    simp only [rd_mid, Res.ok_bind, wr_mid]
    refine ⟨pre.map fresh ++ (process a { fresh k with value := true }).1 :: (post.map fresh ++ t :: rest), ?_⟩
    simp [process, fresh]

-- Key 2 is pressed, the reset comes before `lastevent` is stored; then key 1 is pressed.
example : (do
    let (tbl, r) ← routineI (doneAt (.inr 9) resetH) [upKey 1 11, upKey 2 12, upKey 0 0] ⟨10, 20, 5, 7, 2⟩
    let o ← outFrom tbl (fun _ => ⟨10, 20, 5, 100, 1⟩) 3
    pure (r, o)) = .ok ((12, .press), (12, .nothing)) := by decide +kernel

-- Before `oldvalue` is stored: nothing ever for key 2.
example : (do
    let (tbl, r) ← routineI (doneAt (.inr 6) resetH) [upKey 1 11, upKey 2 12, upKey 0 0] ⟨10, 20, 5, 7, 2⟩
    let o ← outFrom tbl (fun _ => ⟨10, 20, 5, 100, 2⟩) 3
    pure (r, o)) = .ok ((12, .nothing), (12, .nothing)) := by decide +kernel

-- In the loop, or just after it: a key that is held is reported as pressed again by the next call.
example : loopLen [upKey 1 11, upKey 2 12, upKey 0 0] (⟨10, 20, 5, 7, 2⟩ : Args 8) = 7 := by decide +kernel

example : (do
    let (tbl, r) ← routineI (doneAt (.inl 7) resetH) [upKey 1 11, upKey 2 12, upKey 0 0] ⟨10, 20, 5, 7, 2⟩
    let o ← outFrom tbl (fun _ => ⟨10, 20, 5, 100, 2⟩) 0
    pure (r, o)) = .ok ((12, .nothing), (12, .press)) := by decide +kernel

example : (do
    let (tbl, r) ← routineI (doneAt (.inl 2) resetH) [upKey 1 11, upKey 2 12, upKey 0 0] ⟨10, 20, 5, 7, 2⟩
    let o ← outFrom tbl (fun _ => ⟨10, 20, 5, 100, 2⟩) 0
    pure (r, o)) = .ok ((12, .press), (12, .click)) := by decide +kernel

-- A key held since 50, nothing due at 55: RELEASE, and the press is reported anew.
example : (do
    let (tbl, r) ← routineI (doneAt (.inr 3) resetH) [{ upKey 2 12 with value := true, oldvalue := true, timeState := 50, lastevent := .press }, upKey 0 0]
      ⟨10, 20, 5, 55, 2⟩
    let o ← outFrom tbl (fun _ => ⟨10, 20, 5, 56, 2⟩) 0
    pure (r, o)) = .ok ((12, .release), (12, .press)) := by decide +kernel

-- CLICK due at 100.
example : (do
    let (tbl, r) ← routineI (doneAt (.inr 7) resetH) [{ upKey 2 12 with value := true, oldvalue := true, timeState := 50, lastevent := .press },
      upKey 1 11, upKey 0 0] ⟨10, 20, 5, 100, 2⟩
    let o ← outFrom tbl (fun _ => ⟨10, 20, 5, 110, 1⟩) 4
    pure (r, o)) = .ok ((12, .click), (12, .nothing)) := by decide +kernel

end Gel.Keypad
