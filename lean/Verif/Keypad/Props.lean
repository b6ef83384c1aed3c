import Verif.Keypad.Cycle

/-!
# Keypad: properties C30 to C34
-/
namespace Gel.Keypad

open Time Spec

/-- The history of key `i` of a table with distinct codes: the state and the events of that key, what the trace of its
code is, and what its code is returned with. -/
theorem key_history {tbl ks : List (Key w)} (h : Table tbl ks) (hc : (ks.map (·.code)).Nodup) (as : Nat → Args w)
    (i : Nat) (hi : i < ks.length) :
    ∃ (st : Nat → Key w) (ev : Nat → Event) (tbls : Nat → List (Key w)) (o : Nat → Int × Event),
      st 0 = fresh ks[i] ∧ ∀ n,
      run tbl as n = .ok (tbls n) ∧ (tbls n)[i]? = some (st n) ∧ Step (as n) (st n) (st (n + 1)) (ev n) ∧
      (st n).bitvalue = ks[i].bitvalue ∧ (st n).code = ks[i].code ∧
      trace tbl as ks[i].code n = .ok (events ev n) ∧
      out tbl as n = .ok (o n) ∧ (∀ e, e ≠ .nothing → (o n = (ks[i].code, e) ↔ ev n = e)) := by
  obtain ⟨sts, o, ev, t, rest, h0, hn⟩ := run_eq h as ks[i]
  have hget : ∀ n, (sts n)[i]? = some ((sts n).getD i ks[i]) := fun n => by
    have := (hn n).2.1
    simp [List.getD_eq_getElem?_getD, List.getElem?_eq_getElem (show i < (sts n).length by omega)]
  have hki : ks.getD i ks[i] = ks[i] := by simp [List.getD_eq_getElem?_getD, hi]
  have hout : ∀ n e, e ≠ .nothing → (o n = (ks[i].code, e) ↔ ev n i = e) := by
    intro n e he
    rcases (hn n).2.2.2.2 with ⟨h1, h2⟩ | ⟨j, hj, h1, h2, h3⟩
    · constructor
      · intro ho; rw [ho] at h1; exact absurd h1 he
      · intro ho; rw [h2 i] at ho; exact absurd ho.symm he
    · constructor
      · intro ho
        have hcode : ks[i].code = ks[j].code := by
          rw [ho] at h1
          simpa [List.getD_eq_getElem?_getD, hj] using h1
        have hij : i = j := by
          have := List.Nodup.getElem_inj_iff hc (i := i) (j := j) (hi := by simpa using hi) (hj := by simpa using hj)
          exact this.1 (by simpa using hcode)
        subst hij
        rw [ho] at h2; exact h2.symm
      · intro hev
        have hij : i = j := by
          by_contra hne
          rw [h3 i hne] at hev; exact he hev.symm
        subst hij
        rw [hki] at h1
        rw [Prod.ext_iff]; exact ⟨h1, h2.trans hev⟩
  refine ⟨fun n => (sts n).getD i ks[i], fun n => ev n i, fun n => sts n ++ t :: rest, o, ?_, ?_⟩
  · simp [h0, List.getD_eq_getElem?_getD, hi]
  · intro n
    have hid := ((hn n).2.2.2.1 i hi).2
    rw [hki] at hid
    refine ⟨(hn n).1, ?_, ((hn n).2.2.2.1 i hi).1, hid.1, hid.2, ?_, (hn n).2.2.1, hout n⟩
    · rw [List.getElem?_append_left (by rw [(hn n).2.1]; exact hi)]; exact hget n
    · induction n with
      | zero => rfl
      | succ n ih =>
        have hid := ((hn n).2.2.2.1 i hi).2
        rw [hki] at hid
        rw [trace, ih hid, Res.ok_bind, (hn n).2.2.1, Res.ok_bind, events]
        by_cases he : ev n i = .nothing
        · have : ¬ ((o n).1 = ks[i].code ∧ (o n).2 ≠ .nothing) := by
            rintro ⟨h1, h2⟩
            have := (hout n (o n).2 h2).1 (by rw [← h1])
            exact h2 (this.symm.trans he)
          rw [if_neg (by simpa using he)]
          simp only [if_neg this]; rfl
        · have := (hout n (ev n i) he).2 rfl
          rw [if_pos he]
          simp [this, he]

/-- **C30.** In every history after `keypad_reset_keys` of a table with distinct codes, the events reported for a key
follow each other as in the life cycle `Next`. -/
theorem C30_life_cycle (tbl ks : List (Key w)) (h : Table tbl ks) (hc : (ks.map (·.code)).Nodup) (as : Nat → Args w)
    (k : Key w) (hk : k ∈ ks) (n : Nat) : ∃ l, trace tbl as k.code n = .ok l ∧ LifeCycle l := by
  obtain ⟨i, hi, rfl⟩ := List.mem_iff_getElem.1 hk
  obtain ⟨st, ev, tbls, o, h0, hn⟩ := key_history h hc as i hi
  have hinv := inv_all (τ := fun n => (as n).timestamp.toNat) (ev := ev) (as := as) (st := st) (fun n => by simp)
    ⟨_, h0⟩ (fun n => (hn n).2.2.1) n
  exact ⟨_, (hn n).2.2.2.2.2.1, hinv.life⟩

/-- The life cycle in the words of the property: CLICK only right after PRESS; LONGCLICK only after PRESS or CLICK with
nothing but PRESSING in between; RELEASE never twice without PRESS in between; no PRESS right after PRESS. -/
theorem C30_next (l : List Event) (h : LifeCycle l) (pre post : List Event) (e : Event) (hl : l = pre ++ e :: post) :
    (e = .click → pre.getLast? = some .press) ∧
    (e = .longclick → pre.getLast? = some .press ∨ pre.getLast? = some .click ∨ pre.getLast? = some .pressing) ∧
    (e = .pressing → pre.getLast? = some .click ∨ pre.getLast? = some .pressing) ∧
    (e = .longpress → pre.getLast? = some .longclick ∨ pre.getLast? = some .longpress) ∧
    (e = .release → pre.getLast? ≠ some .release ∧ pre.getLast? ≠ none) ∧
    (e = .press → pre.getLast? ≠ some .press) := by
  have := h pre e post hl
  revert this
  cases pre.getLast? with
  | none => intro h; simp only [Next] at h; subst h; simp
  | some x => cases x <;> simp only [Next] <;> intro h <;> (try (rcases h with h | h | h | h)) <;> simp_all

/-- Example tables. -/
def key (b : BitVec 8) (c : Int) : Key 8 := ⟨b, c, 3, 4, true, true, false, .click⟩
def table : List (Key 8) := [key 1 10, key 2 20, key 0 0]

/-- A key held down for 8 calls and let go. -/
def held (n : Nat) : Args 8 := ⟨5, 20, 3, BitVec.ofNat 8 (240 + 4 * n), if n < 8 then 1 else 0⟩

example : trace table held 10 11 = .ok [.press, .click, .pressing, .pressing, .pressing, .longclick, .longpress, .release] ∧
    trace table held 20 11 = .ok [] := by decide

/-! ## C31 -/

/-- **C31** (partial). Between two PRESS events of a key there is another event of that key: CLICK, LONGCLICK or RELEASE
(the event after a PRESS). Missing: that there is a RELEASE, which is false (`C31_press_again`). -/
theorem C31_partial (tbl ks : List (Key w)) (h : Table tbl ks) (hc : (ks.map (·.code)).Nodup) (as : Nat → Args w)
    (k : Key w) (hk : k ∈ ks) (n : Nat) : ∃ l, trace tbl as k.code n = .ok l ∧
      ∀ pre e post, l = pre ++ .press :: e :: post → e = .click ∨ e = .longclick ∨ e = .release := by
  obtain ⟨l, h1, h2⟩ := C30_life_cycle tbl ks h hc as k hk n
  refine ⟨l, h1, ?_⟩
  intro pre e post hl
  have := h2 (pre ++ [.press]) e post (by simp [hl])
  simpa [Next] using this

/-- The calls of `C31_press_again`: pressed, held for more than `click`, let go for one call, pressed again. -/
def bounce (b click long period : BitVec w) (t : Nat) (n : Nat) : Args w :=
  ⟨click, long, period, BitVec.ofNat w (t + if n = 0 then 0 else click.toNat + n), if n = 2 then 0 else b⟩

/-- **C31**, where it fails: a key that is let go after its CLICK and pressed again within the click time is reported
pressed twice without RELEASE, for all thresholds less than a quarter of the range (apart from click 0). -/
theorem C31_press_again (w : Nat) (k t : Key w) (hk : k.bitvalue ≠ 0) (ht : t.bitvalue = 0) (click long period : BitVec w)
    (h0 : 0 < click.toNat) (hq : 4 * (click.toNat + 3) < 2 ^ w) (t0 : Nat) :
    trace [k, t] (bounce k.bitvalue click long period t0) k.code 4 = .ok [.press, .click, .press] := by
  have hexp : ∀ x y : Nat, (x ≤ y ∧ y ≤ x + click.toNat + 3) →
      isStrictlyExpired (BitVec.ofNat w x) (BitVec.ofNat w y) click = decide (x + click.toNat < y) := by
    intro x y hxy
    have hsN : ∀ n : Nat, BitVec.ofNat w n = stamp w n := fun n => by rw [stamp, BitVec.ofInt_natCast]
    have hcl : click = stamp w click.toNat := by rw [← hsN]; simp
    have hc : ((2 ^ w : Nat) : Int) = 2 ^ w := by push_cast; rfl
    rw [Bool.eq_iff_iff, decide_eq_true_iff]
    conv_lhs => rw [hcl]
    rw [hsN, hsN, ((C53_expired w _ _ _).1 (by omega) (by omega)).2]
    omega
  have hk' : ¬ k.bitvalue = 0#w := hk
  have hb0 : ¬ 0#w = k.bitvalue := fun h => hk h.symm
  have ht' : t.bitvalue = 0#w := ht
  have r0 : run [k, t] (bounce k.bitvalue click long period t0) 0 = .ok [fresh k, t] :=
    reset_eq t [] ht [k] (by simpa using hk)
  have e1 := hexp t0 (t0 + (click.toNat + 1)) ⟨by omega, by omega⟩
  rw [decide_eq_true (by omega)] at e1
  have step : ∀ (k' : Key w) (a : Args w), k'.bitvalue = k.bitvalue → a.bitvalue = k.bitvalue →
      routine [k', t] a = .ok ([(process a { k' with value := true }).1, t], k'.code,
        (process a { k' with value := true }).2) := by
    intro k' a h1 h2
    simp [routine, scan, h1, h2, hk', ht', rd, wr]
  have stepr : ∀ (k' : Key w) (a : Args w), k'.bitvalue = k.bitvalue → a.bitvalue = 0 → k'.oldvalue = true →
      routine [k', t] a = .ok ([(process a { k' with value := false }).1, t], k'.code,
        (process a { k' with value := false }).2) := by
    intro k' a h1 h2 h3
    simp [routine, scan, h1, h2, h3, hk', hb0, rd, wr]
  -- the four states
  let k1 : Key w := { fresh k with value := true, ignore := false, oldvalue := true, timeState := BitVec.ofNat w t0,
                                   lastevent := .press }
  let k2 : Key w := { k1 with timePeriod := BitVec.ofNat w (t0 + (click.toNat + 1)), lastevent := .click }
  let k3 : Key w := { k2 with value := false, oldvalue := false, timeState := BitVec.ofNat w (t0 + (click.toNat + 2)) }
  have o0 : routine [fresh k, t] (bounce k.bitvalue click long period t0 0) = .ok ([k1, t], k.code, .press) := by
    rw [step (fresh k) _ rfl (by simp [bounce])]; simp [process, fresh, bounce, k1]
  have o1 : routine [k1, t] (bounce k.bitvalue click long period t0 1) = .ok ([k2, t], k.code, .click) := by
    rw [step k1 _ rfl (by simp [bounce])]
    simp [process, fresh, bounce, k1, k2, e1]
  have o2 : routine [k2, t] (bounce k.bitvalue click long period t0 2) = .ok ([k3, t], k.code, .nothing) := by
    rw [stepr k2 _ rfl (by simp [bounce]) rfl]
    simp [process, fresh, bounce, k1, k2, k3]
  have o3 : ∃ k4, routine [k3, t] (bounce k.bitvalue click long period t0 3) = .ok ([k4, t], k.code, .press) := by
    rw [step k3 _ rfl (by simp [bounce])]
    simp [process, fresh, k1, k2, k3]
  obtain ⟨k4, o3⟩ := o3
  have r1 : run [k, t] (bounce k.bitvalue click long period t0) 1 = .ok [k1, t] := by
    rw [run, r0, Res.ok_bind, o0]; rfl
  have r2 : run [k, t] (bounce k.bitvalue click long period t0) 2 = .ok [k2, t] := by
    rw [run, r1, Res.ok_bind, o1]; rfl
  have r3 : run [k, t] (bounce k.bitvalue click long period t0) 3 = .ok [k3, t] := by
    rw [run, r2, Res.ok_bind, o2]; rfl
  have p0 : out [k, t] (bounce k.bitvalue click long period t0) 0 = .ok (k.code, .press) := by
    rw [out, r0, Res.ok_bind, o0]; rfl
  have p1 : out [k, t] (bounce k.bitvalue click long period t0) 1 = .ok (k.code, .click) := by
    rw [out, r1, Res.ok_bind, o1]; rfl
  have p2 : out [k, t] (bounce k.bitvalue click long period t0) 2 = .ok (k.code, .nothing) := by
    rw [out, r2, Res.ok_bind, o2]; rfl
  have p3 : out [k, t] (bounce k.bitvalue click long period t0) 3 = .ok (k.code, .press) := by
    rw [out, r3, Res.ok_bind, o3]; rfl
  simp only [trace, p0, p1, p2, p3, Res.ok_bind]
  simp

example : trace table (bounce 2 5 20 3 250) 20 4 = .ok [.press, .click, .press] := by decide

/-! ## C32 -/

theorem strictly_nat (w : Nat) (x y : Nat) (d : BitVec w) (h1 : x ≤ y) (h2 : 2 * y ≤ 2 * x + 2 ^ w)
    (h3 : 2 * d.toNat < 2 ^ w) :
    isStrictlyExpired (BitVec.ofNat w x) (BitVec.ofNat w y) d = true ↔ x + d.toNat < y := by
  have hsN : ∀ n : Nat, BitVec.ofNat w n = stamp w n := fun n => by rw [stamp, BitVec.ofInt_natCast]
  have hcl : d = stamp w d.toNat := by rw [← hsN]; simp
  have hc : ((2 ^ w : Nat) : Int) = 2 ^ w := by push_cast; rfl
  conv_lhs => rw [hcl]
  rw [hsN, hsN, ((C53_expired w _ _ _).1 (by omega) (by omega)).2]
  omega

/-- **C32.** A CLICK (LONGCLICK) of a key is reported only in a call with the key's bitmap, after a PRESS of the key
that is its last one, and strictly more than `click` (`longclick`, if not less than `click`) after it. Here the calls
come at non-decreasing true times of which the timestamps are the remainders, the PRESS is at most half the range ago
and the thresholds are less than half the range. -/
theorem C32_times (tbl ks : List (Key w)) (h : Table tbl ks) (hc : (ks.map (·.code)).Nodup) (as : Nat → Args w)
    (τ : Nat → Nat) (hτ : ∀ n, τ n ≤ τ (n + 1)) (hts : ∀ n, (as n).timestamp = BitVec.ofNat w (τ n))
    (k : Key w) (hk : k ∈ ks) (n : Nat) :
    (out tbl as n = .ok (k.code, .click) →
      (as n).bitvalue = k.bitvalue ∧ ∃ p, p < n ∧ out tbl as p = .ok (k.code, .press) ∧
        (∀ j, p < j → j < n → out tbl as j ≠ .ok (k.code, .press)) ∧
        (2 * τ n ≤ 2 * τ p + 2 ^ w → 2 * (as n).click.toNat < 2 ^ w → τ p + (as n).click.toNat < τ n)) ∧
    (out tbl as n = .ok (k.code, .longclick) → ∃ p, p < n ∧ out tbl as p = .ok (k.code, .press) ∧
        (∀ j, p < j → j < n → out tbl as j ≠ .ok (k.code, .press)) ∧
        (2 * τ n ≤ 2 * τ p + 2 ^ w → 2 * (as n).longclick.toNat < 2 ^ w → (as n).click.toNat ≤ (as n).longclick.toNat →
          (as n).bitvalue = k.bitvalue ∧ τ p + (as n).longclick.toNat < τ n)) := by
  obtain ⟨i, hi, rfl⟩ := List.mem_iff_getElem.1 hk
  obtain ⟨st, ev, tbls, o, h0, hn⟩ := key_history h hc as i hi
  have hinv := inv_all (τ := τ) (ev := ev) (as := as) (st := st) hts ⟨_, h0⟩ (fun n => (hn n).2.2.1) n
  have hmono : ∀ a b, a ≤ b → τ a ≤ τ b := by
    intro a b hab
    induction b with
    | zero => have : a = 0 := by omega
              subst this; exact Nat.le_refl _
    | succ b ih =>
      by_cases h1 : a = b + 1
      · subst h1; exact Nat.le_refl _
      · have := ih (by omega)
        have := hτ b
        omega
  have hev : ∀ m e, e ≠ .nothing → (out tbl as m = .ok (ks[i].code, e) ↔ ev m = e) := by
    intro m e he
    rw [(hn m).2.2.2.2.2.2.1, Res.ok.injEq]
    exact (hn m).2.2.2.2.2.2.2 e he
  have hpress : ∀ p, ev p = .press → (∀ j, p < j → j < n → ev j ≠ .press) → out tbl as p = .ok (ks[i].code, .press) ∧
      ∀ j, p < j → j < n → out tbl as j ≠ .ok (ks[i].code, .press) := by
    intro p h1 h2
    refine ⟨(hev p .press (by decide)).2 h1, ?_⟩
    intro j h3 h4 h5
    exact h2 j h3 h4 ((hev j .press (by decide)).1 h5)
  have hstep := (hn n).2.2.1
  have hbit := (hn n).2.2.2.1
  constructor
  · intro ho
    rw [hev n .click (by decide)] at ho
    rw [ho] at hstep
    rcases hstep with ⟨_, he⟩ | ⟨k1, hs, hp⟩
    · cases he
    · rw [process] at hp
      split_ifs at hp with c0 c1 c2 c3 c4 c5 c6
      all_goals (try simp only at hp)
      any_goals (first | (have := congrArg Prod.snd hp; cases this; done) | skip)
      · -- CLICK
        have hm : (st n).bitvalue = (as n).bitvalue ∧ k1 = { st n with value := true } := by
          rcases hs with hs | ⟨_, ho, hs⟩ | ⟨_, ho, _, _, hs⟩
          · exact hs
          · subst hs; exact absurd c1.2.1 (by simp)
          · subst hs; rw [c0.1, ho] at c1; exact absurd c1.2.1 (by simp)
        have hl : (st n).lastevent = .press := by rw [hm.2] at c1; exact c1.1
        obtain ⟨p, q, a1, a2, a3, a4, a5, a6⟩ := hinv.time (by rw [hl]; decide)
        have hqp := a6 (Or.inl hl)
        subst hqp
        refine ⟨by rw [← hm.1]; exact hbit, q, a2, (hpress q a3 a4).1, (hpress q a3 a4).2, ?_⟩
        intro b1 b2
        have hx := c1.2.2
        rw [hm.2] at hx
        simp only [a5, hts n] at hx
        exact (strictly_nat w _ _ _ (hmono q n (by omega)) b1 b2).1 hx
      · -- the branch of value changes reports no CLICK
        split_ifs at hp
        all_goals (have := congrArg Prod.snd hp; cases this)
  · intro ho
    rw [hev n .longclick (by decide)] at ho
    rw [ho] at hstep
    rcases hstep with ⟨_, he⟩ | ⟨k1, hs, hp⟩
    · cases he
    · rw [process] at hp
      split_ifs at hp with c0 c1 c2 c3 c4 c5 c6
      all_goals (try simp only at hp)
      any_goals (first | (have := congrArg Prod.snd hp; cases this; done) | skip)
      · -- LONGCLICK
        have e1 : k1.lastevent = (st n).lastevent := by
          rcases hs with ⟨_, h⟩ | ⟨_, _, h⟩ | ⟨_, _, _, _, h⟩ <;> subst h <;> rfl
        have e2 : k1.oldvalue = (st n).oldvalue := by
          rcases hs with ⟨_, h⟩ | ⟨_, _, h⟩ | ⟨_, _, _, _, h⟩ <;> subst h <;> rfl
        have e4 : k1.timeState = (st n).timeState := by
          rcases hs with ⟨_, h⟩ | ⟨_, _, h⟩ | ⟨_, _, _, _, h⟩ <;> subst h <;> rfl
        obtain ⟨p, q, a1, a2, a3, a4, a5, a6⟩ := hinv.time (by
          rw [← e1]; rcases c3.1 with hc | hc <;> rw [hc] <;> decide)
        refine ⟨p, by omega, (hpress p a3 a4).1, (hpress p a3 a4).2, ?_⟩
        intro b1 b2 b3
        have hpq := hmono p q a1
        have hqn := hmono q n (by omega)
        have hx := c3.2
        rw [e4, a5, hts n, strictly_nat w _ _ _ hqn (by omega) b2] at hx
        -- the key is not released: the click time would be over too
        have hv : k1.value = true := by
          by_contra hv
          apply c2
          refine ⟨Or.inl ?_, by simpa using hv, ?_⟩
          · rcases c3.1 with hc | hc <;> rw [hc] <;> decide
          · rw [e4, a5, hts n, strictly_nat w _ _ _ hqn (by omega) (by omega)]; omega
        have hold : (st n).oldvalue = true := by rw [← e2, ← c0.1]; exact hv
        have hm : (st n).bitvalue = (as n).bitvalue := by
          rcases hs with hs | ⟨_, ho, hs⟩ | ⟨_, ho, _, _, hs⟩
          · exact hs.1
          · subst hs; cases hv
          · rw [ho] at hold; cases hold
        have hqp : q = p := by
          apply a6
          rw [e1] at c3
          rcases c3.1 with hc | hc
          · exact Or.inr ⟨hc, hold⟩
          · exact Or.inl hc
        subst hqp
        exact ⟨by rw [← hm]; exact hbit, hx⟩
      · split_ifs at hp
        all_goals (have := congrArg Prod.snd hp; cases this)

example : out table held 2 = .ok (10, .click) ∧ out table held 0 = .ok (10, .press) ∧
    out table held 6 = .ok (10, .longclick) := by decide

/-! ## C33 -/

/-- **C33** (partial). With a table of one key the state is whether the bitmap of the last call is the key's. Missing:
tables with several keys, for which it is false (`C33_state_wrong`). -/
theorem C33_state_partial (w : Nat) (k t : Key w) (hk : k.bitvalue ≠ 0) (ht : t.bitvalue = 0) (as : Nat → Args w)
    (n : Nat) : ∃ k', run [k, t] as (n + 1) = .ok [k', t] ∧ (getKeyState k' = true ↔ (as n).bitvalue = k.bitvalue) := by
  have key : ∀ n, ∃ k', run [k, t] as n = .ok [k', t] ∧ k'.bitvalue = k.bitvalue ∧ k'.value = k'.oldvalue := by
    intro n
    induction n with
    | zero => exact ⟨fresh k, reset_eq t [] ht [k] (by simpa using hk), rfl, rfl⟩
    | succ n ih =>
      obtain ⟨k', e, hb, hv⟩ := ih
      rw [run, e, Res.ok_bind]
      simp only [routine, scan, hb, hk, if_false, ht, if_true]
      split_ifs with h1 h2 h3 <;> simp [rd, wr]
      · refine ⟨(process_id _ _).1.trans (by simp [hb]), ?_⟩
        simp only [process]; split_ifs <;> simp_all
      · refine ⟨(process_id _ _).1.trans (by simp [hb]), ?_⟩
        simp only [process]; split_ifs <;> simp_all
      · refine ⟨(process_id _ _).1.trans (by simp [hb]), ?_⟩
        simp only [process]; split_ifs <;> simp_all
      · exact ⟨hb, hv⟩
  obtain ⟨k', e, hb, hv⟩ := key n
  have pv : ∀ a (x : Key w), (process a x).1.value = x.value := by
    intro a x; simp only [process]; split_ifs <;> rfl
  rw [run, e, Res.ok_bind]
  simp only [routine, scan, hb, hk, if_false, ht, if_true]
  split_ifs with h1 h2 h3 <;> simp [rd, wr, getKeyState, pv]
  · exact h1.symm
  · exact fun h => h1 h.symm
  · rw [hv]; simp [h2]; exact fun h => h1 h.symm
  · rw [hv]; simp [h2]; exact fun h => h1 h.symm

/-- **C33**, where it fails: when the first key is let go and the second one pressed between two calls, the second call
does not notice the second key. -/
theorem C33_state_wrong (w : Nat) (k1 k2 t : Key w) (h1 : k1.bitvalue ≠ 0) (h2 : k2.bitvalue ≠ 0)
    (h12 : k1.bitvalue ≠ k2.bitvalue) (ht : t.bitvalue = 0) (as : Nat → Args w) (b0 : (as 0).bitvalue = k1.bitvalue)
    (b1 : (as 1).bitvalue = k2.bitvalue) :
    ∃ a b, run [k1, k2, t] as 2 = .ok [a, b, t] ∧ b.code = k2.code ∧ getKeyState b = false := by
  have r0 : run [k1, k2, t] as 0 = .ok [fresh k1, fresh k2, t] := by
    refine reset_eq t [] ht [k1, k2] ?_
    intro x hx
    rcases List.mem_cons.1 hx with rfl | hx
    · exact h1
    · rw [List.mem_singleton.1 hx]; exact h2
  have h1' : ¬ k1.bitvalue = 0#w := h1
  have h2' : ¬ k2.bitvalue = 0#w := h2
  have ht' : t.bitvalue = 0#w := ht
  have h21 : ¬ k2.bitvalue = k1.bitvalue := fun h => h12 h.symm
  rw [run, run, r0]
  simp [routine, scan, fresh, h1', h2', h12, h21, ht', b0, b1, rd, wr, process, getKeyState]

example : (do let l ← run table (fun n => ⟨5, 20, 3, BitVec.ofNat 8 n, if n = 0 then 1 else 2⟩) 2
              pure (l.map getKeyState)) = .ok [false, false, true] := by decide

/-! ## C34 -/

theorem scan_idle (bv : BitVec w) (t : Key w) (rest : List (Key w)) (ht : t.bitvalue = 0) :
    ∀ (ks : List (Key w)) (i : Nat) (found : Option Nat), (∀ k ∈ ks, k.bitvalue ≠ 0 ∧ k.oldvalue = false ∧
      (k.lastevent = .nothing ∨ k.lastevent = .release)) →
    ∃ ks' f, scan bv (ks ++ t :: rest) i found = .ok (ks' ++ t :: rest, f) ∧ ks'.length = ks.length ∧
      (∀ j, j < ks.length → f = some (i + j) → found ≠ f → (ks.getD j t).bitvalue = bv ∧
        ks'[j]? = some { ks.getD j t with value := true }) ∧
      (f = found ∨ ∃ j, j < ks.length ∧ f = some (i + j) ∧ found ≠ f) ∧
      ((∃ k ∈ ks, k.bitvalue = bv) → (∀ x, found = some x → x < i) → f ≠ found) := by
  intro ks
  induction ks with
  | nil =>
    intro i found _
    refine ⟨[], found, ?_, rfl, by simp, Or.inl rfl, by simp⟩
    show scan bv (t :: rest) i found = _
    rw [scan, if_pos ht]; rfl
  | cons k ks ih =>
    intro i found hk
    obtain ⟨hk0, hko, hkl⟩ := hk k (by simp)
    have hks : ∀ k ∈ ks, _ := fun x hx => hk x (by simp [hx])
    simp only [List.cons_append]
    rw [scan, if_neg hk0]
    by_cases hb : k.bitvalue = bv
    · rw [if_pos hb]
      obtain ⟨ks', f, e, l, p, q, r⟩ := ih (i + 1) (some i) hks
      rw [e]
      refine ⟨{ k with value := true } :: ks', f, rfl, by simp [l], ?_, ?_, ?_⟩
      · intro j hj hf hne
        cases j with
        | zero => exact ⟨by simpa using hb, by simp⟩
        | succ j =>
          have := p j (by simpa using hj) (by rw [hf]; congr 1; omega) (by rw [hf]; simp)
          simpa using this
      · rcases q with q | ⟨j, hj, q, q'⟩
        · by_cases hff : f = found
          · exact Or.inl hff
          · exact Or.inr ⟨0, by simp, q, fun h => hff h.symm⟩
        · by_cases hff : f = found
          · exact Or.inl hff
          · exact Or.inr ⟨j + 1, by simp; omega, by rw [q]; congr 1; omega, fun h => hff h.symm⟩
      · intro _ hfound hff
        rcases q with q | ⟨j, hj, q, q'⟩
        · have := hfound i (by rw [← hff, q]); omega
        · have := hfound _ (by rw [← hff, q]); omega
    · rw [if_neg hb, if_neg (by simp [hko]), if_neg (by rcases hkl with h | h <;> simp [h])]
      obtain ⟨ks', f, e, l, p, q, r⟩ := ih (i + 1) found hks
      rw [e]
      refine ⟨k :: ks', f, rfl, by simp [l], ?_, ?_, ?_⟩
      · intro j hj hf hne
        cases j with
        | zero =>
          exfalso
          rcases q with q | ⟨j, hj, q, q'⟩
          · exact hne q.symm
          · rw [hf] at q; injection q with q; omega
        | succ j =>
          have := p j (by simpa using hj) (by rw [hf]; congr 1; omega) hne
          simpa using this
      · rcases q with q | ⟨j, hj, q, q'⟩
        · exact Or.inl q
        · exact Or.inr ⟨j + 1, by simp; omega, by rw [q]; congr 1; omega, q'⟩
      · rintro ⟨x, hx, hxb⟩ hfound
        refine r ⟨x, ?_, hxb⟩ (fun y hy => by have := hfound y hy; omega)
        rcases List.mem_cons.1 hx with hx | hx
        · subst hx; exact absurd hxb hb
        · exact hx

/-- **C34.** After every history of a table with distinct codes, if every key is idle (no event yet, or RELEASE was its
last event), then a call with the bitmap of a key reports PRESS for a key with that bitmap, and a call with another
bitmap reports nothing. Every call of every history reports nothing or one event with the code of a key. -/
theorem C34_press (tbl ks : List (Key w)) (h : Table tbl ks) (hc : (ks.map (·.code)).Nodup) (as : Nat → Args w)
    (n : Nat) :
    (∃ c e, out tbl as n = .ok (c, e) ∧ (e ≠ .nothing → ∃ k ∈ ks, k.code = c)) ∧
    ((∀ k ∈ ks, ∃ l, trace tbl as k.code n = .ok l ∧ (l = [] ∨ l.getLast? = some .release)) →
      ((∃ k ∈ ks, k.bitvalue = (as n).bitvalue) →
        ∃ k ∈ ks, k.bitvalue = (as n).bitvalue ∧ out tbl as n = .ok (k.code, .press)) ∧
      ((∀ k ∈ ks, k.bitvalue ≠ (as n).bitvalue) → ∃ c, out tbl as n = .ok (c, .nothing))) := by
  constructor
  · by_cases hks : ks = []
    · -- an empty table
      subst hks
      obtain ⟨-, t, rest, ht, rfl⟩ := h
      have hr : ∀ n, run ([] ++ t :: rest) as n = .ok (t :: rest) := by
        intro n
        induction n with
        | zero => show reset (t :: rest) = _; rw [reset, if_pos ht]
        | succ n ih =>
          rw [run, ih, Res.ok_bind]
          simp [routine, scan, ht]
      refine ⟨0, .nothing, ?_, by simp⟩
      rw [out, hr, Res.ok_bind]
      simp [routine, scan, ht]
    · obtain ⟨sts, o, ev, t, rest, h0, hn⟩ := run_eq h as (ks.head hks)
      refine ⟨(o n).1, (o n).2, (hn n).2.2.1, ?_⟩
      intro he
      rcases (hn n).2.2.2.2 with ⟨h1, _⟩ | ⟨i, hi, h1, _⟩
      · exact absurd h1 he
      · refine ⟨ks[i], List.getElem_mem _, ?_⟩
        rw [h1]; simp [List.getD_eq_getElem?_getD, hi]
  · intro hidle
    by_cases hks : ks = []
    · subst hks
      obtain ⟨-, t, rest, ht, rfl⟩ := h
      have hr : ∀ n, run ([] ++ t :: rest) as n = .ok (t :: rest) := by
        intro n
        induction n with
        | zero => show reset (t :: rest) = _; rw [reset, if_pos ht]
        | succ n ih =>
          rw [run, ih, Res.ok_bind]
          simp [routine, scan, ht]
      refine ⟨by simp, fun _ => ⟨0, ?_⟩⟩
      rw [out, hr, Res.ok_bind]
      simp [routine, scan, ht]
    · obtain ⟨sts, o, ev, t, rest, h0, hn⟩ := run_eq h as (ks.head hks)
      -- every key is idle inside
      have hin : ∀ k ∈ sts n, k.bitvalue ≠ 0 ∧ k.oldvalue = false ∧ (k.lastevent = .nothing ∨ k.lastevent = .release) := by
        intro k hk
        obtain ⟨i, hi, rfl⟩ := List.mem_iff_getElem.1 hk
        have hi' : i < ks.length := by have := (hn n).2.1; omega
        obtain ⟨st, ev', tbls, o', g0, gn⟩ := key_history h hc as i hi'
        have hst : st n = (sts n)[i] := by
          have e1 := (gn n).2.1
          have : tbls n = sts n ++ t :: rest := by
            have := (gn n).1
            rw [(hn n).1] at this; exact (Res.ok.inj this).symm
          rw [this, List.getElem?_append_left hi, List.getElem?_eq_getElem hi] at e1
          injection e1 with e1; exact e1.symm
        have hinv := inv_all (τ := fun n => (as n).timestamp.toNat) (ev := ev') (as := as) (st := st) (fun n => by simp)
          ⟨_, g0⟩ (fun n => (gn n).2.2.1) n
        obtain ⟨l, hl, hlast⟩ := hidle ks[i] (List.getElem_mem _)
        rw [(gn n).2.2.2.2.2.1] at hl
        injection hl with hl
        have hcl : (st n).lastevent = .nothing ∨ (st n).lastevent = .release := by
          rw [hinv.cls, hl]
          rcases hlast with hlast | hlast
          · rw [hlast]; exact Or.inl rfl
          · rw [hlast]; exact Or.inr rfl
        rw [← hst]
        exact ⟨by rw [(gn n).2.2.2.1]; exact h.1 _ (List.getElem_mem _), hinv.idle hcl, hcl⟩
      have hbits : ∀ i, i < ks.length → ∀ d, ((sts n).getD i d).bitvalue = (ks.getD i d).bitvalue ∧
          ((sts n).getD i d).code = (ks.getD i d).code := by
        intro i hi d
        have := ((hn n).2.2.2.1 i hi).2
        have hl := (hn n).2.1
        simpa [List.getD_eq_getElem?_getD, hi, show i < (sts n).length by omega] using this
      have hlen := (hn n).2.1
      have ht : t.bitvalue = 0 := by
        obtain ⟨hne, t', rest', ht', htb⟩ := h
        have := (hn 0).1
        rw [run, htb, reset_eq t' rest' ht' ks hne, h0] at this
        have := List.append_cancel_left (Res.ok.inj this)
        injection this with this
        rw [← this]; exact ht'
      obtain ⟨ks', f, e, l, p, q, r⟩ := scan_idle (as n).bitvalue t rest ht (sts n) 0 none hin
      have hout : ∀ j, j < ks.length → f = some j → (ks.getD j t).bitvalue = (as n).bitvalue ∧
          out tbl as n = .ok ((ks.getD j t).code, .press) := by
        intro j hj hf
        subst hf
        obtain ⟨p1, p2⟩ := p j (by omega) (by simp) (by simp)
        have hj' : j < ks'.length := by omega
        refine ⟨by rw [← (hbits j hj t).1]; exact p1, ?_⟩
        rw [out, (hn n).1, Res.ok_bind, routine, e, Res.ok_bind]
        simp only
        have hget : (ks' ++ t :: rest)[j]? = some { (sts n).getD j t with value := true } := by
          rw [List.getElem?_append_left hj']; exact p2
        have hold : ((sts n).getD j t).oldvalue = false := by
          have hm : (sts n).getD j t ∈ sts n := by
            rw [List.getD_eq_getElem?_getD, List.getElem?_eq_getElem (by omega)]; exact List.getElem_mem _
          exact (hin _ hm).2.1
        rw [rd, hget]
        simp only [Res.ok_bind]
        rw [wr, if_pos (by simp; omega)]
        simp only [Res.ok_bind, Res.pure_eq, Res.ok.injEq, Prod.mk.injEq]
        refine ⟨(hbits j hj t).2, ?_⟩
        rw [process, if_neg (by simp only [hold]; simp)]
        simp only [if_pos (show true ≠ ((sts n).getD j t).oldvalue by rw [hold]; decide), if_true]
      constructor
      · rintro ⟨k, hk, hkb⟩
        obtain ⟨i, hi, rfl⟩ := List.mem_iff_getElem.1 hk
        have hex : ∃ x ∈ sts n, x.bitvalue = (as n).bitvalue := by
          refine ⟨(sts n)[i]'(by omega), List.getElem_mem _, ?_⟩
          have := (hbits i hi t).1
          simp only [List.getD_eq_getElem?_getD, List.getElem?_eq_getElem hi,
            List.getElem?_eq_getElem (show i < (sts n).length by omega), Option.getD_some] at this
          rw [this]; exact hkb
        have hf := r hex (by simp)
        rcases q with q | ⟨j, hj, q, _⟩
        · exact absurd q hf
        · rw [Nat.zero_add] at q
          obtain ⟨h1, h2⟩ := hout j (by omega) q
          refine ⟨ks[j]'(by omega), List.getElem_mem _, ?_, ?_⟩
          · rw [← h1]; simp [List.getD_eq_getElem?_getD, show j < ks.length by omega]
          · rw [h2]; simp [List.getD_eq_getElem?_getD, show j < ks.length by omega]
      · intro hno
        rcases q with q | ⟨j, hj, q, _⟩
        · subst q
          refine ⟨0, ?_⟩
          rw [out, (hn n).1, Res.ok_bind, routine, e]; rfl
        · rw [Nat.zero_add] at q
          obtain ⟨h1, _⟩ := hout j (by omega) q
          exact absurd h1 (by
            rw [List.getD_eq_getElem?_getD, List.getElem?_eq_getElem (show j < ks.length by omega)]
            exact hno _ (List.getElem_mem _))

example : out table (fun _ => ⟨5, 20, 3, 7, 2⟩) 0 = .ok (20, .press) ∧
    out table (fun _ => ⟨5, 20, 3, 7, 4⟩) 0 = .ok (0, .nothing) := by decide

end Gel.Keypad
