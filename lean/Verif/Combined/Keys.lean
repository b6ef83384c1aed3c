import Verif.Debounce.Props
import Verif.Keypad.Props

/-!
# A keypad behind a debounce filter: property C190

The main loop of a device with keys that bounce: every cycle passes the raw inputs to `debounce_filter` and the result of
`debounce_value` to `keypad_routine`. `unsigned int` has `v` bits, `unsigned long` has `w`.
-/
namespace Gel.Combined
open Debounce.Spec Keypad.Spec

variable {v w : Nat}

/-! ## Model -/

/-- The arguments of `keypad_routine` but the bitmap. -/
structure Times (w : Nat) where
  click : BitVec w
  longclick : BitVec w
  period : BitVec w
  timestamp : BitVec w

/-- The call of `keypad_routine` with a debounced bitmap, converted to `unsigned long`. -/
def args (t : Times w) (b : BitVec v) : Keypad.Args w := ⟨t.click, t.longclick, t.period, t.timestamp, b.setWidth w⟩

/-- The filter and the table after `debounce_filter_init` (debounce.c:6-14), `keypad_reset_keys` (keypad.c:87-99) and `n` cycles. -/
def loop (f : Debounce.Filter v) (tbl : List (Keypad.Key w)) (ins : Nat → BitVec v) (d : BitVec v) (ts : Nat → Times w) :
    Nat → Res (Debounce.Filter v × List (Keypad.Key w))
  | 0 => do
    let f ← Debounce.init f
    let ks ← Keypad.reset tbl
    pure (f, ks)
  | n + 1 => do
    let (f, ks) ← loop f tbl ins d ts n
    let (f, _) ← Debounce.filter true f (ins n) d
    let (ks, _) ← Keypad.routine ks (args (ts n) (Debounce.value f))
    pure (f, ks)

/-- The code and the event that cycle `n` gets (debounce.c:21-29, keypad.c:10-85). -/
def event (f : Debounce.Filter v) (tbl : List (Keypad.Key w)) (ins : Nat → BitVec v) (d : BitVec v) (ts : Nat → Times w) (n : Nat) :
    Res (Int × Keypad.Event) := do
  let (f, ks) ← loop f tbl ins d ts n
  let (f, _) ← Debounce.filter true f (ins n) d
  let (_, r) ← Keypad.routine ks (args (ts n) (Debounce.value f))
  pure r

/-! ## Lemmas -/

/-- The loop is the keypad fed with what the filter of C25 gives. -/
theorem loop_eq (f g : Debounce.Filter v) (hl : f.count.length = v) (hg : Debounce.init f = .ok g) (tbl ks : List (Keypad.Key w))
    (h : Table tbl ks) (ins : Nat → BitVec v) (d : BitVec v) (ts : Nat → Times w) :
    ∃ fs : Nat → Debounce.Filter v, Debounce.value (fs 0) = 0 ∧
      (∀ i, i < v → ∀ k, Rule d.toNat (fun k => (ins k).getLsbD i) (fun k => (Debounce.value (fs k)).getLsbD i) k) ∧
      ∀ n, (∃ ks', loop f tbl ins d ts n = .ok (fs n, ks') ∧
          Keypad.run tbl (fun n => args (ts n) (Debounce.value (fs (n + 1)))) n = .ok ks') ∧
        event f tbl ins d ts n = Keypad.out tbl (fun n => args (ts n) (Debounce.value (fs (n + 1)))) n := by
  obtain ⟨fs, hr, h0, hrule⟩ := Debounce.C25_rule f g hl hg d ins
  have hstep : ∀ n, ∃ c, Debounce.filter true (fs n) (ins n) d = .ok (fs (n + 1), c) := by
    intro n
    have := hr (n + 1)
    rw [Debounce.run, hr n, Res.ok_bind, Res.bind_eq_ok] at this
    obtain ⟨⟨g', c⟩, e, e'⟩ := this
    cases e'
    exact ⟨c, e⟩
  have hg0 : g = fs 0 := Res.ok.inj (hr 0)
  have hrun : ∀ n, ∃ ks', Keypad.run tbl (fun n => args (ts n) (Debounce.value (fs (n + 1)))) n = .ok ks' := by
    obtain ⟨sts, o, ev, t, rest, h0, hn⟩ := Keypad.run_eq h (fun n => args (ts n) (Debounce.value (fs (n + 1))))
      (⟨0, 0, 0, 0, false, false, false, .nothing⟩ : Keypad.Key w)
    exact fun n => ⟨_, (hn n).1⟩
  have hloop : ∀ n, ∃ ks', loop f tbl ins d ts n = .ok (fs n, ks') ∧
      Keypad.run tbl (fun n => args (ts n) (Debounce.value (fs (n + 1)))) n = .ok ks' := by
    intro n
    induction n with
    | zero =>
      obtain ⟨ks', e⟩ := hrun 0
      refine ⟨ks', ?_, e⟩
      rw [Keypad.run] at e
      rw [loop, hg, Res.ok_bind, e, Res.ok_bind, hg0]
      rfl
    | succ n ih =>
      obtain ⟨ks1, e1, e2⟩ := ih
      obtain ⟨c, e3⟩ := hstep n
      obtain ⟨ks', e⟩ := hrun (n + 1)
      refine ⟨ks', ?_, e⟩
      rw [Keypad.run, e2, Res.ok_bind, Res.bind_eq_ok] at e
      obtain ⟨⟨k2, r⟩, e4, e5⟩ := e
      cases e5
      rw [loop, e1, Res.ok_bind]
      simp only [e3, Res.ok_bind, e4]
      rfl
  refine ⟨fs, h0, hrule, fun n => ⟨hloop n, ?_⟩⟩
  obtain ⟨ks1, e1, e2⟩ := hloop n
  obtain ⟨c, e3⟩ := hstep n
  rw [event, e1, Res.ok_bind, Keypad.out, e2, Res.ok_bind]
  simp only [e3, Res.ok_bind]

/-- A level of 1 comes from `d + 1` samples of 1 in a row, and not so many samples of 0 in a row since. -/
theorem level_high {d : Nat} {smp lev : Nat → Bool} (h : ∀ k, Rule d smp lev k) (h0 : lev 0 = false) :
    ∀ n, lev n = true → ∃ m, d ≤ m ∧ m < n ∧ (∀ j, m - d ≤ j → j ≤ m → smp j = true) ∧ ∀ j, m < j → j ≤ n → lev j = true := by
  intro n
  induction n with
  | zero => intro hn; rw [h0] at hn; cases hn
  | succ n ih =>
    intro hn
    by_cases hc : lev n = true
    · obtain ⟨m, h1, h2, h3, h4⟩ := ih hc
      refine ⟨m, h1, by omega, h3, fun j hj hj' => ?_⟩
      rcases Nat.lt_or_ge n j with h | h
      · rw [show j = n + 1 by omega]; exact hn
      · exact h4 j hj h
    · obtain ⟨h1, h2⟩ := (h n).1 (fun e => hc (e ▸ hn))
      have hc : lev n = false := by simpa using hc
      refine ⟨n, h1, by omega, fun j hj hj' => ?_, fun j hj hj' => ?_⟩
      · have := (h2 j hj hj').2
        rw [hc] at this
        simpa using this
      · rw [show j = n + 1 by omega]; exact hn

/-- Idle keys in terms of the events reported. -/
theorem idle_trace {tbl ks : List (Keypad.Key w)} (h : Table tbl ks) (hc : (ks.map (·.code)).Nodup) (as : Nat → Keypad.Args w)
    (code : Int) (n : Nat)
    (hq : (∀ j < n, ∀ e, e ≠ .nothing → Keypad.out tbl as j ≠ .ok (code, e)) ∨
      ∃ q < n, Keypad.out tbl as q = .ok (code, .release) ∧
        ∀ j, q < j → j < n → ∀ e, e ≠ .nothing → Keypad.out tbl as j ≠ .ok (code, e)) :
    ∃ l, Keypad.trace tbl as code n = .ok l ∧ (l = [] ∨ l.getLast? = some .release) := by
  have hall : ∀ t, ∃ l, Keypad.trace tbl as code t = .ok l := by
    intro t
    induction t with
    | zero => exact ⟨[], rfl⟩
    | succ t ih =>
      obtain ⟨l, e⟩ := ih
      obtain ⟨⟨c, e', eo, -⟩, -⟩ := Keypad.C34_press tbl ks h hc as t
      exact ⟨_, by rw [Keypad.trace, e, Res.ok_bind, eo]; rfl⟩
  have hkeep : ∀ s l, Keypad.trace tbl as code s = .ok l → ∀ t, s + t ≤ n →
      (∀ j, s ≤ j → j < n → ∀ e, e ≠ .nothing → Keypad.out tbl as j ≠ .ok (code, e)) → Keypad.trace tbl as code (s + t) = .ok l := by
    intro s l hs t
    induction t with
    | zero => exact fun _ _ => hs
    | succ t ih =>
      intro ht hno
      obtain ⟨⟨c, e, eo, -⟩, -⟩ := Keypad.C34_press tbl ks h hc as (s + t)
      rw [show s + (t + 1) = s + t + 1 by omega, Keypad.trace, ih (by omega) hno, Res.ok_bind, eo, Res.ok_bind]
      have : ¬ (c = code ∧ e ≠ .nothing) := by
        rintro ⟨rfl, he⟩
        exact hno (s + t) (by omega) (by omega) e he eo
      simp [this]
  rcases hq with hq | ⟨q, hqn, e, hq⟩
  · have := hkeep 0 [] rfl n (by omega) (fun j _ hj => hq j hj)
    rw [Nat.zero_add] at this
    exact ⟨[], this, Or.inl rfl⟩
  · obtain ⟨l, el⟩ := hall q
    have e1 : Keypad.trace tbl as code (q + 1) = .ok (l ++ [.release]) := by
      rw [Keypad.trace, el, Res.ok_bind, e]
      simp
    have := hkeep (q + 1) _ e1 (n - (q + 1)) (by omega) (fun j hj hj' => hq j (by omega) hj')
    rw [show q + 1 + (n - (q + 1)) = n by omega] at this
    exact ⟨_, this, Or.inr (by simp)⟩

/-- A key whose bitmap is in no call gets no event. -/
theorem no_event {tbl ks : List (Keypad.Key w)} (h : Table tbl ks) (hc : (ks.map (·.code)).Nodup) (as : Nat → Keypad.Args w)
    (k : Keypad.Key w) (hk : k ∈ ks) (n : Nat) (hb : ∀ p ≤ n, (as p).bitvalue ≠ k.bitvalue) (e : Keypad.Event) (he : e ≠ .nothing) :
    Keypad.out tbl as n ≠ .ok (k.code, e) := by
  obtain ⟨i, hi, rfl⟩ := List.mem_iff_getElem.1 hk
  obtain ⟨st, ev, tbls, o, h0, hn⟩ := Keypad.key_history h hc as i hi
  have hst : ∀ p ≤ n + 1, (st p).oldvalue = false ∧ (st p).lastevent = .nothing ∧ ∀ q, q < p → ev q = .nothing := by
    intro p
    induction p with
    | zero =>
      intro _
      rw [h0]
      exact ⟨rfl, rfl, fun q hq => absurd hq (by omega)⟩
    | succ p ih =>
      intro hp
      obtain ⟨a, b, c⟩ := ih (by omega)
      obtain ⟨-, -, hstep, hbv, -⟩ := hn p
      have hne := hb p (by omega)
      rw [← hbv] at hne
      rcases hstep with ⟨hpass, he⟩ | ⟨k1, hs, hp⟩
      · rcases hpass with hp | ⟨h1, hp⟩
        · rw [hp]
          refine ⟨a, b, fun q hq => ?_⟩
          rcases Nat.lt_or_ge q p with h | h
          · exact c q h
          · rw [show q = p by omega]; exact he
        · exact absurd h1.symm hne
      · rcases hs with ⟨h1, _⟩ | ⟨_, h1, _⟩ | ⟨_, _, h1, h2, _⟩
        · exact absurd h1.symm hne
        · rw [a] at h1; cases h1
        · exact absurd b h2
  obtain ⟨-, -, c⟩ := hst (n + 1) (le_refl _)
  intro hout
  have h1 := (hn n).2.2.2.2.2.2.1
  rw [hout] at h1
  have := ((hn n).2.2.2.2.2.2.2 e he).1 (Res.ok.inj h1).symm
  exact he (by rw [← this, c n (by omega)])

/-! ## C190 -/

/-- No event of a key was reported before cycle `n`, or RELEASE was the last one. -/
def Spec.Idle (ev : Nat → Res (Int × Keypad.Event)) (code : Int) (n : Nat) : Prop :=
  (∀ j < n, ∀ e, e ≠ .nothing → ev j ≠ .ok (code, e)) ∨
    ∃ q < n, ev q = .ok (code, .release) ∧ ∀ j, q < j → j < n → ∀ e, e ≠ .nothing → ev j ≠ .ok (code, e)

/-- **C190.** Every event of a key comes after `d + 1` cycles in a row in which the raw input was 1, for each of the key's inputs; and after
them and up to a cycle at which the filtered inputs are the key's bitmap, there are no `d + 1` cycles in a row in which it was 0. -/
theorem C190_held (f g : Debounce.Filter v) (hl : f.count.length = v) (hg : Debounce.init f = .ok g) (tbl ks : List (Keypad.Key w))
    (h : Table tbl ks) (hc : (ks.map (·.code)).Nodup) (ins : Nat → BitVec v) (d : BitVec v) (ts : Nat → Times w) (k : Keypad.Key w)
    (hk : k ∈ ks) (n : Nat) (e : Keypad.Event) (he : e ≠ .nothing) (hev : event f tbl ins d ts n = .ok (k.code, e)) :
    ∃ p ≤ n, ∀ i, k.bitvalue.getLsbD i = true → ∃ m, d.toNat ≤ m ∧ m ≤ p ∧
      (∀ j, m - d.toNat ≤ j → j ≤ m → (ins j).getLsbD i = true) ∧
      ∀ q, m < q → q + d.toNat ≤ p → ∃ j, q ≤ j ∧ j ≤ q + d.toNat ∧ (ins j).getLsbD i = true := by
  obtain ⟨fs, h0, hrule, hloop⟩ := loop_eq f g hl hg tbl ks h ins d ts
  rw [(hloop n).2] at hev
  by_contra hcon
  refine no_event h hc _ k hk n ?_ e he hev
  intro p hp hb
  apply hcon
  refine ⟨p, hp, ?_⟩
  intro i hi
  have hb : (Debounce.value (fs (p + 1))).setWidth w = k.bitvalue := hb
  rw [← hb, BitVec.getLsbD_setWidth] at hi
  have hlev : (Debounce.value (fs (p + 1))).getLsbD i = true := by
    rw [Bool.and_eq_true] at hi; exact hi.2
  have hiv : i < v := by
    by_contra hiv
    rw [BitVec.getLsbD_of_ge _ _ (by omega)] at hlev
    cases hlev
  obtain ⟨m, h1, h2, h3, h4⟩ := level_high (hrule i hiv) (by simp [h0]) (p + 1) hlev
  refine ⟨m, h1, by omega, h3, ?_⟩
  intro q hq hqp
  by_contra hno
  have hall : ∀ j, q ≤ j → j ≤ q + d.toNat → (ins j).getLsbD i = false := by
    intro j hj hj'
    by_contra hx
    exact hno ⟨j, hj, hj', by simpa using hx⟩
  have hq1 := h4 (q + d.toNat) (by omega) (by omega)
  have hq2 := h4 (q + d.toNat + 1) (by omega) (by omega)
  have := (hrule i hiv (q + d.toNat)).2 ⟨by omega, fun j hj hj' => by
    rw [show q + d.toNat - d.toNat = q by omega] at hj
    refine ⟨(h4 j (by omega) (by omega)).trans hq1.symm, ?_⟩
    simp only [hall j hj hj', hq1]
    decide⟩
  exact this (by simp only [hq1, hq2])

/-- **C190.** A key of which an input never is 1 for `d + 1` cycles in a row has no events, however it bounces. -/
theorem C190_noise (f g : Debounce.Filter v) (hl : f.count.length = v) (hg : Debounce.init f = .ok g) (tbl ks : List (Keypad.Key w))
    (h : Table tbl ks) (hc : (ks.map (·.code)).Nodup) (ins : Nat → BitVec v) (d : BitVec v) (ts : Nat → Times w) (k : Keypad.Key w)
    (hk : k ∈ ks) (i : Nat) (hi : k.bitvalue.getLsbD i = true)
    (hq : ∀ m, d.toNat ≤ m → ∃ j, m - d.toNat ≤ j ∧ j ≤ m ∧ (ins j).getLsbD i = false) (n : Nat) (e : Keypad.Event) (he : e ≠ .nothing) :
    event f tbl ins d ts n ≠ .ok (k.code, e) := by
  intro hev
  obtain ⟨p, hp, hall⟩ := C190_held f g hl hg tbl ks h hc ins d ts k hk n e he hev
  obtain ⟨m, h1, h2, h3, -⟩ := hall i hi
  obtain ⟨j, a, b, c⟩ := hq m h1
  rw [h3 j a b] at c
  cases c

/-- **C190.** With all keys idle and all filtered inputs 0, a key is reported pressed in exactly the last of the first `d + 1` cycles whose
raw inputs are its bitmap. -/
theorem C190_press (hvw : v ≤ w) (f g : Debounce.Filter v) (hl : f.count.length = v) (hg : Debounce.init f = .ok g) (tbl ks : List (Keypad.Key w))
    (h : Table tbl ks) (hc : (ks.map (·.code)).Nodup) (ins : Nat → BitVec v) (d : BitVec v) (ts : Nat → Times w) (k : Keypad.Key w)
    (hk : k ∈ ks) (s : Nat)
    (hquiet : ∀ k ∈ ks, Spec.Idle (event f tbl ins d ts) k.code (s + d.toNat))
    (hzero : ∃ fs ks', loop f tbl ins d ts s = .ok (fs, ks') ∧ Debounce.value fs = 0)
    (hdown : ∀ j, s ≤ j → j ≤ s + d.toNat → (ins j).setWidth w = k.bitvalue)
    (hbefore : s = 0 ∨ ins (s - 1) = 0) :
    ∃ k' ∈ ks, k'.bitvalue = k.bitvalue ∧ event f tbl ins d ts (s + d.toNat) = .ok (k'.code, .press) := by
  obtain ⟨fs, h0, hrule, hloop⟩ := loop_eq f g hl hg tbl ks h ins d ts
  have hz : Debounce.value (fs s) = 0 := by
    obtain ⟨a, b, e1, e2⟩ := hzero
    obtain ⟨ks', e3, -⟩ := (hloop s).1
    rw [e1] at e3
    cases e3
    exact e2
  -- the level is 0 until the last sample
  have hlow : ∀ t, t ≤ d.toNat → Debounce.value (fs (s + t)) = 0 := by
    intro t
    induction t with
    | zero => exact fun _ => hz
    | succ t ih =>
      intro ht
      have iht := ih (by omega)
      apply BitVec.eq_of_getLsbD_eq
      intro i hi
      by_contra hne
      have h1 : (Debounce.value (fs (s + t + 1))).getLsbD i ≠ (Debounce.value (fs (s + t))).getLsbD i := by
        rw [iht]; exact hne
      obtain ⟨a, b⟩ := (hrule i hi (s + t)).1 h1
      have b := (b (s - 1) (by omega) (by omega)).2
      simp only [iht] at b
      rcases hbefore with hb | hb
      · omega
      · rw [hb] at b
        simp at b
  have hval : (Debounce.value (fs (s + d.toNat + 1))).setWidth w = k.bitvalue := by
    have hin := hdown (s + d.toNat) (by omega) (le_refl _)
    have : Debounce.value (fs (s + d.toNat + 1)) = ins (s + d.toNat) := by
      apply BitVec.eq_of_getLsbD_eq
      intro i hi
      have hlo := hlow d.toNat (le_refl _)
      have hins : ∀ j, s ≤ j → j ≤ s + d.toNat → (ins j).getLsbD i = (ins (s + d.toNat)).getLsbD i := by
        intro j hj hj'
        have := congrArg (fun x : BitVec w => x.getLsbD i) ((hdown j hj hj').trans hin.symm)
        simp only [BitVec.getLsbD_setWidth] at this
        simpa [show i < w by omega] using this
      by_cases hbit : (ins (s + d.toNat)).getLsbD i = true
      · have := (hrule i hi (s + d.toNat)).2 ⟨by omega, fun j hj hj' => by
          rw [show s + d.toNat - d.toNat = s by omega] at hj
          have := hlow (j - s) (by omega)
          rw [show s + (j - s) = j by omega] at this
          simp only [this, hlo, hins j hj hj', hbit]
          simp⟩
        simp only [hlo] at this
        rw [hbit]
        simpa using this
      · have hbit : (ins (s + d.toNat)).getLsbD i = false := by simpa using hbit
        rw [hbit]
        by_contra hne
        have h1 : (Debounce.value (fs (s + d.toNat + 1))).getLsbD i ≠ (Debounce.value (fs (s + d.toNat))).getLsbD i := by
          rw [hlo]; simpa using hne
        have b := ((hrule i hi (s + d.toNat)).1 h1).2 (s + d.toNat) (by omega) (by omega)
        simp only [hlo, hbit] at b
        simp at b
    rw [this, hin]
  rw [(hloop _).2]
  -- nothing was reported before
  have hidle : ∀ k ∈ ks, ∃ l, Keypad.trace tbl (fun n => args (ts n) (Debounce.value (fs (n + 1)))) k.code (s + d.toNat) = .ok l ∧
      (l = [] ∨ l.getLast? = some .release) := by
    intro k hk
    apply idle_trace h hc
    have e : event f tbl ins d ts = Keypad.out tbl (fun n => args (ts n) (Debounce.value (fs (n + 1)))) := funext fun n => (hloop n).2
    rw [← e]
    exact hquiet k hk
  obtain ⟨-, hpress⟩ := Keypad.C34_press tbl ks h hc (fun n => args (ts n) (Debounce.value (fs (n + 1)))) (s + d.toNat)
  obtain ⟨k', h1, h2, h3⟩ := (hpress hidle).1 ⟨k, hk, hval.symm⟩
  exact ⟨k', h1, h2.trans hval, h3⟩

/-- One key with the bitmap 4, debounce 2: it bounces in the cycles 0 to 2 and is down from 3 on; PRESS comes in cycle 5. -/
example : let f : Debounce.Filter 8 := ⟨0, 0, List.replicate 8 0⟩
    let tbl : List (Keypad.Key 8) := [⟨4, 7, 0, 0, false, false, false, .nothing⟩, ⟨0, 0, 0, 0, false, false, false, .nothing⟩]
    let ins : Nat → BitVec 8 := fun n => if n = 2 then 0 else 4
    let ts : Nat → Times 8 := fun n => ⟨10, 20, 5, BitVec.ofNat 8 n⟩
    (List.range 7).map (event f tbl ins 2 ts) =
      [.ok (0, .nothing), .ok (0, .nothing), .ok (0, .nothing), .ok (0, .nothing), .ok (0, .nothing), .ok (7, .press), .ok (7, .nothing)] := by
  decide +kernel

end Gel.Combined
