import Verif.Keypad.Props

/-!
# Keypad: repeated events and the exact events of one key, properties C117 and C118
-/
namespace Gel.Keypad

open Time Spec

/-! ## C117 -/

/-- What the member `timePeriod` remembers: the time of the last event, if it is one of those that start or continue a
repetition. -/
def Rep (w : Nat) (τ : Nat → Nat) (ev : Nat → Event) (n : Nat) (k : Key w) : Prop :=
  k.lastevent = .click ∨ k.lastevent = .longclick → ∃ p, p < n ∧ k.timePeriod = BitVec.ofNat w (τ p) ∧
    (∀ j, p < j → j < n → ev j = .nothing) ∧ (k.lastevent = .click → ev p = .click ∨ ev p = .pressing) ∧
    (k.lastevent = .longclick → ev p = .longclick ∨ ev p = .longpress)

theorem rep_quiet {τ : Nat → Nat} {ev : Nat → Event} {n : Nat} {k k' : Key w} (h : Rep w τ ev n k)
    (he : ev n = .nothing) (h1 : k'.lastevent = k.lastevent) (h2 : k'.timePeriod = k.timePeriod) :
    Rep w τ ev (n + 1) k' := by
  intro hl
  rw [h1] at hl
  obtain ⟨p, a1, a2, a3, a4, a5⟩ := h hl
  refine ⟨p, by omega, h2.trans a2, ?_, by rw [h1]; exact a4, by rw [h1]; exact a5⟩
  intro j hj1 hj2
  by_cases hj : j = n
  · subst hj; exact he
  · exact a3 j hj1 (by omega)

theorem rep_now {τ : Nat → Nat} {ev : Nat → Event} {n : Nat} {k' : Key w} (h2 : k'.timePeriod = BitVec.ofNat w (τ n))
    (h3 : k'.lastevent = .click → ev n = .click ∨ ev n = .pressing)
    (h4 : k'.lastevent = .longclick → ev n = .longclick ∨ ev n = .longpress) : Rep w τ ev (n + 1) k' :=
  fun _ => ⟨n, by omega, h2, by intro j h1 h2; omega, h3, h4⟩

theorem rep_step {τ : Nat → Nat} {ev : Nat → Event} {n : Nat} {k k' : Key w} {a : Args w}
    (ha : a.timestamp = BitVec.ofNat w (τ n)) (h : Rep w τ ev n k) (hs : Step a k k' (ev n)) : Rep w τ ev (n + 1) k' := by
  rcases hs with ⟨hp, he⟩ | ⟨k1, hs, hp⟩
  · refine rep_quiet h he ?_ ?_ <;> rcases hp with hp | ⟨_, hp⟩ <;> subst hp <;> rfl
  · have e1 : k1.lastevent = k.lastevent := by
      rcases hs with ⟨_, h⟩ | ⟨_, _, h⟩ | ⟨_, _, _, _, h⟩ <;> subst h <;> rfl
    have e2 : k1.timePeriod = k.timePeriod := by
      rcases hs with ⟨_, h⟩ | ⟨_, _, h⟩ | ⟨_, _, _, _, h⟩ <;> subst h <;> rfl
    rw [process] at hp
    split_ifs at hp with c0 c1 c2 c3 c4 c5 c6
    all_goals (try simp only at hp)
    · obtain ⟨rfl, he⟩ := Prod.mk.inj hp
      exact rep_now ha (fun _ => Or.inl he.symm) (by simp)
    · obtain ⟨rfl, he⟩ := Prod.mk.inj hp
      intro hl; simp at hl
    · obtain ⟨rfl, he⟩ := Prod.mk.inj hp
      exact rep_now ha (by simp) (fun _ => Or.inl he.symm)
    · obtain ⟨rfl, he⟩ := Prod.mk.inj hp
      exact rep_now ha (by simp [c4.1]) (fun _ => Or.inr he.symm)
    · obtain ⟨rfl, he⟩ := Prod.mk.inj hp
      exact rep_now ha (fun _ => Or.inr he.symm) (by simp [c5.1])
    · obtain ⟨rfl, he⟩ := Prod.mk.inj hp
      exact rep_quiet h he.symm e1 e2
    · split_ifs at hp with c7 c8
      · obtain ⟨rfl, he⟩ := Prod.mk.inj hp
        intro hl; simp at hl
      · obtain ⟨rfl, he⟩ := Prod.mk.inj hp
        intro hl; simp at hl
      · obtain ⟨rfl, he⟩ := Prod.mk.inj hp
        exact rep_quiet h he.symm e1 e2
    · obtain ⟨rfl, he⟩ := Prod.mk.inj hp
      exact rep_quiet h he.symm e1 e2

/-- **C117.** A PRESSING (LONGPRESS) of a key is reported only in a call with the key's bitmap; the event reported for
the key before it is CLICK or PRESSING (LONGCLICK or LONGPRESS), strictly more than `press_period` ago. -/
theorem C117_repeat (tbl ks : List (Key w)) (h : Table tbl ks) (hc : (ks.map (·.code)).Nodup) (as : Nat → Args w)
    (τ : Nat → Nat) (hτ : ∀ n, τ n ≤ τ (n + 1)) (hts : ∀ n, (as n).timestamp = BitVec.ofNat w (τ n))
    (k : Key w) (hk : k ∈ ks) (n : Nat) :
    (out tbl as n = .ok (k.code, .pressing) → (as n).bitvalue = k.bitvalue ∧
      ∃ p, p < n ∧ (out tbl as p = .ok (k.code, .click) ∨ out tbl as p = .ok (k.code, .pressing)) ∧
        (∀ j e, p < j → j < n → out tbl as j = .ok (k.code, e) → e = .nothing) ∧
        (2 * τ n ≤ 2 * τ p + 2 ^ w → 2 * (as n).period.toNat < 2 ^ w → τ p + (as n).period.toNat < τ n)) ∧
    (out tbl as n = .ok (k.code, .longpress) → (as n).bitvalue = k.bitvalue ∧
      ∃ p, p < n ∧ (out tbl as p = .ok (k.code, .longclick) ∨ out tbl as p = .ok (k.code, .longpress)) ∧
        (∀ j e, p < j → j < n → out tbl as j = .ok (k.code, e) → e = .nothing) ∧
        (2 * τ n ≤ 2 * τ p + 2 ^ w → 2 * (as n).period.toNat < 2 ^ w → τ p + (as n).period.toNat < τ n)) := by
  obtain ⟨i, hi, rfl⟩ := List.mem_iff_getElem.1 hk
  obtain ⟨st, ev, tbls, o, h0, hn⟩ := key_history h hc as i hi
  have hrep : ∀ n, Rep w τ ev n (st n) := by
    intro n
    induction n with
    | zero => rw [h0]; intro hl; simp [fresh] at hl
    | succ n ih => exact rep_step (hts n) ih (hn n).2.2.1
  have hmono : ∀ a b, a ≤ b → τ a ≤ τ b := by
    intro a b hab
    induction b with
    | zero => have : a = 0 := by omega
              subst this; exact Nat.le_refl _
    | succ b ih =>
      by_cases h1 : a = b + 1
      · subst h1; exact Nat.le_refl _
      · have := ih (by omega)
        have := hτ b
        omega
  have hev : ∀ m e, e ≠ .nothing → (out tbl as m = .ok (ks[i].code, e) ↔ ev m = e) := by
    intro m e he
    rw [(hn m).2.2.2.2.2.2.1, Res.ok.injEq]
    exact (hn m).2.2.2.2.2.2.2 e he
  have hno : ∀ p, (∀ j, p < j → j < n → ev j = .nothing) →
      ∀ j e, p < j → j < n → out tbl as j = .ok (ks[i].code, e) → e = .nothing := by
    intro p hp j e h1 h2 h3
    by_contra he
    rw [hev j e he, hp j h1 h2] at h3
    exact he h3.symm
  have hstep := (hn n).2.2.1
  have hbit := (hn n).2.2.2.1
  -- a key that is pressed and was before
  have hmatch : ∀ k1, seen (as n).bitvalue (st n) k1 → k1.value = k1.oldvalue → k1.value = true →
      (st n).bitvalue = (as n).bitvalue ∧ k1.lastevent = (st n).lastevent ∧ k1.timePeriod = (st n).timePeriod := by
    intro k1 hs hv ht
    rcases hs with ⟨h1, h2⟩ | ⟨_, _, h2⟩ | ⟨_, ho, _, _, h2⟩ <;> subst h2
    · exact ⟨h1, rfl, rfl⟩
    · cases ht
    · rw [ht, ho] at hv; cases hv
  constructor
  · intro ho
    rw [hev n .pressing (by decide)] at ho
    rw [ho] at hstep
    rcases hstep with ⟨_, he⟩ | ⟨k1, hs, hp⟩
    · cases he
    · rw [process] at hp
      split_ifs at hp with c0 c1 c2 c3 c4 c5 c6
      all_goals (try simp only at hp)
      any_goals (first | (have := congrArg Prod.snd hp; cases this; done) | skip)
      · obtain ⟨m1, m2, m3⟩ := hmatch k1 hs c0.1 c5.2.1
        obtain ⟨p, a1, a2, a3, a4, a5⟩ := hrep n (Or.inl (m2 ▸ c5.1))
        refine ⟨m1 ▸ hbit, p, a1, ?_, hno p a3, ?_⟩
        · rcases a4 (m2 ▸ c5.1) with h | h
          · exact Or.inl ((hev p _ (by decide)).2 h)
          · exact Or.inr ((hev p _ (by decide)).2 h)
        · intro b1 b2
          have hx := c5.2.2
          rw [m3, a2, hts n] at hx
          exact (strictly_nat w _ _ _ (hmono p n (by omega)) b1 b2).1 hx
      · split_ifs at hp
        all_goals (have := congrArg Prod.snd hp; cases this)
  · intro ho
    rw [hev n .longpress (by decide)] at ho
    rw [ho] at hstep
    rcases hstep with ⟨_, he⟩ | ⟨k1, hs, hp⟩
    · cases he
    · rw [process] at hp
      split_ifs at hp with c0 c1 c2 c3 c4 c5 c6
      all_goals (try simp only at hp)
      any_goals (first | (have := congrArg Prod.snd hp; cases this; done) | skip)
      · obtain ⟨m1, m2, m3⟩ := hmatch k1 hs c0.1 c4.2.1
        obtain ⟨p, a1, a2, a3, a4, a5⟩ := hrep n (Or.inr (m2 ▸ c4.1))
        refine ⟨m1 ▸ hbit, p, a1, ?_, hno p a3, ?_⟩
        · rcases a5 (m2 ▸ c4.1) with h | h
          · exact Or.inl ((hev p _ (by decide)).2 h)
          · exact Or.inr ((hev p _ (by decide)).2 h)
        · intro b1 b2
          have hx := c4.2.2
          rw [m3, a2, hts n] at hx
          exact (strictly_nat w _ _ _ (hmono p n (by omega)) b1 b2).1 hx
      · split_ifs at hp
        all_goals (have := congrArg Prod.snd hp; cases this)

example : out table held 3 = .ok (10, .pressing) ∧ out table held 2 = .ok (10, .click) ∧
    out table held 7 = .ok (10, .longpress) ∧ out table held 6 = .ok (10, .longclick) := by decide

/-! ## C118 -/

/-- A key: untouched, down since `t0`, clicked (down since `t0`, last reported at `tl`), held for long (last reported at
`tl`), let go at `t1`. -/
inductive Phase where
  | idle | pressed (t0 : Nat) | clicked (t0 tl : Nat) | long (tl : Nat) | up (t1 : Nat)
  deriving DecidableEq, Repr

/-- What is to be reported for a key at time `t` and what becomes of it; times are true times, without wrap-around. -/
def Phase.next (click longclick period t : Nat) (held : Bool) : Phase → Phase × Event
  | .idle => if held then (.pressed t, .press) else (.idle, .nothing)
  | .pressed t0 =>
    if !held then (.idle, .release)
    else if t0 + click < t then (.clicked t0 t, .click)
    else (.pressed t0, .nothing)
  | .clicked t0 tl =>
    if !held then (.up t, .nothing)
    else if t0 + longclick < t then (.long t, .longclick)
    else if tl + period < t then (.clicked t0 t, .pressing)
    else (.clicked t0 tl, .nothing)
  | .long tl =>
    if !held then (.up t, .nothing)
    else if tl + period < t then (.long t, .longpress)
    else (.long tl, .nothing)
  | .up t1 =>
    if held then (.pressed t, .press)
    else if t1 + click < t then (.idle, .release)
    else (.up t1, .nothing)

/-- The times a phase refers to. -/
def Phase.refs : Phase → List Nat
  | .idle => []
  | .pressed t0 => [t0]
  | .clicked t0 tl => [t0, tl]
  | .long tl => [tl]
  | .up t1 => [t1]

/-- The phase before call `n`. -/
def phase (as : Nat → Args w) (τ : Nat → Nat) (b : BitVec w) : Nat → Phase
  | 0 => .idle
  | n + 1 => ((phase as τ b n).next (as n).click.toNat (as n).longclick.toNat (as n).period.toNat (τ n)
      (decide ((as n).bitvalue = b))).1

/-- The key in the table, against the phase. -/
def Rel (k0 k : Key w) : Phase → Prop
  | .idle => k.bitvalue = k0.bitvalue ∧ k.code = k0.code ∧ k.oldvalue = false ∧
      (k.lastevent = .nothing ∨ k.lastevent = .release)
  | .pressed t0 => k.bitvalue = k0.bitvalue ∧ k.code = k0.code ∧ k.oldvalue = true ∧ k.lastevent = .press ∧
      k.ignore = false ∧ k.timeState = BitVec.ofNat w t0
  | .clicked t0 tl => k.bitvalue = k0.bitvalue ∧ k.code = k0.code ∧ k.oldvalue = true ∧ k.lastevent = .click ∧
      k.ignore = false ∧ k.timeState = BitVec.ofNat w t0 ∧ k.timePeriod = BitVec.ofNat w tl
  | .long tl => k.bitvalue = k0.bitvalue ∧ k.code = k0.code ∧ k.oldvalue = true ∧ k.lastevent = .longclick ∧
      k.ignore = false ∧ k.timePeriod = BitVec.ofNat w tl
  | .up t1 => k.bitvalue = k0.bitvalue ∧ k.code = k0.code ∧ k.oldvalue = false ∧ k.value = false ∧
      (k.lastevent = .click ∨ k.lastevent = .longclick) ∧ k.ignore = false ∧ k.timeState = BitVec.ofNat w t1

/-- Untouched keys are passed over. -/
theorem scan_fresh (bv : BitVec w) (tl : List (Key w)) : ∀ (ks : List (Key w)) (i : Nat) (f : Option Nat),
    (∀ k ∈ ks, k.bitvalue ≠ 0 ∧ k.bitvalue ≠ bv) →
    scan bv (ks.map fresh ++ tl) i f =
      (do let (l, g) ← scan bv tl (i + ks.length) f; pure (ks.map fresh ++ l, g)) := by
  intro ks
  induction ks with
  | nil => intro i f _; cases h : scan bv tl i f <;> simp [h]
  | cons k ks ih =>
    intro i f hk
    have h1 := hk k (by simp)
    simp only [List.map_cons, List.cons_append]
    rw [scan, if_neg (by exact h1.1), if_neg (by exact h1.2), if_neg (by simp [fresh]), if_neg (by simp [fresh]),
      ih _ _ fun x hx => hk x (by simp [hx])]
    rw [show i + 1 + ks.length = i + (k :: ks).length by simp; omega]
    cases scan bv tl (i + (k :: ks).length) f <;> rfl

/-- What a call does to a key if the others are untouched: the key, the code and the event returned. -/
def one (a : Args w) (k : Key w) : Key w × Int × Event :=
  if k.bitvalue = a.bitvalue then
    ((process a { k with value := true }).1, k.code, (process a { k with value := true }).2)
  else if k.oldvalue then ((process a { k with value := false }).1, k.code, (process a { k with value := false }).2)
  else if k.lastevent ≠ .release ∧ k.lastevent ≠ .nothing then ((process a k).1, k.code, (process a k).2)
  else (k, 0, .nothing)

/-- A call that touches one key only. -/
theorem routine_one (a : Args w) (pre post : List (Key w)) (k t : Key w) (rest : List (Key w)) (ht : t.bitvalue = 0)
    (hpre : ∀ x ∈ pre, x.bitvalue ≠ 0 ∧ x.bitvalue ≠ a.bitvalue)
    (hpost : ∀ x ∈ post, x.bitvalue ≠ 0 ∧ x.bitvalue ≠ a.bitvalue) (hk : k.bitvalue ≠ 0) :
    routine (pre.map fresh ++ k :: (post.map fresh ++ t :: rest)) a =
      .ok (pre.map fresh ++ (one a k).1 :: (post.map fresh ++ t :: rest), (one a k).2) := by
  have hend : ∀ i f, scan a.bitvalue (post.map fresh ++ t :: rest) i f = .ok (post.map fresh ++ t :: rest, f) := by
    intro i f
    rw [scan_fresh _ _ _ _ _ hpost, scan, if_pos ht]; rfl
  have hfin : ∀ k1 : Key w, k1.code = k.code →
      ((do let k' ← rd (pre.map fresh ++ k1 :: (post.map fresh ++ t :: rest)) pre.length
           let (k'', e) := process a k'
           let keys ← wr (pre.map fresh ++ k1 :: (post.map fresh ++ t :: rest)) pre.length k''
           pure (keys, k'.code, e)) : Res (List (Key w) × Int × Event)) =
      .ok (pre.map fresh ++ (process a k1).1 :: (post.map fresh ++ t :: rest), k.code, (process a k1).2) := by
    intro k1 hc
    rw [rd, List.getElem?_append_right (by simp)]
    simp only [List.length_map, Nat.sub_self, List.getElem?_cons_zero, Res.ok_bind]
    rw [wr, if_pos (by simp), List.set_append_right _ _ (by simp)]
    simp [hc]
  rw [routine, scan_fresh _ _ _ _ _ hpre, Nat.zero_add, scan, if_neg hk, one]
  split_ifs with h1 h2 h3
  · rw [hend]
    simp only [Res.ok_bind, Res.pure_eq]
    exact hfin { k with value := true } rfl
  · simp only [Res.ok_bind, Res.pure_eq]
    exact hfin { k with value := false } rfl
  · simp only [Res.ok_bind, Res.pure_eq]
    exact hfin k rfl
  · rw [hend]; rfl

theorem rel_step (a : Args w) (k0 k : Key w) (ph : Phase) (t : Nat) (hr : Rel k0 k ph)
    (ht : a.timestamp = BitVec.ofNat w t) (hrefs : ∀ r ∈ ph.refs, r ≤ t ∧ 2 * t ≤ 2 * r + 2 ^ w)
    (h1 : a.click.toNat ≤ a.longclick.toNat) (h2 : 2 * a.longclick.toNat < 2 ^ w) (h3 : 2 * a.period.toNat < 2 ^ w) :
    let n := ph.next a.click.toNat a.longclick.toNat a.period.toNat t (decide (a.bitvalue = k0.bitvalue))
    Rel k0 (one a k).1 n.1 ∧ (one a k).2.2 = n.2 ∧ (n.2 ≠ .nothing → (one a k).2.1 = k0.code) := by
  have hx : ∀ r, r ∈ ph.refs → ∀ d : BitVec w, 2 * d.toNat < 2 ^ w →
      (isStrictlyExpired (BitVec.ofNat w r) (BitVec.ofNat w t) d = true ↔ r + d.toNat < t) := fun r h d hd =>
    strictly_nat w _ _ _ (hrefs r h).1 (hrefs r h).2 hd
  have hcl : 2 * a.click.toNat < 2 ^ w := by omega
  simp only
  cases ph with
  | idle =>
    obtain ⟨b, c, o, l⟩ := hr
    by_cases hb : a.bitvalue = k0.bitvalue
    · simp [one, b, hb, process, o, Phase.next, Rel, c, ht]
    · have hb' : ¬ k0.bitvalue = a.bitvalue := fun h => hb h.symm
      have hl : ¬ (k.lastevent ≠ .release ∧ k.lastevent ≠ .nothing) := by
        rintro ⟨x, y⟩; rcases l with l | l
        · exact y l
        · exact x l
      simp [one, b, hb, hb', o, Phase.next, Rel, c, l, hl]
  | pressed t0 =>
    obtain ⟨b, c, o, l, g, s⟩ := hr
    have hx0 := hx t0 (by simp [Phase.refs])
    by_cases hb : a.bitvalue = k0.bitvalue
    · have e1 := hx0 a.click hcl
      have e2 := hx0 a.longclick h2
      by_cases h5 : t0 + a.click.toNat < t
      · simp [one, b, hb, process, o, Phase.next, Rel, c, ht, l, g, s, e1, h5]
      · simp [one, b, hb, process, o, Phase.next, Rel, c, ht, l, g, s, e1, e2, h5, show ¬ t0 + a.longclick.toNat < t by omega]
    · have hb' : ¬ k0.bitvalue = a.bitvalue := fun h => hb h.symm
      simp [one, b, hb, hb', process, o, Phase.next, Rel, c, ht, l]
  | clicked t0 tl =>
    obtain ⟨b, c, o, l, g, s, q⟩ := hr
    by_cases hb : a.bitvalue = k0.bitvalue
    · have e2 := hx t0 (by simp [Phase.refs]) a.longclick h2
      have e3 := hx tl (by simp [Phase.refs]) a.period h3
      by_cases h5 : t0 + a.longclick.toNat < t
      · simp [one, b, hb, process, o, Phase.next, Rel, c, ht, l, g, s, e2, h5]
      · by_cases h6 : tl + a.period.toNat < t
        · simp [one, b, hb, process, o, Phase.next, Rel, c, ht, l, g, s, q, e2, e3, h5, h6]
        · simp [one, b, hb, process, o, Phase.next, Rel, c, ht, l, g, s, q, e2, e3, h5, h6]
    · have hb' : ¬ k0.bitvalue = a.bitvalue := fun h => hb h.symm
      simp [one, b, hb, hb', process, o, Phase.next, Rel, c, ht, l]
  | long tl =>
    obtain ⟨b, c, o, l, g, q⟩ := hr
    by_cases hb : a.bitvalue = k0.bitvalue
    · have e3 := hx tl (by simp [Phase.refs]) a.period h3
      by_cases h6 : tl + a.period.toNat < t
      · simp [one, b, hb, process, o, Phase.next, Rel, c, ht, l, g, q, e3, h6]
      · simp [one, b, hb, process, o, Phase.next, Rel, c, ht, l, g, q, e3, h6]
    · have hb' : ¬ k0.bitvalue = a.bitvalue := fun h => hb h.symm
      simp [one, b, hb, hb', process, o, Phase.next, Rel, c, ht, l]
  | up t1 =>
    obtain ⟨b, c, o, v, l, g, s⟩ := hr
    have hl : k.lastevent ≠ .release ∧ k.lastevent ≠ .nothing ∧ k.lastevent ≠ .press := by
      rcases l with l | l <;> rw [l] <;> decide
    by_cases hb : a.bitvalue = k0.bitvalue
    · simp [one, b, hb, process, o, Phase.next, Rel, c, ht]
    · have hb' : ¬ k0.bitvalue = a.bitvalue := fun h => hb h.symm
      have e1 := hx t1 (by simp [Phase.refs]) a.click hcl
      have e2 := hx t1 (by simp [Phase.refs]) a.longclick h2
      by_cases h5 : t1 + a.click.toNat < t
      · simp [one, b, hb, hb', process, o, v, Phase.next, Rel, c, ht, hl, g, s, e1, h5]
      · simp [one, b, hb, hb', process, o, v, Phase.next, Rel, c, ht, hl, l, g, s, e1, e2, h5,
          show ¬ t1 + a.longclick.toNat < t by omega]

theorem refs_next (click longclick period t : Nat) (held : Bool) (ph : Phase) (h : ∀ r ∈ ph.refs, r ≤ t) :
    ∀ r ∈ (ph.next click longclick period t held).1.refs, r ≤ t := by
  cases ph <;> simp only [Phase.next] <;> split_ifs <;> simp_all [Phase.refs]

/-- **C118.** The events of a key while no call has the bitmap of another key, exactly. -/
theorem C118_exact (pre post rest : List (Key w)) (k t : Key w) (ht : t.bitvalue = 0) (hk : k.bitvalue ≠ 0)
    (as : Nat → Args w) (τ : Nat → Nat) (hτ : ∀ n, τ n ≤ τ (n + 1))
    (hts : ∀ n, (as n).timestamp = BitVec.ofNat w (τ n))
    (hother : ∀ x ∈ pre ++ post, x.bitvalue ≠ 0 ∧ ∀ n, x.bitvalue ≠ (as n).bitvalue)
    (hclick : ∀ n, (as n).click.toNat ≤ (as n).longclick.toNat) (hlong : ∀ n, 2 * (as n).longclick.toNat < 2 ^ w)
    (hperiod : ∀ n, 2 * (as n).period.toNat < 2 ^ w)
    (hnear : ∀ n, ∀ r ∈ (phase as τ k.bitvalue n).refs, 2 * τ n ≤ 2 * r + 2 ^ w) (n : Nat) :
    ∃ c, out (pre ++ k :: (post ++ t :: rest)) as n = .ok (c, ((phase as τ k.bitvalue n).next (as n).click.toNat
        (as n).longclick.toNat (as n).period.toNat (τ n) (decide ((as n).bitvalue = k.bitvalue))).2) ∧
      (((phase as τ k.bitvalue n).next (as n).click.toNat (as n).longclick.toNat (as n).period.toNat (τ n)
        (decide ((as n).bitvalue = k.bitvalue))).2 ≠ .nothing → c = k.code) := by
  have key : ∀ n, ∃ k', run (pre ++ k :: (post ++ t :: rest)) as n =
      .ok (pre.map fresh ++ k' :: (post.map fresh ++ t :: rest)) ∧ Rel k k' (phase as τ k.bitvalue n) ∧
      ∀ r ∈ (phase as τ k.bitvalue n).refs, r ≤ τ n := by
    intro n
    induction n with
    | zero =>
      refine ⟨fresh k, ?_, ⟨rfl, rfl, rfl, Or.inl rfl⟩, by simp [phase, Phase.refs]⟩
      have := reset_eq t rest ht (pre ++ k :: post) (by
        intro x hx
        rcases List.mem_append.1 hx with hx | hx
        · exact (hother x (by simp [hx])).1
        · rcases List.mem_cons.1 hx with rfl | hx
          · exact hk
          · exact (hother x (by simp [hx])).1)
      simpa [run] using this
    | succ n ih =>
      obtain ⟨k', e, r, q⟩ := ih
      have hb : k'.bitvalue ≠ 0 := by
        have : k'.bitvalue = k.bitvalue := by cases hp : phase as τ k.bitvalue n <;> rw [hp] at r <;> exact r.1
        rw [this]; exact hk
      have hs := rel_step (as n) k k' _ (τ n) r (hts n) (fun x hx => ⟨q x hx, hnear n x hx⟩) (hclick n) (hlong n) (hperiod n)
      simp only at hs
      refine ⟨(one (as n) k').1, ?_, hs.1, ?_⟩
      · rw [run, e, Res.ok_bind, routine_one (as n) pre post k' t rest ht
          (fun x hx => ⟨(hother x (by simp [hx])).1, (hother x (by simp [hx])).2 n⟩)
          (fun x hx => ⟨(hother x (by simp [hx])).1, (hother x (by simp [hx])).2 n⟩) hb]
        rfl
      · intro x hx
        exact Nat.le_trans (refs_next _ _ _ _ _ _ q x hx) (hτ n)
  obtain ⟨k', e, r, q⟩ := key n
  have hb : k'.bitvalue ≠ 0 := by
    have : k'.bitvalue = k.bitvalue := by cases hp : phase as τ k.bitvalue n <;> rw [hp] at r <;> exact r.1
    rw [this]; exact hk
  have hs := rel_step (as n) k k' _ (τ n) r (hts n) (fun x hx => ⟨q x hx, hnear n x hx⟩) (hclick n) (hlong n) (hperiod n)
  simp only at hs
  refine ⟨(one (as n) k').2.1, ?_, hs.2.2⟩
  rw [out, e, Res.ok_bind, routine_one (as n) pre post k' t rest ht
    (fun x hx => ⟨(hother x (by simp [hx])).1, (hother x (by simp [hx])).2 n⟩)
    (fun x hx => ⟨(hother x (by simp [hx])).1, (hother x (by simp [hx])).2 n⟩) hb, ← hs.2.1]
  rfl

example : (List.range 12).map (fun n => (out table held n)) = (List.range 12).map fun n =>
    .ok (if (phase held (fun n => 240 + 4 * n) 1 n = .idle) ∧ n > 0 then 0 else 10,
      ((phase held (fun n => 240 + 4 * n) 1 n).next 5 20 3 (240 + 4 * n) (decide ((held n).bitvalue = 1))).2) := by decide

example : (List.range 12).map (phase held (fun n => 240 + 4 * n) 1) =
    [.idle, .pressed 240, .pressed 240, .clicked 240 248, .clicked 240 252, .clicked 240 256, .clicked 240 260, .long 264,
      .long 268, .up 272, .up 272, .idle] := by decide

end Gel.Keypad
