import Verif.Keypad.Lemmas

/-!
# Keypad: the history of one key
-/
namespace Gel.Keypad

open Time Spec

/-- What the member `lastevent` remembers of the last event. -/
def cls : Option Event → Event
  | none => .nothing
  | some .nothing => .nothing
  | some .press => .press
  | some .click => .click
  | some .pressing => .click
  | some .longclick => .longclick
  | some .longpress => .longclick
  | some .release => .release

/-- The events of a key in the first `n` calls. -/
def events (ev : Nat → Event) : Nat → List Event
  | 0 => []
  | n + 1 => if ev n ≠ .nothing then events ev n ++ [ev n] else events ev n

theorem lifeCycle_append {l : List Event} {e : Event} (h : LifeCycle l) (hn : Next l.getLast? e) :
    LifeCycle (l ++ [e]) := by
  intro pre x post hx
  rcases List.eq_nil_or_concat post with rfl | ⟨post', y, rfl⟩
  · rw [show pre ++ [x] = pre ++ [x] from rfl] at hx
    have h1 := List.append_inj' hx rfl
    cases h1.2
    rw [← h1.1]; exact hn
  · rw [List.concat_eq_append, show pre ++ x :: (post' ++ [y]) = (pre ++ x :: post') ++ [y] by simp] at hx
    have h1 := List.append_inj' hx rfl
    exact h pre x post' h1.1

/-- What holds of a key before call `n`. -/
structure Inv (w : Nat) (τ : Nat → Nat) (ev : Nat → Event) (n : Nat) (k : Key w) : Prop where
  cls : k.lastevent = cls (events ev n).getLast?
  press : k.lastevent = .press → k.oldvalue = true
  idle : k.lastevent = .nothing ∨ k.lastevent = .release → k.oldvalue = false
  ign : k.ignore = true ↔ k.lastevent = .nothing
  life : LifeCycle (events ev n)
  time : k.lastevent ≠ .nothing → ∃ p q, p ≤ q ∧ q < n ∧ ev p = .press ∧ (∀ j, p < j → j < n → ev j ≠ .press) ∧
    k.timeState = BitVec.ofNat w (τ q) ∧
    (k.lastevent = .press ∨ (k.lastevent = .click ∧ k.oldvalue = true) → q = p)

theorem inv_zero (τ : Nat → Nat) (ev : Nat → Event) (k : Key w) : Inv w τ ev 0 (fresh k) := by
  refine ⟨rfl, by simp [fresh], by simp [fresh], by simp [fresh], ?_, by simp [fresh]⟩
  intro pre e post h
  simp [events] at h

theorem next_cls {o : Option Event} {e c : Event} (h : c = cls o) (ho : o ≠ some .nothing)
    (hn : (c = .nothing ∧ e = .press) ∨ (c = .press ∧ (e = .click ∨ e = .longclick ∨ e = .release)) ∨
      (c = .click ∧ (e = .pressing ∨ e = .longclick ∨ e = .release ∨ e = .press)) ∨
      (c = .longclick ∧ (e = .longpress ∨ e = .release ∨ e = .press)) ∨ (c = .release ∧ e = .press)) : Next o e := by
  subst h
  cases o with
  | none => simpa [cls, Next] using hn
  | some x => cases x <;> simp_all [cls, Next]

theorem last_ne (ev : Nat → Event) (n : Nat) : (events ev n).getLast? ≠ some .nothing := by
  induction n with
  | zero => simp [events]
  | succ n ih =>
    rw [events]
    split_ifs with h
    · simpa using h
    · exact ih

theorem events_some {ev : Nat → Event} {n : Nat} (h : ev n ≠ .nothing) : events ev (n + 1) = events ev n ++ [ev n] := by
  rw [events, if_pos h]

theorem events_none {ev : Nat → Event} {n : Nat} (h : ev n = .nothing) : events ev (n + 1) = events ev n := by
  rw [events, if_neg (by simpa using h)]

/-- A step that reports nothing and keeps what matters. -/
theorem inv_quiet {τ : Nat → Nat} {ev : Nat → Event} {n : Nat} {k k' : Key w} (h : Inv w τ ev n k) (he : ev n = .nothing)
    (h1 : k'.lastevent = k.lastevent) (h2 : k'.oldvalue = k.oldvalue) (h3 : k'.ignore = k.ignore)
    (h4 : k'.timeState = k.timeState) : Inv w τ ev (n + 1) k' := by
  refine ⟨by rw [events_none he, h1]; exact h.cls, by rw [h1, h2]; exact h.press, by rw [h1, h2]; exact h.idle,
    by rw [h1, h3]; exact h.ign, by rw [events_none he]; exact h.life, ?_⟩
  rw [h1, h2, h4]
  intro hl
  obtain ⟨p, q, a1, a2, a3, a4, a5, a6⟩ := h.time hl
  refine ⟨p, q, a1, by omega, a3, ?_, a5, a6⟩
  intro j hj1 hj2
  by_cases hj : j = n
  · subst hj; rw [he]; decide
  · exact a4 j hj1 (by omega)

/-- A step that reports an event other than PRESS. -/
theorem inv_event {τ : Nat → Nat} {ev : Nat → Event} {n : Nat} {k k' : Key w} (h : Inv w τ ev n k)
    (he : ev n ≠ .nothing) (hp : ev n ≠ .press) (hn : Next (events ev n).getLast? (ev n))
    (h1 : k'.lastevent = cls (some (ev n))) (hl : k.lastevent ≠ .nothing)
    (h2 : k'.lastevent = .release → k'.oldvalue = false) (h3 : k'.ignore = false)
    (h4 : k'.timeState = k.timeState ∨ k'.timeState = BitVec.ofNat w (τ n))
    (h5 : k'.lastevent = .click → k'.oldvalue = true → k'.timeState = k.timeState ∧
      (k.lastevent = .press ∨ (k.lastevent = .click ∧ k.oldvalue = true))) : Inv w τ ev (n + 1) k' := by
  have hnp : k'.lastevent ≠ .press := by
    rw [h1]; revert hp; cases ev n <;> simp [Keypad.cls]
  have hnn : k'.lastevent ≠ .nothing := by
    rw [h1]; revert he; cases ev n <;> simp [Keypad.cls]
  refine ⟨?_, fun h => absurd h hnp, ?_, ?_, ?_, ?_⟩
  · rw [events_some he, List.getLast?_concat]; exact h1
  · rintro (h | h)
    · exact absurd h hnn
    · exact h2 h
  · rw [h3]; simp [hnn]
  · rw [events_some he]; exact lifeCycle_append h.life hn
  · intro _
    obtain ⟨p, q, a1, a2, a3, a4, a5, a6⟩ := h.time hl
    have hnopress : ∀ j, p < j → j < n + 1 → ev j ≠ .press := by
      intro j hj1 hj2
      by_cases hj : j = n
      · subst hj; exact hp
      · exact a4 j hj1 (by omega)
    by_cases hc : k'.lastevent = .click ∧ k'.oldvalue = true
    · obtain ⟨b1, b2⟩ := h5 hc.1 hc.2
      exact ⟨p, q, a1, by omega, a3, hnopress, by rw [b1]; exact a5, fun _ => a6 b2⟩
    · rcases h4 with h4 | h4
      · refine ⟨p, q, a1, by omega, a3, hnopress, by rw [h4]; exact a5, ?_⟩
        rintro (h | h)
        · exact absurd h hnp
        · exact absurd h hc
      · refine ⟨p, n, by omega, by omega, a3, hnopress, h4, ?_⟩
        rintro (h | h)
        · exact absurd h hnp
        · exact absurd h hc

theorem inv_step {τ : Nat → Nat} {ev : Nat → Event} {n : Nat} {k k' : Key w} {a : Args w}
    (ha : a.timestamp = BitVec.ofNat w (τ n)) (h : Inv w τ ev n k) (hs : Step a k k' (ev n)) :
    Inv w τ ev (n + 1) k' := by
  have hlast := last_ne ev n
  rcases hs with ⟨hp, he⟩ | ⟨k1, hs, hp⟩
  · refine inv_quiet h he ?_ ?_ ?_ ?_ <;> rcases hp with hp | ⟨_, hp⟩ <;> subst hp <;> rfl
  · have e1 : k1.lastevent = k.lastevent := by
      rcases hs with ⟨_, h⟩ | ⟨_, _, h⟩ | ⟨_, _, _, _, h⟩ <;> subst h <;> rfl
    have e2 : k1.oldvalue = k.oldvalue := by
      rcases hs with ⟨_, h⟩ | ⟨_, _, h⟩ | ⟨_, _, _, _, h⟩ <;> subst h <;> rfl
    have e3 : k1.ignore = k.ignore := by
      rcases hs with ⟨_, h⟩ | ⟨_, _, h⟩ | ⟨_, _, _, _, h⟩ <;> subst h <;> rfl
    have e4 : k1.timeState = k.timeState := by
      rcases hs with ⟨_, h⟩ | ⟨_, _, h⟩ | ⟨_, _, _, _, h⟩ <;> subst h <;> rfl
    have hcls := h.cls
    rw [process] at hp
    split_ifs at hp with c0 c1 c2 c3 c4 c5 c6
    all_goals (try simp only at hp)
    · -- CLICK
      obtain ⟨rfl, he⟩ := Prod.mk.inj hp
      rw [e1] at c1
      refine inv_event h (by rw [← he]; decide) (by rw [← he]; decide) ?_ (by rw [← he]; rfl)
        (by rw [c1.1]; decide) (by simp) (by simp [c0.2]) (Or.inl e4) ?_
      · rw [← he]; exact next_cls hcls hlast (Or.inr (Or.inl ⟨c1.1, by simp⟩))
      · intro _ _; exact ⟨e4, Or.inl c1.1⟩
    · -- RELEASE after the waiting time
      obtain ⟨rfl, he⟩ := Prod.mk.inj hp
      rw [e1] at c2
      have hign : k.lastevent ≠ .nothing := by
        intro hn
        have := h.ign.2 hn
        rw [← e3, c0.2] at this; cases this
      have hold : k.oldvalue = false := by rw [← e2, ← c0.1]; exact c2.2.1
      have hnp : k.lastevent ≠ .press := fun hc => by rw [h.press hc] at hold; cases hold
      have hnr : k.lastevent ≠ .release := by
        rcases c2.1 with hc | hc
        · exact hc
        · exact absurd hc hign
      refine inv_event h (by rw [← he]; decide) (by rw [← he]; decide) ?_ (by rw [← he]; rfl) hign ?_ (by simp [c0.2])
        (Or.inl e4) (by simp)
      · rw [← he]
        apply next_cls hcls hlast
        have : k.lastevent ≠ .pressing ∧ k.lastevent ≠ .longpress := by
          rw [hcls]; cases (events ev n).getLast? with
          | none => simp [Keypad.cls]
          | some x => cases x <;> simp [Keypad.cls]
        revert hign hnp hnr this
        cases k.lastevent <;> simp
      · intro _; simp only; rw [e2]; exact hold
    · -- LONGCLICK
      obtain ⟨rfl, he⟩ := Prod.mk.inj hp
      rw [e1] at c3
      refine inv_event h (by rw [← he]; decide) (by rw [← he]; decide) ?_ (by rw [← he]; rfl) ?_ (by simp)
        (by simp [c0.2]) (Or.inr ha) (by simp)
      · rw [← he]
        apply next_cls hcls hlast
        rcases c3.1 with hc | hc <;> rw [hc] <;> simp
      · rcases c3.1 with hc | hc <;> rw [hc] <;> decide
    · -- LONGPRESS
      obtain ⟨rfl, he⟩ := Prod.mk.inj hp
      rw [e1] at c4
      refine inv_event h (by rw [← he]; decide) (by rw [← he]; decide) ?_ (by rw [← he]; simp [e1, c4.1, Keypad.cls])
        (by rw [c4.1]; decide) (by simp [e1, c4.1]) (by simp [c0.2]) (Or.inl e4) (by simp [e1, c4.1])
      rw [← he]; exact next_cls hcls hlast (by rw [c4.1]; simp)
    · -- PRESSING
      obtain ⟨rfl, he⟩ := Prod.mk.inj hp
      rw [e1] at c5
      have hold : k.oldvalue = true := by rw [← e2, ← c0.1]; exact c5.2.1
      refine inv_event h (by rw [← he]; decide) (by rw [← he]; decide) ?_ (by rw [← he]; simp [e1, c5.1, Keypad.cls])
        (by rw [c5.1]; decide) (by simp [e1, c5.1]) (by simp [c0.2]) (Or.inl e4) ?_
      · rw [← he]; exact next_cls hcls hlast (by rw [c5.1]; simp)
      · intro _ _; exact ⟨e4, Or.inr ⟨c5.1, hold⟩⟩
    · obtain ⟨rfl, he⟩ := Prod.mk.inj hp
      exact inv_quiet h he.symm e1 e2 e3 e4
    · -- PRESS
      split_ifs at hp with c7 c8
      · obtain ⟨rfl, he⟩ := Prod.mk.inj hp
        have hold : k.oldvalue = false := by
          rw [← e2]; rw [c7] at c6; simpa using c6
        have hnp : k.lastevent ≠ .press := fun hc => by rw [h.press hc] at hold; cases hold
        have hne : ev n ≠ .nothing := by rw [← he]; decide
        have hnext : Next (events ev n).getLast? (ev n) := by
          rw [← he]
          apply next_cls hcls hlast
          have : k.lastevent ≠ .pressing ∧ k.lastevent ≠ .longpress := by
            rw [hcls]; cases (events ev n).getLast? with
            | none => simp [Keypad.cls]
            | some x => cases x <;> simp [Keypad.cls]
          revert hnp this
          cases k.lastevent <;> simp
        refine ⟨?_, fun _ => c7, by simp, by simp, ?_, ?_⟩
        · rw [events_some hne, List.getLast?_concat, ← he]; rfl
        · rw [events_some hne]; exact lifeCycle_append h.life hnext
        · intro _
          exact ⟨n, n, Nat.le_refl _, by omega, he.symm, by intro j hj1 hj2; omega, ha, fun _ => rfl⟩
      · -- immediate RELEASE
        obtain ⟨rfl, he⟩ := Prod.mk.inj hp
        rw [e1] at c8
        refine inv_event h (by rw [← he]; decide) (by rw [← he]; decide) ?_ (by rw [← he]; rfl) (by rw [c8]; decide)
          (by intro _; simpa using c7) rfl (Or.inr ha) (by simp)
        rw [← he]; exact next_cls hcls hlast (by rw [c8]; simp)
      · -- released, waiting
        obtain ⟨rfl, he⟩ := Prod.mk.inj hp
        rw [e1] at c8
        have hv : k1.value = false := by simpa using c7
        have hold : k.oldvalue = true := by
          rw [← e2]; rw [hv] at c6; simpa using c6
        have hnn : k.lastevent ≠ .nothing := fun hc => by rw [h.idle (Or.inl hc)] at hold; cases hold
        refine ⟨by rw [events_none he.symm]; exact e1.trans hcls, ?_, fun _ => hv, ?_, ?_, ?_⟩
        · intro hc; exact absurd (e1.symm.trans hc) c8
        · simp only [e1]; simp [hnn]
        · rw [events_none he.symm]; exact h.life
        · intro _
          obtain ⟨p, q, a1, a2, a3, a4, a5, a6⟩ := h.time hnn
          refine ⟨p, n, by omega, by omega, a3, ?_, ha, ?_⟩
          · intro j hj1 hj2
            by_cases hj : j = n
            · subst hj; rw [← he]; decide
            · exact a4 j hj1 (by omega)
          · rintro (hc | hc)
            · exact absurd (e1.symm.trans hc) c8
            · have := hc.2; simp only at this; rw [hv] at this; cases this
    · obtain ⟨rfl, he⟩ := Prod.mk.inj hp
      exact inv_quiet h he.symm e1 e2 e3 e4

theorem inv_all {τ : Nat → Nat} {ev : Nat → Event} {as : Nat → Args w} {st : Nat → Key w}
    (ha : ∀ n, (as n).timestamp = BitVec.ofNat w (τ n)) (h0 : ∃ k, st 0 = fresh k)
    (hs : ∀ n, Step (as n) (st n) (st (n + 1)) (ev n)) (n : Nat) : Inv w τ ev n (st n) := by
  induction n with
  | zero => obtain ⟨k, hk⟩ := h0; rw [hk]; exact inv_zero τ ev k
  | succ n ih => exact inv_step (ha n) ih (hs n)

end Gel.Keypad
