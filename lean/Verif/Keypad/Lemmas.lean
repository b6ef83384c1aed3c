import Verif.Keypad.Spec
import Verif.Time.CheckProps
import Mathlib.Tactic.Choose
import Mathlib.Tactic.SplitIfs
import Mathlib.Tactic.ByContra

/-!
# Keypad: lemmas
-/
namespace Gel.Keypad

open Time Spec

/-- The value the loop assigns to the key it finds. -/
def seen (bv : BitVec w) (k k' : Key w) : Prop :=
  (k.bitvalue = bv ∧ k' = { k with value := true }) ∨
  (k.bitvalue ≠ bv ∧ k.oldvalue = true ∧ k' = { k with value := false }) ∨
  (k.bitvalue ≠ bv ∧ k.oldvalue = false ∧ k.lastevent ≠ .release ∧ k.lastevent ≠ .nothing ∧ k' = k)

/-- What the loop does to the other keys. -/
def passed (bv : BitVec w) (k k' : Key w) : Prop := k' = k ∨ (k.bitvalue = bv ∧ k' = { k with value := true })

theorem scan_eq (bv : BitVec w) (t : Key w) (rest : List (Key w)) (ht : t.bitvalue = 0) :
    ∀ (ks : List (Key w)) (i : Nat) (found : Option Nat), (∀ k ∈ ks, k.bitvalue ≠ 0) →
    (∀ x, found = some x → x < i) →
    ∃ ks' f, scan bv (ks ++ t :: rest) i found = .ok (ks' ++ t :: rest, f) ∧ ks'.length = ks.length ∧
      (∀ j k k', ks[j]? = some k → ks'[j]? = some k' →
        (f = some (i + j) → seen bv k k') ∧ (f ≠ some (i + j) → passed bv k k')) ∧
      (f = found ∨ ∃ j, j < ks.length ∧ f = some (i + j)) := by
  intro ks
  induction ks with
  | nil =>
    intro i found _ _
    refine ⟨[], found, ?_, rfl, by simp, Or.inl rfl⟩
    show scan bv (t :: rest) i found = _
    rw [scan, if_pos ht]; rfl
  | cons k ks ih =>
    intro i found hk hf
    have hk0 : k.bitvalue ≠ 0 := hk k (by simp)
    have hks : ∀ k ∈ ks, k.bitvalue ≠ 0 := fun x hx => hk x (by simp [hx])
    simp only [List.cons_append]
    rw [scan, if_neg hk0]
    by_cases hb : k.bitvalue = bv
    · rw [if_pos hb]
      obtain ⟨ks', f, e, l, p, q⟩ := ih (i + 1) (some i) hks (by intro x hx; cases hx; omega)
      rw [e]
      refine ⟨{ k with value := true } :: ks', f, rfl, by simp [l], ?_, ?_⟩
      · intro j a a' h1 h2
        cases j with
        | zero =>
          simp at h1 h2
          subst h1; subst h2
          exact ⟨fun _ => Or.inl ⟨hb, rfl⟩, fun _ => Or.inr ⟨hb, rfl⟩⟩
        | succ j =>
          simp at h1 h2
          have := p j a a' h1 h2
          rw [show i + 1 + j = i + (j + 1) by omega] at this
          exact this
      · right
        rcases q with q | ⟨j, hj, q⟩
        · exact ⟨0, by simp, q⟩
        · exact ⟨j + 1, by simp; omega, by rw [q]; congr 1; omega⟩
    · rw [if_neg hb]
      have same : ∀ (hd : Key w), seen bv k hd → ∃ ks' f, (Res.ok (hd :: (ks ++ t :: rest), some i) : Res _) =
          .ok (ks' ++ t :: rest, f) ∧ ks'.length = (k :: ks).length ∧
          (∀ j a a', (k :: ks)[j]? = some a → ks'[j]? = some a' →
            (f = some (i + j) → seen bv a a') ∧ (f ≠ some (i + j) → passed bv a a')) ∧
          (f = found ∨ ∃ j, j < (k :: ks).length ∧ f = some (i + j)) := by
        intro hd hseen
        refine ⟨hd :: ks, some i, rfl, rfl, ?_, Or.inr ⟨0, by simp, rfl⟩⟩
        intro j a a' h1 h2
        cases j with
        | zero =>
          simp at h1 h2
          subst h1; subst h2
          exact ⟨fun _ => hseen, fun h => absurd rfl h⟩
        | succ j =>
          simp at h1 h2
          rw [h1] at h2; cases h2
          refine ⟨fun h => ?_, fun _ => Or.inl rfl⟩
          injection h with h; omega
      by_cases ho : k.oldvalue = true
      · rw [if_pos ho]; exact same _ (Or.inr (Or.inl ⟨hb, ho, rfl⟩))
      · rw [if_neg ho]
        by_cases hl : k.lastevent ≠ .release ∧ k.lastevent ≠ .nothing
        · rw [if_pos hl]
          exact same _ (Or.inr (Or.inr ⟨hb, by simpa using ho, hl.1, hl.2, rfl⟩))
        · rw [if_neg hl]
          obtain ⟨ks', f, e, l, p, q⟩ := ih (i + 1) found hks (by intro x hx; have := hf x hx; omega)
          rw [e]
          refine ⟨k :: ks', f, rfl, by simp [l], ?_, ?_⟩
          · intro j a a' h1 h2
            cases j with
            | zero =>
              simp at h1 h2
              subst h1; subst h2
              refine ⟨fun h => ?_, fun _ => Or.inl rfl⟩
              exfalso
              rcases q with q | ⟨j, hj, q⟩
              · rw [q] at h; have := hf _ h; omega
              · rw [q] at h; injection h with h; omega
            | succ j =>
              simp at h1 h2
              have := p j a a' h1 h2
              rw [show i + 1 + j = i + (j + 1) by omega] at this
              exact this
          · rcases q with q | ⟨j, hj, q⟩
            · exact Or.inl q
            · exact Or.inr ⟨j + 1, by simp; omega, by rw [q]; congr 1; omega⟩

/-- What a call does to one key: the key afterwards and the event reported for it. -/
def Step (a : Args w) (k k' : Key w) (e : Event) : Prop :=
  (passed a.bitvalue k k' ∧ e = .nothing) ∨ ∃ k1, seen a.bitvalue k k1 ∧ process a k1 = (k', e)

theorem process_id (a : Args w) (k : Key w) :
    (process a k).1.bitvalue = k.bitvalue ∧ (process a k).1.code = k.code := by
  simp only [process]
  split_ifs <;> exact ⟨rfl, rfl⟩

theorem seen_id {bv : BitVec w} {k k' : Key w} (h : seen bv k k') : k'.bitvalue = k.bitvalue ∧ k'.code = k.code := by
  rcases h with ⟨_, h⟩ | ⟨_, _, h⟩ | ⟨_, _, _, _, h⟩ <;> subst h <;> exact ⟨rfl, rfl⟩

theorem passed_id {bv : BitVec w} {k k' : Key w} (h : passed bv k k') :
    k'.bitvalue = k.bitvalue ∧ k'.code = k.code := by
  rcases h with h | ⟨_, h⟩ <;> subst h <;> exact ⟨rfl, rfl⟩

theorem Step.id {a : Args w} {k k' : Key w} {e : Event} (h : Step a k k' e) :
    k'.bitvalue = k.bitvalue ∧ k'.code = k.code := by
  rcases h with ⟨h, _⟩ | ⟨k1, h, hp⟩
  · exact passed_id h
  · have h1 := seen_id h
    have h2 := process_id a k1
    rw [hp] at h2
    exact ⟨h2.1.trans h1.1, h2.2.trans h1.2⟩

/-- A call on a table: a step of every key, at most one of which reports an event. -/
theorem routine_eq (a : Args w) (ks : List (Key w)) (t : Key w) (rest : List (Key w)) (ht : t.bitvalue = 0)
    (hk : ∀ k ∈ ks, k.bitvalue ≠ 0) :
    ∃ ks' c e, routine (ks ++ t :: rest) a = .ok (ks' ++ t :: rest, c, e) ∧ ks'.length = ks.length ∧
      ((e = .nothing ∧ ∀ (j : Nat) k k', ks[j]? = some k → ks'[j]? = some k' → passed a.bitvalue k k') ∨
        ∃ (i : Nat) (k : Key w), ks[i]? = some k ∧ c = k.code ∧ (∀ k', ks'[i]? = some k' → ∃ k1, seen a.bitvalue k k1 ∧
          process a k1 = (k', e)) ∧
        ∀ (j : Nat) k k', j ≠ i → ks[j]? = some k → ks'[j]? = some k' → passed a.bitvalue k k') := by
  obtain ⟨ks', f, e, l, p, q⟩ := scan_eq a.bitvalue t rest ht ks 0 none hk (by simp)
  rw [routine, e, Res.ok_bind]
  simp only
  rcases q with q | ⟨i, hi, q⟩
  · subst q
    refine ⟨ks', 0, .nothing, rfl, l, Or.inl ⟨rfl, ?_⟩⟩
    intro j k k' h1 h2
    exact (p j k k' h1 h2).2 (by simp)
  · rw [Nat.zero_add] at q
    subst q
    have hi' : i < ks'.length := by omega
    have hget : (ks' ++ t :: rest)[i]? = some ks'[i] := by
      rw [List.getElem?_append_left hi', List.getElem?_eq_getElem hi']
    simp only [rd, hget, Res.ok_bind]
    rw [wr, if_pos (by simp; omega)]
    simp only [Res.ok_bind, List.set_append_left _ _ hi']
    have hk' : ks'[i]? = some ks'[i] := List.getElem?_eq_getElem hi'
    have hki : ks[i]? = some ks[i] := List.getElem?_eq_getElem hi
    have hs := (p i ks[i] ks'[i] hki hk').1 (by simp)
    refine ⟨ks'.set i (process a ks'[i]).1, ks'[i].code, (process a ks'[i]).2, rfl, by simp [l], Or.inr ?_⟩
    refine ⟨i, ks[i], hki, (seen_id hs).2, ?_, ?_⟩
    · intro k' h
      rw [List.getElem?_set_self hi'] at h
      cases h
      exact ⟨ks'[i], hs, rfl⟩
    · intro j k k' hj h1 h2
      rw [List.getElem?_set_ne (fun h => hj h.symm)] at h2
      exact (p j k k' h1 h2).2 (by simp; omega)

/-- A key after `keypad_reset_keys`. -/
def fresh (k : Key w) : Key w :=
  { k with timeState := 0, timePeriod := 0, lastevent := .nothing, oldvalue := false, value := false, ignore := true }

theorem reset_eq (t : Key w) (rest : List (Key w)) (ht : t.bitvalue = 0) :
    ∀ (ks : List (Key w)), (∀ k ∈ ks, k.bitvalue ≠ 0) →
    reset (ks ++ t :: rest) = .ok (ks.map fresh ++ t :: rest) := by
  intro ks
  induction ks with
  | nil => intro _; show reset (t :: rest) = _; rw [reset, if_pos ht]; rfl
  | cons k ks ih =>
    intro hk
    simp only [List.cons_append]
    rw [reset, if_neg (hk k (by simp)), ih fun x hx => hk x (by simp [hx])]
    rfl

/-- The history of a table, key by key: `st n i` is key `i` before call `n` and `ev n i` the event call `n` reports for
it. -/
theorem run_eq {tbl ks : List (Key w)} (h : Table tbl ks) (as : Nat → Args w) (d : Key w) :
    ∃ (sts : Nat → List (Key w)) (o : Nat → Int × Event) (ev : Nat → Nat → Event) (t : Key w) (rest : List (Key w)),
      sts 0 = ks.map fresh ∧ ∀ n,
      run tbl as n = .ok (sts n ++ t :: rest) ∧ (sts n).length = ks.length ∧ out tbl as n = .ok (o n) ∧
      (∀ i, i < ks.length → Step (as n) ((sts n).getD i d) ((sts (n + 1)).getD i d) (ev n i) ∧
        ((sts n).getD i d).bitvalue = (ks.getD i d).bitvalue ∧ ((sts n).getD i d).code = (ks.getD i d).code) ∧
      (((o n).2 = .nothing ∧ ∀ i, ev n i = .nothing) ∨
        ∃ i, i < ks.length ∧ (o n).1 = (ks.getD i d).code ∧ (o n).2 = ev n i ∧ ∀ j, j ≠ i → ev n j = .nothing) := by
  obtain ⟨hb, t, rest, ht, htbl⟩ := h
  subst htbl
  -- the states
  have hrun : ∀ n, ∃ l, run (ks ++ t :: rest) as n = .ok (l ++ t :: rest) ∧ l.length = ks.length ∧
      ∀ i, i < ks.length → (l.getD i d).bitvalue = (ks.getD i d).bitvalue ∧ (l.getD i d).code = (ks.getD i d).code := by
    intro n
    induction n with
    | zero =>
      refine ⟨ks.map fresh, reset_eq t rest ht ks hb, by simp, ?_⟩
      intro i hi
      simp [List.getD_eq_getElem?_getD, hi, fresh]
    | succ n ih =>
      obtain ⟨l, e, hl, hid⟩ := ih
      have hlb : ∀ k ∈ l, k.bitvalue ≠ 0 := by
        intro k hk
        obtain ⟨i, hi, rfl⟩ := List.mem_iff_getElem.1 hk
        have := (hid i (by omega)).1
        simp only [List.getD_eq_getElem?_getD, List.getElem?_eq_getElem hi,
          List.getElem?_eq_getElem (show i < ks.length by omega), Option.getD_some] at this
        rw [this]; exact hb _ (List.getElem_mem _)
      obtain ⟨l', c, e', er, hl', hstep⟩ := routine_eq (as n) l t rest ht hlb
      refine ⟨l', by rw [run, e, Res.ok_bind, er]; rfl, by omega, ?_⟩
      intro i hi
      have h1 : l[i]? = some (l.getD i d) := by
        simp [List.getD_eq_getElem?_getD, List.getElem?_eq_getElem (show i < l.length by omega)]
      have h2 : l'[i]? = some (l'.getD i d) := by
        simp [List.getD_eq_getElem?_getD, List.getElem?_eq_getElem (show i < l'.length by omega)]
      have hs : Step (as n) (l.getD i d) (l'.getD i d) e' ∨ passed (as n).bitvalue (l.getD i d) (l'.getD i d) := by
        rcases hstep with ⟨_, hp⟩ | ⟨m, km, hm, _, hpr, hp⟩
        · exact Or.inr (hp i _ _ h1 h2)
        · by_cases him : i = m
          · subst him
            rw [h1] at hm; cases hm
            exact Or.inl (Or.inr (hpr _ h2))
          · exact Or.inr (hp i _ _ him h1 h2)
      have hid' : (l'.getD i d).bitvalue = (l.getD i d).bitvalue ∧ (l'.getD i d).code = (l.getD i d).code := by
        rcases hs with hs | hs
        · exact hs.id
        · exact passed_id hs
      exact ⟨hid'.1.trans (hid i hi).1, hid'.2.trans (hid i hi).2⟩
  choose sts hsts using hrun
  -- the outputs and events
  have hout : ∀ n, ∃ (o : Int × Event) (ev : Nat → Event), out (ks ++ t :: rest) as n = .ok o ∧
      (∀ i, i < ks.length → Step (as n) ((sts n).getD i d) ((sts (n + 1)).getD i d) (ev i)) ∧
      ((o.2 = .nothing ∧ ∀ i, ev i = .nothing) ∨
        ∃ i, i < ks.length ∧ o.1 = (ks.getD i d).code ∧ o.2 = ev i ∧ ∀ j, j ≠ i → ev j = .nothing) := by
    intro n
    obtain ⟨e, hl, hid⟩ := hsts n
    obtain ⟨e', hl1, hid1⟩ := hsts (n + 1)
    have hlb : ∀ k ∈ sts n, k.bitvalue ≠ 0 := by
      intro k hk
      obtain ⟨i, hi, rfl⟩ := List.mem_iff_getElem.1 hk
      have := (hid i (by omega)).1
      simp only [List.getD_eq_getElem?_getD, List.getElem?_eq_getElem hi,
        List.getElem?_eq_getElem (show i < ks.length by omega), Option.getD_some] at this
      rw [this]; exact hb _ (List.getElem_mem _)
    obtain ⟨l', c, ee, er, hl', hstep⟩ := routine_eq (as n) (sts n) t rest ht hlb
    have hl1' : l' = sts (n + 1) := by
      rw [run, e, Res.ok_bind, er] at e'
      have : l' ++ t :: rest = sts (n + 1) ++ t :: rest := Res.ok.inj e'
      exact List.append_cancel_right this
    subst hl1'
    have h1 : ∀ i, i < ks.length → (sts n)[i]? = some ((sts n).getD i d) := fun i hi => by
      simp [List.getD_eq_getElem?_getD, List.getElem?_eq_getElem (show i < (sts n).length by omega)]
    have h2 : ∀ i, i < ks.length → (sts (n + 1))[i]? = some ((sts (n + 1)).getD i d) := fun i hi => by
      simp [List.getD_eq_getElem?_getD, List.getElem?_eq_getElem (show i < (sts (n + 1)).length by omega)]
    have ho : out (ks ++ t :: rest) as n = .ok (c, ee) := by rw [out, e, Res.ok_bind, er]; rfl
    rcases hstep with ⟨hn, hp⟩ | ⟨m, km, hm, hc, hpr, hp⟩
    · exact ⟨(c, ee), fun _ => .nothing, ho, fun i hi => Or.inl ⟨hp i _ _ (h1 i hi) (h2 i hi), rfl⟩,
        Or.inl ⟨hn, fun _ => rfl⟩⟩
    · have hmlt : m < ks.length := by
        rw [← hl]; exact (List.getElem?_eq_some_iff.1 hm).1
      have hkm : km = (sts n).getD m d := by rw [h1 m hmlt] at hm; injection hm with hm; exact hm.symm
      refine ⟨(c, ee), fun i => if i = m then ee else .nothing, ho, ?_, Or.inr ⟨m, hmlt, ?_, by simp, ?_⟩⟩
      · intro i hi
        by_cases him : i = m
        · subst him
          simp only [if_true]
          rw [hkm] at hpr
          exact Or.inr (hpr _ (h2 i hi))
        · simp only [if_neg him]
          exact Or.inl ⟨hp i _ _ him (h1 i hi) (h2 i hi), rfl⟩
      · show c = _
        rw [hc, hkm]; exact (hid m hmlt).2
      · intro j hj; simp [hj]
  choose o ev ho using hout
  refine ⟨sts, o, ev, t, rest, ?_, fun n => ⟨(hsts n).1, (hsts n).2.1, (ho n).1, fun i hi => ⟨(ho n).2.1 i hi,
    (hsts n).2.2 i hi⟩, (ho n).2.2⟩⟩
  have := (hsts 0).1
  rw [run, reset_eq t rest ht ks hb] at this
  exact (List.append_cancel_right (Res.ok.inj this)).symm

end Gel.Keypad
