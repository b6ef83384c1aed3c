import Verif.Scheduler.Init

/-!
# Scheduler: the table after every history of calls (C184), and the map with an `int` of 16 bits (C185)
-/
namespace Gel.Scheduler
open Spec

/-! ## C184 -/

/-- The calls that change the table. `modify` is `scheduler_get_entry_mut` followed by a write through the pointer, if it is not
`NULL`. -/
inductive Call where
  | set (i : Nat) (e : Entry)
  | disable (i : Nat)
  | modify (i : Nat) (f : Entry → Entry)

/-- One call and what it returns; for `modify` whether there was a pointer (0) or `NULL` (-1). -/
def call (s : Sched) : Call → Res (Sched × Int)
  | .set i e => setEntry s i e
  | .disable i => disable s i
  | .modify i f => do
    let p ← getEntry s i
    match p with
    | none => pure (s, -1)
    | some e => do
      let s ← wr s i (f e)
      pure (s, 0)

def calls (s : Sched) : List Call → Res (Sched × List Int)
  | [] => .ok (s, [])
  | c :: cs => do
    let (s, r) ← call s c
    let (s, rs) ← calls s cs
    pure (s, r :: rs)

namespace Spec

def index : Call → Nat
  | .set i _ | .disable i | .modify i _ => i

/-- Entry `i` after the calls, the newest first: only the calls with its index matter. -/
def entryAt (i : Nat) : List Call → Entry
  | [] => ⟨0, 0, 0, 0, 0⟩
  | c :: cs =>
    if index c = i then
      match c with
      | .set _ e => e
      | .disable _ => { entryAt i cs with enabled := 0 }
      | .modify _ f => f (entryAt i cs)
    else entryAt i cs

end Spec

theorem calls_append (s : Sched) (cs : List Call) (c : Call) : calls s (cs ++ [c]) = (do
    let (s, rs) ← calls s cs
    let (s, r) ← call s c
    pure (s, rs ++ [r])) := by
  induction cs generalizing s with
  | nil => simp only [List.nil_append, calls, Res.ok_bind]
  | cons d cs ih =>
    simp only [List.cons_append, calls, ih]
    cases call s d with
    | ok r => simp only [Res.ok_bind]; cases calls r.1 cs with
      | ok r => simp only [Res.ok_bind, Res.pure_eq]; cases call r.1 c <;> simp
      | _ => simp
    | _ => simp

/-- **C184.** After any history of calls from `scheduler_init` on, every entry is what the calls with its index made of it; a call
succeeds exactly if its index is inside the table, and no access leaves the table. -/
theorem C184_table (n : Nat) (cs : List Call) :
    ∃ s, calls (init n) cs = .ok (s, cs.map fun c => if Spec.index c < n then 0 else -1) ∧ s.length = n ∧
      ∀ i < n, getEntry s i = .ok (some (entryAt i cs.reverse)) ∧ isEnabled s i = .ok (entryAt i cs.reverse).enabled := by
  have key : ∀ ds : List Call, ∃ s, calls (init n) ds.reverse = .ok (s, ds.reverse.map fun c => if Spec.index c < n then 0 else -1) ∧
      s.length = n ∧ ∀ i < n, s[i]? = some (entryAt i ds) := by
    intro ds
    induction ds with
    | nil => exact ⟨init n, rfl, by simp [init], fun i hi => by simp [init, hi, entryAt, zeroEntry]⟩
    | cons d ds ih =>
      obtain ⟨s, e, hl, hg⟩ := ih
      have hone : ∃ s', call s d = .ok (s', if Spec.index d < n then 0 else -1) ∧ s'.length = n ∧
          ∀ i < n, s'[i]? = some (entryAt i (d :: ds)) := by
        by_cases hd : Spec.index d < n
        · have hsome := hg _ hd
          have hin : Spec.index d < s.length := by omega
          cases d with
          | set j x =>
            refine ⟨s.set j x, ?_, by simpa using hl, ?_⟩
            · rw [if_pos hd]
              exact (C85_inside s j x hin).2.2.1
            · intro i hi
              simp only [entryAt, Spec.index] at hd hin ⊢
              by_cases hji : j = i
              · subst hji; simp [hin]
              · simp [hji, hg i hi]
          | disable j =>
            simp only [Spec.index] at hd hin hsome
            refine ⟨s.set j { s[j] with enabled := 0 }, ?_, by simpa using hl, ?_⟩
            · rw [call, (C85_inside s j zeroEntry hin).2.2.2]; simp [Spec.index, hd]
            · intro i hi
              simp only [entryAt, Spec.index]
              by_cases hji : j = i
              · subst hji
                rw [List.getElem?_eq_getElem hin] at hsome
                have := Option.some.inj hsome
                simp [hin, this]
              · simp [hji, hg i hi]
          | modify j f =>
            simp only [Spec.index] at hd hin hsome
            refine ⟨s.set j (f s[j]), ?_, by simpa using hl, ?_⟩
            · rw [call, (C85_inside s j zeroEntry hin).1]; simp [Spec.index, hd, wr, hin]
            · intro i hi
              simp only [entryAt, Spec.index]
              by_cases hji : j = i
              · subst hji
                rw [List.getElem?_eq_getElem hin] at hsome
                have := Option.some.inj hsome
                simp [hin, this]
              · simp [hji, hg i hi]
        · refine ⟨s, ?_, hl, ?_⟩
          · rw [if_neg hd]
            cases d with
            | set j x => exact (C85_outside s j x (by simp only [Spec.index] at hd; omega)).2.1
            | disable j => exact (C85_outside s j zeroEntry (by simp only [Spec.index] at hd; omega)).2.2
            | modify j f =>
              rw [call, (C85_outside s j zeroEntry (by simp only [Spec.index] at hd; omega)).1]; rfl
          · intro i hi
            have hne : ¬ Spec.index d = i := by omega
            have he : entryAt i (d :: ds) = entryAt i ds := by cases d <;> exact if_neg hne
            rw [he]
            exact hg i hi
      obtain ⟨s', e1, hl1, hg1⟩ := hone
      refine ⟨s', ?_, hl1, hg1⟩
      rw [List.reverse_cons, calls_append, e]
      simp [e1]
  obtain ⟨s, e, hl, hg⟩ := key cs.reverse
  rw [List.reverse_reverse] at e
  refine ⟨s, e, hl, fun i hi => ?_⟩
  have h1 := hg i hi
  rw [List.getElem?_eq_getElem (by omega)] at h1
  have h2 := Option.some.inj h1
  obtain ⟨a, b, -, -⟩ := C85_inside s i zeroEntry (by omega)
  rw [a, b, h2]
  exact ⟨rfl, rfl⟩

example : (calls (init 3) [.set 1 ⟨1, 127, 10, 20, 5⟩, .set 3 ⟨1, 1, 1, 1, 1⟩, .modify 1 (fun e => { e with value := 7 }), .disable 1,
      .modify 0 (fun e => { e with enabled := 1 })]) =
    .ok ([⟨1, 0, 0, 0, 0⟩, ⟨0, 127, 10, 20, 7⟩, ⟨0, 0, 0, 0, 0⟩], [0, -1, 0, 0, 0]) := by decide

/-! ## C185 -/

/-- `scheduler_get_active_entries_map`, scheduler.c:202-210, with an `int` of 16 bits. -/
def activeMap16 (tm : Tm) : List Entry → Nat → BitVec 16 → Res (BitVec 16)
  | [], _, acc => .ok acc
  | e :: es, i, acc => do
    let b ← shlS false (if isActive e tm then 1#16 else 0#16) i
    activeMap16 tm es (i + 1) (acc ||| b)

theorem shl_16 (b : Bool) : ∀ i < 15, ∃ v, shlS false (if b then 1#32 else 0#32) i = .ok v ∧
    shlS false (if b then 1#16 else 0#16) i = .ok (v.setWidth 16) := by
  intro i hi
  refine ⟨(if b then 1#32 else 0#32) <<< i, ?_⟩
  revert i b
  decide

theorem shl_16_beyond (b : Bool) (i : Nat) (h : 15 ≤ i) : shlS false (if b then 1#16 else 0#16) i =
    if i = 15 ∧ b = false then .ok 0 else .ub := by
  by_cases h1 : i = 15
  · subst h1
    cases b <;> decide
  · rw [if_neg (show ¬ (i = 15 ∧ b = false) from fun h => h1 h.1), shlS, if_neg]
    rintro ⟨h2, -⟩
    omega

/-- **C185, partial.** With up to 15 entries, or 16 of which the last is not active, the map is the one of C86. Missing: 16 entries of
which the last is active, and more, for which it is undefined (`C185_wrong`). -/
theorem C185_map_partial (s : Sched) (tm : Tm) (h : s.length ≤ 15 ∨ (s.length = 16 ∧ ∀ e, s[15]? = some e → isActive e tm = false)) :
    activeMap16 tm s 0 0 = activeMap tm s 0 0 := by
  have key : ∀ (l : List Entry) (i : Nat) (acc : BitVec 16),
      (i + l.length ≤ 15 ∨ (i + l.length = 16 ∧ ∀ e, l.getLast? = some e → isActive e tm = false)) →
      activeMap16 tm l i acc = activeMap tm l i acc := by
    intro l
    induction l with
    | nil => intros; rfl
    | cons e l ih =>
      intro i acc h
      simp only [List.length_cons] at h
      by_cases hi : i < 15
      · obtain ⟨v, h1, h2⟩ := shl_16 (isActive e tm) i hi
        rw [activeMap16, activeMap, h1, h2, Res.ok_bind, Res.ok_bind]
        apply ih
        rcases h with h | ⟨h, hl⟩
        · exact Or.inl (by omega)
        · refine Or.inr ⟨by omega, fun x hx => hl x ?_⟩
          cases l with
          | nil => cases hx
          | cons y l => simpa using hx
      · rcases h with h | ⟨h, hl⟩
        · omega
        · have h0 : l = [] := List.length_eq_zero_iff.1 (by omega)
          have h15 : i = 15 := by omega
          subst h0 h15
          have ha := hl e rfl
          have e32 : shlS false 0#32 15 = .ok 0#32 := by decide
          have e16 : shlS false 0#16 15 = .ok 0#16 := by decide
          simp only [activeMap16, activeMap, ha, Bool.false_eq_true, if_false, e32, e16, Res.ok_bind]
          rfl
  refine key s 0 0 ?_
  rcases h with h | ⟨h, hl⟩
  · exact Or.inl (by omega)
  · refine Or.inr ⟨by omega, fun e he => hl e ?_⟩
    rw [List.getLast?_eq_getElem?, h] at he
    exact he

/-- **C185 is false of the code** otherwise: undefined, while with 32 bits it is defined for up to 31 entries. -/
theorem C185_wrong (s : Sched) (tm : Tm) (h : ¬ (s.length ≤ 15 ∨ (s.length = 16 ∧ ∀ e, s[15]? = some e → isActive e tm = false))) :
    activeMap16 tm s 0 0 = .ub := by
  have key : ∀ (l : List Entry) (i : Nat) (acc : BitVec 16), i ≤ 15 →
      ¬ (i + l.length ≤ 15 ∨ (i + l.length = 16 ∧ ∀ e, l.getLast? = some e → isActive e tm = false)) →
      activeMap16 tm l i acc = .ub := by
    intro l
    induction l with
    | nil => intro i acc hi h; exact absurd (Or.inl (by simpa using hi)) h
    | cons e l ih =>
      intro i acc hi h
      simp only [List.length_cons] at h
      by_cases hlt : i < 15
      · obtain ⟨v, h1, h2⟩ := shl_16 (isActive e tm) i hlt
        rw [activeMap16, h2, Res.ok_bind]
        apply ih _ _ (by omega)
        rintro (h' | ⟨h', hl⟩)
        · exact h (Or.inl (by omega))
        · refine h (Or.inr ⟨by omega, fun x hx => hl x ?_⟩)
          cases l with
          | nil => simp at h'; omega
          | cons y l => simpa using hx
      · have h15 : i = 15 := by omega
        subst h15
        rw [activeMap16, shl_16_beyond _ _ (Nat.le_refl _)]
        cases ha : isActive e tm with
        | true => simp
        | false =>
          cases l with
          | nil =>
            refine absurd (Or.inr ⟨rfl, fun x hx => ?_⟩) h
            cases hx
            exact ha
          | cons y l =>
            have := shl_16_beyond (isActive y tm) 16 (by decide)
            simp only [activeMap16, this]
            rfl
  refine key s 0 0 (by decide) ?_
  rintro (h' | ⟨h', hl⟩)
  · exact h (Or.inl (by omega))
  · refine h (Or.inr ⟨by omega, fun e he => hl e ?_⟩)
    rw [List.getLast?_eq_getElem?, show s.length - 1 = 15 by omega]
    exact he

/-- Sixteen entries of which the last is active: bit 15 with 32 bits, undefined with 16. -/
example :
    let s := List.replicate 15 zeroEntry ++ [⟨1, 127, 0, 86400, 1⟩]
    activeMap ⟨1, 12, 0, 0⟩ s 0 0 = .ok 0x8000 ∧ activeMap16 ⟨1, 12, 0, 0⟩ s 0 0 = .ub ∧
    activeMap16 ⟨1, 12, 0, 0⟩ (s.drop 1) 0 0 = .ok 0x4000 := by decide

end Gel.Scheduler
