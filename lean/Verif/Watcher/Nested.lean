import Verif.Watcher.Callbacks
import Verif.Watcher.Props
import Mathlib.Data.Finset.Card
import Mathlib.Data.Finset.Range
import Mathlib.Data.List.Perm.Basic

/-!
# Watchers: property C149, callbacks that call the functions of the library

A second model of gel/data_structures/watcher.c: the callbacks may call the functions of the library for the list they are in.
`f` bounds the depth of the calls within calls.
-/
namespace Gel.Watcher
open Spec

/-- What a callback does: change memory, or call a function. -/
inductive Act (M : Type) (w : Nat) where
  | mem (g : M → M)
  | process (ts : BitVec w)
  | clear (ts : BitVec w)
  | check
  | trigger (i : Nat)

/-- The list, the memory and the callbacks called so far. -/
structure St (M : Type) (w : Nat) where
  list : List (Watcher w)
  mem : M
  log : List Nat

variable {M : Type} {w : Nat}

/-- The environment of the comparisons. -/
def seeing (view : M → Nat → List Byte) : Env M := ⟨view, fun m _ => m⟩

/-- One iteration of `watcher_process_changes`, watcher.c:86-104, for element `i`; `list[i]` is read again after the callback. -/
def body (view : M → Nat → List Byte) (cb : Nat → St M w → Res (St M w)) (ts : BitVec w) (i : Nat) (st : St M w) (res : Bool) :
    Res (St M w × Bool) := do
  let x ← rd st.list i
  if x.old ≠ now (seeing view) st.mem i x then
    if x.delay > 0 then
      pure ({ st with list := st.list.set i { x with ts := ts, moved := true, old := now (seeing view) st.mem i x } }, true)
    else do
      let st ← cb i { st with list := st.list.set i { x with moved := false } }
      let x ← rd st.list i
      pure ({ st with list := st.list.set i { x with old := now (seeing view) st.mem i x } }, true)
  else if x.moved then
    if Time.isLooselyExpired x.ts ts x.delay then do
      let st ← cb i { st with list := st.list.set i { x with moved := false } }
      pure (st, res)
    else pure (st, res)
  else pure (st, res)

/-- `watcher_process_changes`, watcher.c:81-108: the elements with these indices. -/
def processFrom (view : M → Nat → List Byte) (cb : Nat → St M w → Res (St M w)) (ts : BitVec w) :
    List Nat → St M w → Bool → Res (St M w × Bool)
  | [], st, res => .ok (st, res)
  | i :: is, st, res => do
    let (st, res) ← body view cb ts i st res
    processFrom view cb ts is st res

/-- A sequence of actions. -/
def acts (view : M → Nat → List Byte) (cb : Nat → St M w → Res (St M w)) : List (Act M w) → St M w → Res (St M w)
  | [], st => .ok st
  | .mem g :: as, st => acts view cb as { st with mem := g st.mem }
  | .process ts :: as, st => do
    let (st, _) ← processFrom view cb ts (List.range st.list.length) st false
    acts view cb as st
  | .clear ts :: as, st => acts view cb as { st with list := clear (seeing view) st.mem ts 0 st.list }
  | .check :: as, st => acts view cb as st
  | .trigger i :: as, st => do
    let st ← cb i st
    acts view cb as st

/-- A callback. -/
def callback (view : M → Nat → List Byte) (beh : Nat → M → List (Act M w)) : Nat → Nat → St M w → Res (St M w)
  | 0, _, _ => .diverge
  | f + 1, i, st => acts view (callback view beh f) (beh i st.mem) { st with log := st.log ++ [i] }

/-- `watcher_process_changes`. -/
def processNested (view : M → Nat → List Byte) (beh : Nat → M → List (Act M w)) (f : Nat) (ts : BitVec w) (st : St M w) :
    Res (St M w × Bool) := processFrom view (callback view beh f) ts (List.range st.list.length) st false

/-! ## An undelayed watcher -/

theorem from_quiet (view : M → Nat → List Byte) (cb : Nat → St M w → Res (St M w)) (ts : BitVec w) (st : St M w) (res : Bool)
    (js : List Nat) : ∀ is : List Nat,
      (∀ j ∈ is, ∃ y, st.list[j]? = some y ∧ y.old = now (seeing view) st.mem j y ∧ y.moved = false) →
      processFrom view cb ts (is ++ js) st res = processFrom view cb ts js st res
  | [], _ => rfl
  | j :: is, h => by
    obtain ⟨y, h1, h2, h3⟩ := h j (by simp)
    have hr : rd st.list j = .ok y := by rw [rd, h1]
    have hb : body view cb ts j st res = .ok (st, res) := by
      rw [body, hr, Res.ok_bind, if_neg (by simpa using h2), if_neg (by rw [h3]; simp)]
      rfl
    rw [List.cons_append, processFrom, hb, Res.ok_bind]
    exact from_quiet view cb ts st res js is fun k hk => h k (by simp [hk])

theorem range_split {i n : Nat} (h : i < n) : ∃ js, List.range n = List.range i ++ i :: js := by
  obtain ⟨k, rfl⟩ := Nat.exists_eq_add_of_lt h
  refine ⟨((List.range k).map Nat.succ).map (i + ·), ?_⟩
  rw [Nat.add_assoc, List.range_add, List.range_succ_eq_map, List.map_cons]
  rfl

/-- **C149**, where it fails: an undelayed watcher whose callback calls `watcher_process_changes` before anything else. When its
bytes have changed, the call never returns: the copy is not updated before the callback is called. (The watchers before it
have not changed and have nothing pending.) -/
theorem C149_loop_wrong (view : M → Nat → List Byte) (beh : Nat → M → List (Act M w)) (i : Nat) (m : M)
    (hb : ∃ ts as, beh i m = .process ts :: as) (f : Nat) :
    ∀ (ts : BitVec w) (st : St M w) (x : Watcher w), st.mem = m → st.list[i]? = some x → x.delay = 0 →
      x.old ≠ now (seeing view) m i x →
      (∀ j y, j < i → st.list[j]? = some y → y.old = now (seeing view) m j y ∧ y.moved = false) →
      processNested view beh f ts st = .diverge := by
  have reach : ∀ (f : Nat) (ts : BitVec w) (st : St M w) (x : Watcher w), st.mem = m → st.list[i]? = some x → x.delay = 0 →
      x.old ≠ now (seeing view) m i x →
      (∀ j y, j < i → st.list[j]? = some y → y.old = now (seeing view) m j y ∧ y.moved = false) →
      callback view beh f i { st with list := st.list.set i { x with moved := false } } = .diverge →
      processNested view beh f ts st = .diverge := by
    intro f ts st x hm hx hd hne hp hcb
    have hi : i < st.list.length := (List.getElem?_eq_some_iff.1 hx).1
    obtain ⟨js, hjs⟩ := range_split hi
    have hr : rd st.list i = .ok x := by rw [rd, hx]
    rw [processNested, hjs, from_quiet view _ ts st false (i :: js) (List.range i) ?_, processFrom, body, hr, Res.ok_bind,
      if_pos (by rw [hm]; exact hne), if_neg (by rw [hd]; simp), hcb]
    · rfl
    · intro j hj
      have hj' := List.mem_range.1 hj
      refine ⟨_, List.getElem?_eq_getElem (show j < st.list.length by omega), ?_⟩
      rw [hm]
      exact hp j _ hj' (List.getElem?_eq_getElem (by omega))
  induction f with
  | zero => exact fun ts st x hm hx hd hne hp => reach 0 ts st x hm hx hd hne hp rfl
  | succ f ih =>
    intro ts st x hm hx hd hne hp
    refine reach (f + 1) ts st x hm hx hd hne hp ?_
    obtain ⟨ts', as, hb⟩ := hb
    rw [callback]
    simp only [hm, hb]
    rw [acts]
    have hi : i < st.list.length := (List.getElem?_eq_some_iff.1 hx).1
    have := ih ts' { list := st.list.set i { x with moved := false }, mem := m, log := st.log ++ [i] } { x with moved := false }
      rfl (by simp [hi]) hd hne (fun j y hj hy => hp j y hj (by
        rw [List.getElem?_set_ne (by omega)] at hy
        exact hy))
    rw [processNested] at this
    rw [this]
    rfl

/-! ## Delayed watchers -/

/-- What an element is after the call, and whether its callback is due. -/
def fin (view : M → Nat → List Byte) (m : M) (ts : BitVec w) (i : Nat) (x : Watcher w) : Watcher w :=
  (step (seeing view) m ts i x).elem

def due (view : M → Nat → List Byte) (m : M) (ts : BitVec w) (i : Nat) (x : Watcher w) : Bool :=
  (step (seeing view) m ts i x).called

/-- The elements `S` have been dealt with, and the callbacks of those that were due have been called. -/
structure Good (view : M → Nat → List Byte) (m : M) (ts : BitVec w) (l : List (Watcher w)) (S : Finset ℕ) (st : St M w) :
    Prop where
  mem : st.mem = m
  length : st.list.length = l.length
  elem : ∀ j x, l[j]? = some x → st.list[j]? = some (if j ∈ S then fin view m ts j x else x)
  nodup : st.log.Nodup
  log : ∀ j, j ∈ st.log ↔ j ∈ S ∧ ∃ x, l[j]? = some x ∧ due view m ts j x = true

/-- The number of delayed elements that are due and have not been dealt with. -/
def left (view : M → Nat → List Byte) (m : M) (ts : BitVec w) (l : List (Watcher w)) (S : Finset ℕ) : Nat :=
  ((Finset.range l.length).filter fun j => j ∉ S ∧ ∃ x, l[j]? = some x ∧ x.delay > 0 ∧ due view m ts j x = true).card

theorem left_mono {view : M → Nat → List Byte} {m : M} {ts : BitVec w} {l : List (Watcher w)} {S T : Finset ℕ} (h : S ⊆ T) :
    left view m ts l T ≤ left view m ts l S := by
  refine Finset.card_le_card fun j hj => ?_
  rw [Finset.mem_filter] at hj ⊢
  exact ⟨hj.1, fun e => hj.2.1 (h e), hj.2.2⟩

theorem left_insert {view : M → Nat → List Byte} {m : M} {ts : BitVec w} {l : List (Watcher w)} {S : Finset ℕ} {j : Nat}
    {x : Watcher w} (hj : j ∉ S) (hx : l[j]? = some x) (hd : x.delay > 0) (hu : due view m ts j x = true) :
    left view m ts l (insert j S) < left view m ts l S := by
  refine Finset.card_lt_card (Finset.ssubset_iff_subset_ne.2 ⟨fun k hk => ?_, fun e => ?_⟩)
  · rw [Finset.mem_filter] at hk ⊢
    exact ⟨hk.1, fun e => hk.2.1 (Finset.mem_insert_of_mem e), hk.2.2⟩
  · have : j ∈ (Finset.range l.length).filter fun j => j ∉ S ∧ ∃ x, l[j]? = some x ∧ x.delay > 0 ∧ due view m ts j x = true :=
      Finset.mem_filter.2 ⟨Finset.mem_range.2 (List.getElem?_eq_some_iff.1 hx).1, hj, x, hx, hd, hu⟩
    rw [← e, Finset.mem_filter] at this
    exact this.2.1 (Finset.mem_insert_self j S)

/-- An element that has been dealt with stays as it is, and its callback is not due any more. -/
theorem fin_fin (view : M → Nat → List Byte) (m : M) (ts : BitVec w) (i : Nat) (x : Watcher w)
    (hd : x.delay > 0 → Time.isLooselyExpired ts ts x.delay = false) :
    (fin view m ts i x).old = now (seeing view) m i (fin view m ts i x) ∧
    ((fin view m ts i x).moved = false ∨
      Time.isLooselyExpired (fin view m ts i x).ts ts (fin view m ts i x).delay = false) := by
  have hn : ∀ y : Watcher w, y.size = x.size → now (seeing view) m i y = now (seeing view) m i x := fun y h => now_size m i h
  rw [fin, step]
  split_ifs with h1 h2 h3 h4
  · exact ⟨(hn _ rfl).symm, .inr (hd h2)⟩
  · exact ⟨(hn _ rfl).symm, .inl rfl⟩
  · exact ⟨(not_ne_iff.1 h1).trans (hn _ rfl).symm, .inl rfl⟩
  · exact ⟨by simpa using h1, .inr (by simpa using h4)⟩
  · exact ⟨by simpa using h1, .inl (by simpa using h3)⟩

/-- What the callbacks may do: look for changes, or, if they are those of delayed watchers, process changes at the same time. -/
def Polite (ts : BitVec w) (x : Watcher w) (as : List (Act M w)) : Prop :=
  ∀ a ∈ as, a = .check ∨ (a = .process ts ∧ x.delay > 0)

section
variable {view : M → Nat → List Byte} {beh : Nat → M → List (Act M w)} {m : M} {ts : BitVec w} {l : List (Watcher w)}

theorem acts_check (cb : Nat → St M w → Res (St M w)) : ∀ (as : List (Act M w)) (st : St M w), (∀ a ∈ as, a = .check) →
    acts view cb as st = .ok st
  | [], st, _ => rfl
  | a :: as, st, h => by
    obtain rfl := h a (by simp)
    rw [acts]
    exact acts_check cb as st fun b hb => h b (by simp [hb])

/-- Dealing with one more element. -/
theorem Good.add {S : Finset ℕ} {st : St M w} (h : Good view m ts l S st) {j : Nat} {x y : Watcher w} (hx : l[j]? = some x)
    (hj : j ∉ S) (hy : y = fin view m ts j x) (log : List Nat)
    (hl : log = if due view m ts j x = true then st.log ++ [j] else st.log) :
    Good view m ts l (insert j S) { st with list := st.list.set j y, log := log } := by
  have hjl : j < st.list.length := by rw [h.length]; exact (List.getElem?_eq_some_iff.1 hx).1
  refine ⟨h.mem, by simp only [List.length_set]; exact h.length, ?_, ?_, ?_⟩
  · intro k z hz
    by_cases hk : k = j
    · subst hk
      rw [hx, Option.some.injEq] at hz
      subst hz
      rw [if_pos (Finset.mem_insert_self k S), ← hy]
      simp [hjl]
    · simp only
      rw [List.getElem?_set_ne (fun e => hk e.symm), h.elem k z hz]
      simp only [Finset.mem_insert, hk, false_or]
  · simp only [hl]
    split_ifs
    · rw [List.nodup_append]
      refine ⟨h.nodup, by simp, ?_⟩
      intro a ha b hb e
      rw [List.mem_singleton] at hb
      subst hb e
      exact hj ((h.log a).1 ha).1
    · exact h.nodup
  · intro k
    simp only [hl, Finset.mem_insert]
    by_cases hk : k = j
    · subst hk
      have hn : k ∉ st.log := fun e => hj ((h.log k).1 e).1
      split_ifs with hu
      · simp only [List.mem_append, List.mem_singleton, or_true, true_or, true_and, true_iff]
        exact ⟨x, hx, hu⟩
      · simp only [hn, true_or, true_and, false_iff]
        rintro ⟨z, hz, hu'⟩
        rw [hx, Option.some.injEq] at hz
        subst hz
        exact hu hu'
    · split_ifs <;> simp [hk, h.log k]

/-- The whole call, from a state in which some elements have been dealt with. -/
theorem from_good (hd : ∀ x ∈ l, x.delay > 0 → Time.isLooselyExpired ts ts x.delay = false)
    (hb : ∀ j x, l[j]? = some x → Polite ts x (beh j m)) (f : Nat) :
    ∀ (is : List Nat) (S : Finset ℕ) (st : St M w) (res : Bool), (∀ j ∈ is, j < l.length) → Good view m ts l S st →
      left view m ts l S < f →
      ∃ st' res' S', processFrom view (callback view beh f) ts is st res = .ok (st', res') ∧ S ⊆ S' ∧ (∀ j ∈ is, j ∈ S') ∧
        Good view m ts l S' st' := by
  induction f with
  | zero => intro is S st res _ _ h; omega
  | succ f ih =>
    -- the actions of a callback
    have hacts : ∀ (as : List (Act M w)), (∀ a ∈ as, a = .check ∨ a = .process ts) → ∀ (S : Finset ℕ) (st : St M w),
        Good view m ts l S st → left view m ts l S < f →
        ∃ st' S', acts view (callback view beh f) as st = .ok st' ∧ S ⊆ S' ∧ Good view m ts l S' st' := by
      intro as
      induction as with
      | nil => exact fun _ S st hg _ => ⟨st, S, rfl, Finset.Subset.refl _, hg⟩
      | cons a as iha =>
        intro hp S st hg hf
        have hp' : ∀ a ∈ as, a = .check ∨ a = .process ts := fun b hb => hp b (by simp [hb])
        rcases hp a (by simp) with rfl | rfl
        · rw [acts]
          exact iha hp' S st hg hf
        · obtain ⟨st1, res1, S1, e1, s1, -, g1⟩ := ih (List.range st.list.length) S st false
            (fun j hj => by rw [← hg.length]; exact List.mem_range.1 hj) hg hf
          rw [acts, e1, Res.ok_bind]
          obtain ⟨st2, S2, e2, s2, g2⟩ := iha hp' S1 st1 g1 (lt_of_le_of_lt (left_mono s1) hf)
          exact ⟨st2, S2, e2, s1.trans s2, g2⟩
    -- one element
    have hbody : ∀ (j : Nat) (S : Finset ℕ) (st : St M w) (res : Bool), j < l.length → Good view m ts l S st →
        left view m ts l S < f + 1 →
        ∃ st' res' S', body view (callback view beh (f + 1)) ts j st res = .ok (st', res') ∧ S ⊆ S' ∧ j ∈ S' ∧
          Good view m ts l S' st' := by
      intro j S st res hj hg hf
      obtain ⟨x, hx⟩ : ∃ x, l[j]? = some x := ⟨_, List.getElem?_eq_getElem hj⟩
      have hxd := hd x (List.mem_of_getElem? hx)
      have hel := hg.elem j x hx
      have hset : ∀ z, st.list[j]? = some z → st.list.set j z = st.list := by
        intro z hz
        refine List.ext_getElem? fun k => ?_
        by_cases hk : j = k
        · subst hk
          rw [List.getElem?_set_self (List.getElem?_eq_some_iff.1 hz).1, hz]
        · rw [List.getElem?_set_ne hk]
      by_cases hS : j ∈ S
      · -- it has been dealt with
        rw [if_pos hS] at hel
        have hr : rd st.list j = .ok (fin view m ts j x) := by rw [rd, hel]
        obtain ⟨h1, h2⟩ := fin_fin view m ts j x hxd
        refine ⟨st, res, S, ?_, Finset.Subset.refl _, hS, hg⟩
        rw [body, hr, Res.ok_bind, hg.mem, if_neg (by simpa using h1)]
        rcases h2 with h2 | h2
        · rw [if_neg (by rw [h2]; simp)]
          rfl
        · rw [if_neg (show ¬ Time.isLooselyExpired _ ts _ = true by rw [h2]; simp)]
          split_ifs <;> rfl
      · rw [if_neg hS] at hel
        have hr : rd st.list j = .ok x := by rw [rd, hel]
        have hjl : j < st.list.length := by rw [hg.length]; exact hj
        have hfin : fin view m ts j x = (step (seeing view) m ts j x).elem := rfl
        have hdue : due view m ts j x = (step (seeing view) m ts j x).called := rfl
        rw [body, hr, Res.ok_bind, hg.mem]
        by_cases hc : x.old ≠ now (seeing view) m j x
        · rw [if_pos hc]
          by_cases hp : x.delay > 0
          · rw [if_pos hp]
            rw [step, if_pos hc, if_pos hp] at hfin hdue
            have hg2 := hg.add hx hS hfin.symm st.log (by rw [hdue]; rfl)
            have hm := hg.mem
            subst hm
            exact ⟨_, true, insert j S, rfl, Finset.subset_insert _ _, Finset.mem_insert_self _ _, hg2⟩
          · -- an undelayed one
            rw [if_neg hp]
            rw [step, if_pos hc, if_neg hp] at hfin hdue
            have hchk : ∀ a ∈ beh j m, a = .check := fun a ha => by
              rcases hb j x hx a ha with h | ⟨-, h⟩
              · exact h
              · exact absurd h hp
            rw [callback]
            simp only [hg.mem]
            rw [acts_check _ _ _ hchk, Res.ok_bind]
            simp only
            have hr2 : rd (st.list.set j { x with moved := false }) j = .ok { x with moved := false } := by
              rw [rd, List.getElem?_set_self hjl]
            rw [hr2, Res.ok_bind, List.set_set]
            refine ⟨_, true, insert j S, rfl, Finset.subset_insert _ _, Finset.mem_insert_self _ _, ?_⟩
            have := hg.add hx hS hfin.symm (st.log ++ [j]) (by rw [hdue]; rfl)
            rw [show (seeing view).cb m j = m from rfl] at this
            have hm := hg.mem
            subst hm
            exact this
        · rw [if_neg hc]
          by_cases hmv : x.moved = true
          · rw [if_pos hmv]
            by_cases he : Time.isLooselyExpired x.ts ts x.delay = true
            · rw [if_pos he]
              rw [step, if_neg hc, if_pos hmv, if_pos he] at hfin hdue
              have hg2 := hg.add hx hS hfin.symm (st.log ++ [j]) (by rw [hdue]; rfl)
              rw [callback]
              simp only [hg.mem]
              by_cases hp : x.delay > 0
              · have hlt := left_insert hS hx hp hdue
                obtain ⟨st2, S2, e2, s2, g2⟩ := hacts (beh j m) (fun a ha => by
                  rcases hb j x hx a ha with h | ⟨h, -⟩
                  · exact .inl h
                  · exact .inr h) (insert j S) _ hg2 (by omega)
                have hm := hg.mem
                subst hm
                refine ⟨st2, res, S2, ?_, (Finset.subset_insert _ _).trans s2, s2 (Finset.mem_insert_self _ _), g2⟩
                rw [e2]
                rfl
              · have hchk : ∀ a ∈ beh j m, a = .check := fun a ha => by
                  rcases hb j x hx a ha with h | ⟨-, h⟩
                  · exact h
                  · exact absurd h hp
                rw [acts_check _ _ _ hchk, Res.ok_bind]
                have hm := hg.mem
                subst hm
                exact ⟨_, res, insert j S, rfl, Finset.subset_insert _ _, Finset.mem_insert_self _ _, hg2⟩
            · rw [if_neg he]
              rw [step, if_neg hc, if_pos hmv, if_neg he] at hfin hdue
              have hg2 := hg.add hx hS hfin.symm st.log (by rw [hdue]; rfl)
              simp only [hset x hel] at hg2
              exact ⟨st, res, insert j S, rfl, Finset.subset_insert _ _, Finset.mem_insert_self _ _, hg2⟩
          · rw [if_neg hmv]
            rw [step, if_neg hc, if_neg hmv] at hfin hdue
            have hg2 := hg.add hx hS hfin.symm st.log (by rw [hdue]; rfl)
            simp only [hset x hel] at hg2
            exact ⟨st, res, insert j S, rfl, Finset.subset_insert _ _, Finset.mem_insert_self _ _, hg2⟩
    intro is
    induction is with
    | nil => exact fun S st res _ hg _ => ⟨st, res, S, rfl, Finset.Subset.refl _, by simp, hg⟩
    | cons j is ihs =>
      intro S st res hj hg hf
      obtain ⟨st1, res1, S1, e1, s1, m1, g1⟩ := hbody j S st res (hj j (by simp)) hg hf
      obtain ⟨st2, res2, S2, e2, s2, m2, g2⟩ := ihs S1 st1 res1 (fun k hk => hj k (by simp [hk])) g1
        (lt_of_le_of_lt (left_mono s1) hf)
      refine ⟨st2, res2, S2, ?_, s1.trans s2, ?_, g2⟩
      · rw [processFrom, e1, Res.ok_bind]
        exact e2
      · intro k hk
        rcases List.mem_cons.1 hk with rfl | hk
        · exact s2 m1
        · exact m2 k hk
end

/-- **C149** (partial). Callbacks that look for changes (`watcher_check_for_changes`), and callbacks of delayed watchers that also
call `watcher_process_changes` with the same time: the call returns, it leaves the list as a call without nested calls would,
and every callback that is due is called exactly once, all calls together. Missing: undelayed watchers whose callbacks call
`watcher_process_changes` (`C149_loop_wrong`). -/
theorem C149_once_partial (view : M → Nat → List Byte) (beh : Nat → M → List (Act M w)) (m : M) (ts : BitVec w)
    (l : List (Watcher w)) (hd : ∀ x ∈ l, x.delay > 0 → Time.isLooselyExpired ts ts x.delay = false)
    (hb : ∀ j x, l[j]? = some x → Polite ts x (beh j m)) (f : Nat) (hf : l.length < f) :
    ∃ st res, processNested view beh f ts ⟨l, m, []⟩ = .ok (st, res) ∧ st.mem = m ∧
      st.list = (process (seeing view) m ts 0 l).list ∧ st.log.Perm (process (seeing view) m ts 0 l).calls := by
  have hg : Good view m ts l ∅ ⟨l, m, []⟩ :=
    ⟨rfl, rfl, fun j x hx => by simpa using hx, List.nodup_nil, fun j => by simp⟩
  have hl : left view m ts l ∅ < f := by
    refine lt_of_le_of_lt ?_ hf
    refine (Finset.card_le_card (Finset.filter_subset _ _)).trans ?_
    rw [Finset.card_range]
  obtain ⟨st, res, S, e, -, hS, g⟩ := from_good hd hb f (List.range l.length) ∅ ⟨l, m, []⟩ false
    (fun j hj => List.mem_range.1 hj) hg hl
  have hq : Quiet (seeing view) := fun _ _ _ => rfl
  obtain ⟨h1, -, h3, -⟩ := process_eq hq ts m l 0 m (fun _ => rfl)
  refine ⟨st, res, e, g.mem, List.ext_getElem? fun k => ?_, ?_⟩
  · rw [h1, Nat.zero_add]
    cases hx : l[k]? with
    | none =>
      rw [List.getElem?_eq_none_iff] at hx
      rw [List.getElem?_eq_none (by rw [g.length]; exact hx)]
      rfl
    | some x =>
      rw [g.elem k x hx, if_pos (hS k (List.mem_range.2 (List.getElem?_eq_some_iff.1 hx).1))]
      rfl
  · have hs := (calls_sorted (seeing view) ts l 0 m).imp (fun h => Nat.ne_of_lt h)
    refine (List.perm_ext_iff_of_nodup g.nodup hs).2 fun j => ?_
    rw [g.log, h3]
    simp only [Nat.zero_add, List.map_id', List.mem_filter, List.mem_range]
    constructor
    · rintro ⟨-, x, hx, hu⟩
      exact ⟨(List.getElem?_eq_some_iff.1 hx).1, by rw [hx]; exact hu⟩
    · rintro ⟨hj, hu⟩
      refine ⟨hS j (List.mem_range.2 hj), _, List.getElem?_eq_getElem hj, ?_⟩
      rw [List.getElem?_eq_getElem hj] at hu
      exact hu

/-- Three watchers of one byte, time 20: the first two have pending notifications that are due, the third one has changed. The
callback of the first one processes changes. The callbacks are called once each; the change of the third one is found by the
nested call, so that the outer call says that there was none. With an undelayed watcher instead the call never returns. -/
def trio : List (Watcher 8) := [⟨[5], 1, 3, 10, true⟩, ⟨[6], 1, 4, 10, true⟩, ⟨[7], 1, 5, 0, false⟩]

example : (fun x => (x.1.log, x.1.list.map (·.moved), x.2)) <$>
      processNested (fun m i => m.getD i []) (fun i _ => if i = 0 then [.check, .process 20] else []) 4 20
        ⟨trio, [[5], [6], [8]], []⟩ = .ok ([0, 1], [false, false, true], false) ∧
    (fun x => x.2) <$> processNested (fun m i => m.getD i []) (fun _ _ => [.process 20]) 10 20
        ⟨[(⟨[5], 1, 0, 0, false⟩ : Watcher 8)], [[6]], []⟩ = .diverge := by
  decide

end Gel.Watcher
