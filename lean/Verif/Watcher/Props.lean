import Verif.Watcher.Spec
import Verif.Time.CheckProps
import Mathlib.Tactic.SplitIfs
import Mathlib.Tactic.ByContra

/-!
# Watchers: properties C62 to C64 and C96 to C98
-/
namespace Gel.Watcher

open Spec

/-! ## One element at a time -/

theorem now_quiet {env : Env M} (hq : Quiet env) (m : M) (j i : Nat) (x : Watcher w) :
    now env (env.cb m j) i x = now env m i x := by rw [now, now, hq]

theorem step_view {env : Env M} (hq : Quiet env) (m : M) (ts : BitVec w) (i : Nat) (x : Watcher w) (j : Nat) :
    env.view (step env m ts i x).mem j = env.view m j := by
  rw [step]; split_ifs <;> first | rfl | exact hq _ _ _

/-- What a step does depends only on the watched bytes. -/
theorem step_congr {env : Env M} (hq : Quiet env) (m m' : M) (h : ∀ j, env.view m j = env.view m' j) (ts : BitVec w)
    (i : Nat) (x : Watcher w) : (step env m ts i x).elem = (step env m' ts i x).elem ∧
      (step env m ts i x).res = (step env m' ts i x).res ∧ (step env m ts i x).called = (step env m' ts i x).called := by
  have hn : now env m i x = now env m' i x := by rw [now, now, h]
  simp only [step, now_quiet hq, hn]
  split_ifs <;> exact ⟨rfl, rfl, rfl⟩

/-- With quiet callbacks the elements do not influence each other. -/
theorem process_eq {env : Env M} (hq : Quiet env) (ts : BitVec w) (m0 : M) (l : List (Watcher w)) :
    ∀ (i : Nat) (m : M), (∀ j, env.view m j = env.view m0 j) →
      (∀ k, (process env m ts i l).list[k]? = l[k]?.map fun x => (step env m0 ts (i + k) x).elem) ∧
      ((process env m ts i l).res = true ↔ ∃ k x, l[k]? = some x ∧ (step env m0 ts (i + k) x).res = true) ∧
      (process env m ts i l).calls = ((List.range l.length).filter fun k =>
        match l[k]? with | some x => (step env m0 ts (i + k) x).called | none => false).map (i + ·) ∧
      (∀ j, env.view (process env m ts i l).mem j = env.view m0 j) := by
  induction l with
  | nil => intro i m h; simp [process, h]
  | cons x xs ih =>
    intro i m h
    have hc := step_congr hq m m0 h ts i x
    have hv : ∀ j, env.view (step env m ts i x).mem j = env.view m0 j := fun j => by rw [step_view hq, h]
    obtain ⟨h1, h2, h3, h4⟩ := ih (i + 1) _ hv
    refine ⟨?_, ?_, ?_, ?_⟩
    · intro k
      cases k with
      | zero => simp [process, hc.1]
      | succ k =>
        have := h1 k
        simp only [process, List.getElem?_cons_succ]
        rw [this, show i + 1 + k = i + (k + 1) by omega]
    · simp only [process, Bool.or_eq_true]
      rw [h2, hc.2.1]
      constructor
      · rintro (h | ⟨k, y, hk, hy⟩)
        · exact ⟨0, x, rfl, h⟩
        · exact ⟨k + 1, y, by simpa using hk, by rw [show i + (k + 1) = i + 1 + k by omega]; exact hy⟩
      · rintro ⟨k, y, hk, hy⟩
        cases k with
        | zero => simp at hk; subst hk; exact Or.inl hy
        | succ k => exact Or.inr ⟨k, y, by simpa using hk, by rw [show i + 1 + k = i + (k + 1) by omega]; exact hy⟩
    · simp only [process]
      rw [h3, hc.2.2, List.length_cons, List.range_succ_eq_map, List.filter_cons]
      simp only [List.getElem?_cons_zero, Nat.add_zero]
      have hmap : ((List.range xs.length).filter fun k =>
            match xs[k]? with | some x => (step env m0 ts (i + 1 + k) x).called | none => false).map (i + 1 + ·) =
          (((List.range xs.length).map Nat.succ).filter fun k =>
            match (x :: xs)[k]? with | some x => (step env m0 ts (i + k) x).called | none => false).map (i + ·) := by
        rw [List.filter_map, List.map_map]
        congr 1
        · funext k; simp; omega
        · congr 1
          funext k
          simp only [Function.comp, Nat.succ_eq_add_one, List.getElem?_cons_succ]
          rw [show i + 1 + k = i + (k + 1) by omega]
      rw [hmap]
      split_ifs <;> simp
    · intro j
      simp only [process]
      exact h4 j

/-- The stored copies are up to date. -/
def Fresh (env : Env M) (m : M) (l : List (Watcher w)) : Prop := ∀ i x, l[i]? = some x → x.old = now env m i x

theorem step_fresh {env : Env M} (hq : Quiet env) (m : M) (ts : BitVec w) (i : Nat) (x : Watcher w) :
    (step env m ts i x).elem.old = now env m i x ∧ (step env m ts i x).elem.size = x.size ∧
      (step env m ts i x).elem.delay = x.delay := by
  rw [step]
  split_ifs with h1 <;> simp only [now_quiet hq, and_self, and_true] <;> first | rfl | (rw [not_ne_iff] at h1; exact h1)

theorem now_size {env : Env M} (m : M) (i : Nat) {x y : Watcher w} (h : x.size = y.size) : now env m i x = now env m i y := by
  rw [now, now, h]

/-! ## C62 -/

/-- **C62.** After an initialisation, a clear and a `watcher_process_changes` the stored copies are up to date (and the
watchers themselves are the same). -/
theorem C62_fresh (env : Env M) (hq : Quiet env) (m : M) (ts : BitVec w) (l : List (Watcher w)) :
    (∀ block l', init block env m 0 l = .ok l' → Fresh env m l' ∧ l'.map (·.size) = l.map (·.size) ∧
      l'.map (·.delay) = l.map (·.delay)) ∧
    (Fresh env m (clear env m ts 0 l) ∧ (clear env m ts 0 l).map (·.size) = l.map (·.size) ∧
      (clear env m ts 0 l).map (·.delay) = l.map (·.delay)) ∧
    (Fresh env m (process env m ts 0 l).list ∧ (process env m ts 0 l).list.map (·.size) = l.map (·.size) ∧
      (process env m ts 0 l).list.map (·.delay) = l.map (·.delay)) := by
  refine ⟨?_, ?_, ?_⟩
  · intro block
    have key : ∀ (l : List (Watcher w)) (i : Nat) l', init block env m i l = .ok l' →
        (∀ k x, l'[k]? = some x → x.old = now env m (i + k) x) ∧ l'.map (·.size) = l.map (·.size) ∧
        l'.map (·.delay) = l.map (·.delay) := by
      intro l
      induction l with
      | nil => intro i l' h; simp [init] at h; subst h; simp
      | cons x xs ih =>
        intro i l' h
        rw [init, Res.bind_eq_ok] at h
        obtain ⟨_, _, h⟩ := h
        rw [Res.bind_eq_ok] at h
        obtain ⟨t, ht, h⟩ := h
        injection h with h
        subst h
        obtain ⟨a1, a2, a3⟩ := ih (i + 1) t ht
        refine ⟨?_, by simp [a2], by simp [a3]⟩
        intro k y hk
        cases k with
        | zero => simp at hk; subst hk; rfl
        | succ k =>
          have := a1 k y (by simpa using hk)
          rwa [show i + 1 + k = i + (k + 1) by omega] at this
    intro l' h
    obtain ⟨a1, a2, a3⟩ := key l 0 l' h
    exact ⟨fun i x hx => by have := a1 i x hx; rwa [Nat.zero_add] at this, a2, a3⟩
  · have key : ∀ (l : List (Watcher w)) (i : Nat),
        (∀ k x, (clear env m ts i l)[k]? = some x → x.old = now env m (i + k) x) ∧
        (clear env m ts i l).map (·.size) = l.map (·.size) ∧ (clear env m ts i l).map (·.delay) = l.map (·.delay) := by
      intro l
      induction l with
      | nil => intro i; simp [clear]
      | cons x xs ih =>
        intro i
        obtain ⟨a1, a2, a3⟩ := ih (i + 1)
        refine ⟨?_, ?_, ?_⟩
        · intro k y hk
          cases k with
          | zero =>
            simp only [clear, List.getElem?_cons_zero, Option.some.injEq] at hk
            subst hk
            split_ifs with h1 <;> first | rfl | (rw [not_ne_iff] at h1; exact h1)
          | succ k =>
            have := a1 k y (by simpa [clear] using hk)
            rwa [show i + 1 + k = i + (k + 1) by omega] at this
        · simp only [clear, List.map_cons, a2]; split_ifs <;> rfl
        · simp only [clear, List.map_cons, a3]; split_ifs <;> rfl
    obtain ⟨a1, a2, a3⟩ := key l 0
    exact ⟨fun i x hx => by have := a1 i x hx; rwa [Nat.zero_add] at this, a2, a3⟩
  · obtain ⟨h1, _, _, _⟩ := process_eq hq ts m l 0 m (fun _ => rfl)
    refine ⟨?_, ?_, ?_⟩
    · intro i x hx
      rw [h1 i] at hx
      cases hl : l[i]? with
      | none => rw [hl] at hx; simp at hx
      | some y =>
        rw [hl] at hx
        simp only [Option.map_some, Option.some.injEq] at hx
        subst hx
        have := step_fresh hq m ts (0 + i) y
        rw [this.1, Nat.zero_add]
        apply now_size
        rw [Nat.zero_add] at this
        exact this.2.1.symm
    · apply List.ext_getElem?
      intro k
      rw [List.getElem?_map, List.getElem?_map, h1 k, Option.map_map]
      congr 1
      funext x
      exact (step_fresh hq m ts (0 + k) x).2.1
    · apply List.ext_getElem?
      intro k
      rw [List.getElem?_map, List.getElem?_map, h1 k, Option.map_map]
      congr 1
      funext x
      exact (step_fresh hq m ts (0 + k) x).2.2

/-- **C62.** With the copies up to date for the memory `m1`, `watcher_process_changes` with the memory `m2`: calls are in
list order and at most one per element; an element without delay is called iff its bytes changed; the result is 1 iff the
bytes of some element changed, and so is that of `watcher_check_for_changes`. (`moved` is never set for an element without
delay: `C62_moved`.) -/
theorem C62_immediate (env : Env M) (hq : Quiet env) (m1 m2 : M) (ts : BitVec w) (l : List (Watcher w))
    (hf : Fresh env m1 l) (hm : ∀ x ∈ l, x.delay = 0 → x.moved = false) :
    (process env m2 ts 0 l).calls.Pairwise (· < ·) ∧
    (∀ i x, l[i]? = some x → x.delay = 0 →
      (i ∈ (process env m2 ts 0 l).calls ↔ now env m1 i x ≠ now env m2 i x)) ∧
    ((process env m2 ts 0 l).res = true ↔ ∃ i x, l[i]? = some x ∧ now env m1 i x ≠ now env m2 i x) ∧
    check env m2 0 l = (process env m2 ts 0 l).res := by
  obtain ⟨_, h2, h3, _⟩ := process_eq hq ts m2 l 0 m2 (fun _ => rfl)
  have hres : (process env m2 ts 0 l).res = true ↔ ∃ i x, l[i]? = some x ∧ now env m1 i x ≠ now env m2 i x := by
    rw [h2]
    constructor
    · rintro ⟨k, x, hk, hr⟩
      refine ⟨k, x, hk, ?_⟩
      rw [Nat.zero_add] at hr
      rw [← hf k x hk]
      intro he
      simp only [step, he, ne_eq, not_true_eq_false, if_false] at hr
      split_ifs at hr
    · rintro ⟨k, x, hk, hr⟩
      refine ⟨k, x, hk, ?_⟩
      rw [Nat.zero_add]
      rw [← hf k x hk] at hr
      simp only [step, if_pos hr]
      split_ifs <;> rfl
  refine ⟨?_, ?_, hres, ?_⟩
  · rw [h3, List.pairwise_map]
    apply List.Pairwise.filter
    exact List.pairwise_lt_range.imp (by intro a b h; omega)
  · intro i x hx hd
    have hil : i < l.length := (List.getElem?_eq_some_iff.1 hx).1
    rw [h3]
    simp only [Nat.zero_add, List.map_id', List.mem_filter, List.mem_range, hx]
    rw [← hf i x hx]
    have hmv := hm x (List.mem_of_getElem? hx) hd
    constructor
    · rintro ⟨_, hc⟩ he
      simp only [step, he, ne_eq, not_true_eq_false, if_false, hmv] at hc
      simp at hc
    · intro he
      refine ⟨hil, ?_⟩
      simp only [step, if_pos he, hd]
      rw [if_neg (by simp)]
  · have hchk : ∀ (l : List (Watcher w)) i, check env m2 i l = true ↔
        ∃ k x, l[k]? = some x ∧ x.old ≠ now env m2 (i + k) x := by
      intro l
      induction l with
      | nil => intro i; simp [check]
      | cons x xs ih =>
        intro i
        rw [check]
        split_ifs with h
        · simp only [true_iff]; exact ⟨0, x, rfl, h⟩
        · rw [ih]
          constructor
          · rintro ⟨k, y, hk, hy⟩
            exact ⟨k + 1, y, by simpa using hk, by rw [show i + (k + 1) = i + 1 + k by omega]; exact hy⟩
          · rintro ⟨k, y, hk, hy⟩
            cases k with
            | zero => simp at hk; subst hk; exact absurd hy h
            | succ k => exact ⟨k, y, by simpa using hk, by rw [show i + 1 + k = i + (k + 1) by omega]; exact hy⟩
    rw [Bool.eq_iff_iff, hchk, hres]
    constructor
    · rintro ⟨k, x, hk, hx⟩
      rw [Nat.zero_add, hf k x hk] at hx
      exact ⟨k, x, hk, hx⟩
    · rintro ⟨k, x, hk, hx⟩
      refine ⟨k, x, hk, ?_⟩
      rw [Nat.zero_add, hf k x hk]
      exact hx

/-- **C62.** The flag `moved` is never set for an element without delay, whatever is called. -/
theorem C62_moved (env : Env M) (m : M) (ts : BitVec w) (l : List (Watcher w))
    (hm : ∀ x ∈ l, x.delay = 0 → x.moved = false) :
    (∀ x ∈ clear env m ts 0 l, x.delay = 0 → x.moved = false) ∧
    (∀ x ∈ (process env m ts 0 l).list, x.delay = 0 → x.moved = false) := by
  constructor
  · have key : ∀ (l : List (Watcher w)) i, (∀ x ∈ l, x.delay = 0 → x.moved = false) →
        ∀ x ∈ clear env m ts i l, x.delay = 0 → x.moved = false := by
      intro l
      induction l with
      | nil => intro i _ x hx; simp [clear] at hx
      | cons y ys ih =>
        intro i hm x hx
        simp only [clear, List.mem_cons] at hx
        rcases hx with rfl | hx
        · intro hd
          have := hm y (by simp)
          split_ifs at hd ⊢
          · rfl
          · exact this hd
          · exact this hd
        · exact ih _ (fun z hz => hm z (by simp [hz])) x hx
    exact key l 0 hm
  · have key : ∀ (l : List (Watcher w)) i m, (∀ x ∈ l, x.delay = 0 → x.moved = false) →
        ∀ x ∈ (process env m ts i l).list, x.delay = 0 → x.moved = false := by
      intro l
      induction l with
      | nil => intro i m _ x hx; simp [process] at hx
      | cons y ys ih =>
        intro i m hm x hx
        simp only [process, List.mem_cons] at hx
        rcases hx with rfl | hx
        · intro hd
          have := hm y (by simp)
          rw [step] at hd ⊢
          split_ifs at hd ⊢ with h1 h2 h3 h4
          · simp only at hd; rw [hd] at h2; simp at h2
          · rfl
          · rfl
          · exact this hd
          · exact this hd
        · exact ih _ _ (fun z hz => hm z (by simp [hz])) x hx
    exact key l 0 m hm

/-- Three watched bytes and a callback counter: the callback of element `i` increments the last byte by `i + 1`. -/
def toy : Env (List Byte × Nat) where
  view m i := m.1.drop i
  cb m i := (m.1, m.2 + i + 1)

/-- Two watchers without delay and one with. -/
def three : List (Watcher 64) := [make 64 false 1 0, make 64 false 1 10, make 64 false 1 0]

def threeInit : List (Watcher 64) := match init none toy ([1, 2, 3], 0) 0 three with | .ok l => l | _ => []

example : (process toy ([4, 5, 6], 0) 100 0 threeInit).calls = [0, 2] ∧
    (process toy ([4, 5, 6], 0) 100 0 threeInit).res = true ∧ check toy ([4, 5, 6], 0) 0 threeInit = true ∧
    (process toy ([4, 5, 6], 0) 100 0 (process toy ([4, 5, 6], 0) 100 0 threeInit).list).calls = [] ∧
    (process toy ([4, 5, 6], 0) 110 0 (process toy ([4, 5, 6], 0) 100 0 threeInit).list).calls = [1] := by decide

/-! ## C63 -/

/-- A single watcher called with the bytes `c k` at the times `t k`, for `k = 1, 2, …`. -/
def after (w : Nat) (c : Nat → List Byte) (t : Nat → Int) (x : Watcher w) : Nat → Watcher w
  | 0 => x
  | k + 1 => (step ⟨fun _ _ => c (k + 1), fun m _ => m⟩ () (Time.stamp w (t (k + 1))) 0 (after w c t x k)).elem

/-- The callback is called at call `k + 1`. -/
def fires (w : Nat) (c : Nat → List Byte) (t : Nat → Int) (x : Watcher w) (k : Nat) : Bool :=
  (step ⟨fun _ _ => c (k + 1), fun m _ => m⟩ () (Time.stamp w (t (k + 1))) 0 (after w c t x k)).called

/-- A change is pending: it was the last one, and no call came `delay` after it. -/
def Pending (c : Nat → List Byte) (t : Nat → Int) (delay : Int) (k j : Nat) : Prop :=
  j ≤ k ∧ Changed c j ∧ (∀ l, j < l → l ≤ k → ¬ Changed c l) ∧ ∀ l, j < l → l ≤ k → t l < t j + delay

theorem pending_unique {c t delay k j j'} (h : Pending c t delay k j) (h' : Pending c t delay k j') : j = j' := by
  rcases Nat.lt_trichotomy j j' with hl | hl | hl
  · exact absurd h'.2.1 (h.2.2.1 j' hl h'.1)
  · exact hl
  · exact absurd h.2.1 (h'.2.2.1 j hl h.1)

theorem after_inv (w : Nat) (c : Nat → List Byte) (t : Nat → Int) (x : Watcher w) (delay : Int) (h0 : 0 < delay)
    (hd : 2 * delay < 2 ^ w) (hx : x.delay = Time.stamp w delay) (hpos : x.delay > 0) (hm : x.moved = false)
    (hc : ∀ k, (c k).length = x.size) (hold : x.old = c 0) (hmono : ∀ k, t k ≤ t (k + 1))
    (hgap : ∀ k, 2 * (t (k + 1) - t k) ≤ 2 ^ w) (k : Nat) :
    (after w c t x k).old = c k ∧ (after w c t x k).size = x.size ∧ (after w c t x k).delay = x.delay ∧
    ((after w c t x k).moved = true → ∃ j, Pending c t delay k j ∧ (after w c t x k).ts = Time.stamp w (t j)) ∧
    ((after w c t x k).moved = false → ∀ j, ¬ Pending c t delay k j) ∧
    (fires w c t x k = true ↔ Due c t delay (k + 1)) := by
  -- the decision at call k + 1, from the state after call k
  have decide_next : ∀ k, (after w c t x k).old = c k → (after w c t x k).size = x.size →
      (after w c t x k).delay = x.delay → 
      ((after w c t x k).moved = true → ∃ j, Pending c t delay k j ∧ (after w c t x k).ts = Time.stamp w (t j)) →
      ((after w c t x k).moved = false → ∀ j, ¬ Pending c t delay k j) →
      (fires w c t x k = true ↔ Due c t delay (k + 1)) ∧
      ((after w c t x (k + 1)).moved = true →
        ∃ j, Pending c t delay (k + 1) j ∧ (after w c t x (k + 1)).ts = Time.stamp w (t j)) ∧
      ((after w c t x (k + 1)).moved = false → ∀ j, ¬ Pending c t delay (k + 1) j) ∧
      (after w c t x (k + 1)).old = c (k + 1) ∧ (after w c t x (k + 1)).size = x.size ∧
      (after w c t x (k + 1)).delay = x.delay := by
    intro k e1 e2 e3 e4 e5
    have hnow : now (⟨fun _ _ => c (k + 1), fun m _ => m⟩ : Env Unit) () 0 (after w c t x k) = c (k + 1) := by
      simp only [now, e2]
      exact List.take_of_length_le (by rw [hc])
    have hstep : after w c t x (k + 1) =
      (step ⟨fun _ _ => c (k + 1), fun m _ => m⟩ () (Time.stamp w (t (k + 1))) 0 (after w c t x k)).elem := rfl
    by_cases hch : c (k + 1) = c k
    · have hnch : ¬ Changed c (k + 1) := by rintro ⟨_, h⟩; exact h hch
      by_cases hmv : (after w c t x k).moved = true
      · obtain ⟨j, hp, hts⟩ := e4 hmv
        -- the check is exact
        have hexp : Time.isLooselyExpired (after w c t x k).ts (Time.stamp w (t (k + 1))) (after w c t x k).delay = true ↔
            t j + delay ≤ t (k + 1) := by
          rw [hts, e3, hx]
          have hlow : t k < t j + delay := by
            rcases Nat.lt_or_ge j k with hl | hl
            · exact hp.2.2.2 k hl (Nat.le_refl _)
            · have : j = k := by have := hp.1; omega
              subst this; omega
          have hmon : t j ≤ t (k + 1) := by
            have : ∀ d, t j ≤ t (j + d) := by
              intro d
              induction d with
              | zero => exact Int.le_refl _
              | succ d ih => exact Int.le_trans ih (hmono (j + d))
            have h2 := this (k + 1 - j)
            rwa [show j + (k + 1 - j) = k + 1 by have := hp.1; omega] at h2
          have hg := hgap k
          exact ((Time.C53_expired w (t j) (t (k + 1)) delay).1 (by omega) (by omega)).1
        have hduej : Due c t delay (k + 1) ↔ t j + delay ≤ t (k + 1) := by
          constructor
          · rintro ⟨j', h1, h2, h3, h4, h5⟩
            have : j' = j := pending_unique (k := k) ⟨by omega, h2, fun l a b => h3 l a (by omega),
              fun l a b => h5 l a (by omega)⟩ hp
            rw [← this]; exact h4
          · intro h
            refine ⟨j, by have := hp.1; omega, hp.2.1, ?_, h, fun l a b => hp.2.2.2 l a (by omega)⟩
            intro l a b
            rcases Nat.lt_or_ge l (k + 1) with hl | hl
            · exact hp.2.2.1 l a (by omega)
            · have : l = k + 1 := by omega
              rw [this]; exact hnch
        have hs : step (⟨fun _ _ => c (k + 1), fun m _ => m⟩ : Env Unit) () (Time.stamp w (t (k + 1))) 0 (after w c t x k) =
            if Time.isLooselyExpired (after w c t x k).ts (Time.stamp w (t (k + 1))) (after w c t x k).delay then
              ⟨{ after w c t x k with moved := false }, (), false, true⟩ else ⟨after w c t x k, (), false, false⟩ := by
          rw [step, hnow, if_neg (by rw [e1, hch]; simp), if_pos hmv]
        rw [hduej]
        by_cases he : t j + delay ≤ t (k + 1)
        · rw [if_pos (hexp.2 he)] at hs
          rw [hstep, fires, hs]
          refine ⟨by simp [he], by simp, ?_, by rw [hch]; exact e1, e2, e3⟩
          intro _ j' hp'
          have hj' : j' ≤ k := by
            rcases Nat.lt_or_ge j' (k + 1) with hl | hl
            · omega
            · have : j' = k + 1 := by have := hp'.1; omega
              rw [this] at hp'
              exact absurd hp'.2.1 hnch
          have : j' = j := pending_unique (k := k) ⟨hj', hp'.2.1, fun l a b => hp'.2.2.1 l a (by omega),
              fun l a b => hp'.2.2.2 l a (by omega)⟩ hp
          subst this
          have := hp'.2.2.2 (k + 1) (by omega) (Nat.le_refl _)
          omega
        · rw [if_neg (fun h => he (hexp.1 h))] at hs
          rw [hstep, fires, hs]
          refine ⟨by simp [he], ?_, ?_, by rw [hch]; exact e1, e2, e3⟩
          · intro _
            refine ⟨j, ⟨by have := hp.1; omega, hp.2.1, ?_, ?_⟩, hts⟩
            · intro l a b
              rcases Nat.lt_or_ge l (k + 1) with hl | hl
              · exact hp.2.2.1 l a (by omega)
              · have : l = k + 1 := by omega
                rw [this]; exact hnch
            · intro l a b
              rcases Nat.lt_or_ge l (k + 1) with hl | hl
              · exact hp.2.2.2 l a (by omega)
              · have : l = k + 1 := by omega
                rw [this]; omega
          · simp only
            rw [hmv]; simp
      · have hmv' : (after w c t x k).moved = false := by simpa using hmv
        have hs : step (⟨fun _ _ => c (k + 1), fun m _ => m⟩ : Env Unit) () (Time.stamp w (t (k + 1))) 0 (after w c t x k) =
            ⟨after w c t x k, (), false, false⟩ := by
          rw [step, hnow, if_neg (by rw [e1, hch]; simp), if_neg (by rw [hmv']; simp)]
        rw [hstep, fires, hs]
        refine ⟨?_, by simp only; rw [hmv']; simp, ?_, by rw [hch]; exact e1, e2, e3⟩
        · simp only [Bool.false_eq_true, false_iff]
          rintro ⟨j', h1, h2, h3, h4, h5⟩
          exact e5 hmv' j' ⟨by omega, h2, fun l a b => h3 l a (by omega), fun l a b => h5 l a (by omega)⟩
        · intro _ j' hp'
          have hj' : j' ≤ k := by
            rcases Nat.lt_or_ge j' (k + 1) with hl | hl
            · omega
            · have : j' = k + 1 := by have := hp'.1; omega
              rw [this] at hp'
              exact absurd hp'.2.1 hnch
          exact e5 hmv' j' ⟨hj', hp'.2.1, fun l a b => hp'.2.2.1 l a (by omega), fun l a b => hp'.2.2.2 l a (by omega)⟩
    · have hcd : Changed c (k + 1) := ⟨by omega, by rw [Nat.add_sub_cancel]; exact hch⟩
      have hs : step (⟨fun _ _ => c (k + 1), fun m _ => m⟩ : Env Unit) () (Time.stamp w (t (k + 1))) 0 (after w c t x k) =
          ⟨{ after w c t x k with ts := Time.stamp w (t (k + 1)), moved := true, old := c (k + 1) }, (), true, false⟩ := by
        rw [step, hnow, if_pos (by rw [e1]; exact fun h => hch h.symm), if_pos (by rw [e3]; exact hpos)]
      rw [hstep, fires, hs]
      refine ⟨?_, ?_, by simp, rfl, e2, e3⟩
      · simp only [Bool.false_eq_true, false_iff]
        rintro ⟨j', h1, h2, h3, h4, h5⟩
        exact h3 (k + 1) (by omega) (Nat.le_refl _) hcd
      · intro _
        exact ⟨k + 1, ⟨Nat.le_refl _, hcd, fun l a b => by omega, fun l a b => by omega⟩, rfl⟩
  have all : ∀ k, (after w c t x k).old = c k ∧ (after w c t x k).size = x.size ∧ (after w c t x k).delay = x.delay ∧
      ((after w c t x k).moved = true → ∃ j, Pending c t delay k j ∧ (after w c t x k).ts = Time.stamp w (t j)) ∧
      ((after w c t x k).moved = false → ∀ j, ¬ Pending c t delay k j) := by
    intro k
    induction k with
    | zero =>
      refine ⟨hold, rfl, rfl, by rw [after, hm]; simp, ?_⟩
      intro _ j hp
      have := hp.2.1.1
      have := hp.1
      omega
    | succ k ih =>
      obtain ⟨e1, e2, e3, e4, e5⟩ := ih
      obtain ⟨_, a1, a2, a3, a4, a5⟩ := decide_next k e1 e2 e3 e4 e5
      exact ⟨a3, a4, a5, a1, a2⟩
  obtain ⟨e1, e2, e3, e4, e5⟩ := all k
  exact ⟨e1, e2, e3, e4, e5, (decide_next k e1 e2 e3 e4 e5).1⟩

/-- **C63.** A delayed watcher, initialised with the bytes `c 0` and then called with the bytes `c k` at the (true) times
`t k`, at most half the range apart: at call `k` the callback is called iff it is due: `k` is the first call at least
`delay` after the last change was noticed, and finds no change itself. -/
theorem C63_delayed (w : Nat) (c : Nat → List Byte) (t : Nat → Int) (x : Watcher w) (delay : Int) (h0 : 0 < delay)
    (hd : 2 * delay < 2 ^ w) (hx : x.delay = Time.stamp w delay) (hm : x.moved = false) (hc : ∀ k, (c k).length = x.size)
    (hold : x.old = c 0) (hmono : ∀ k, t k ≤ t (k + 1)) (hgap : ∀ k, 2 * (t (k + 1) - t k) ≤ 2 ^ w) (k : Nat) :
    fires w c t x k = true ↔ Due c t delay (k + 1) := by
  have hpos : x.delay > 0 := by
    rw [hx]
    show (0 : BitVec w) < Time.stamp w delay
    rw [BitVec.lt_def, Time.stamp, BitVec.toNat_ofInt]
    have hp : (2 ^ w : Nat) = (2 : Int) ^ w := by push_cast; rfl
    rw [Int.emod_eq_of_lt (by omega) (by rw [hp]; omega)]
    simp; omega
  exact (after_inv w c t x delay h0 hd hx hpos hm hc hold hmono hgap k).2.2.2.2.2

/-- **C63.** An element of a list behaves as alone: its state and its calls depend only on its own bytes. -/
theorem C63_alone (env : Env M) (hq : Quiet env) (m : M) (ts : BitVec w) (l : List (Watcher w)) (i : Nat) (x : Watcher w)
    (hx : l[i]? = some x) :
    (process env m ts 0 l).list[i]? = some (step (⟨fun _ _ => env.view m i, fun m _ => m⟩ : Env Unit) () ts 0 x).elem ∧
    (i ∈ (process env m ts 0 l).calls ↔
      (step (⟨fun _ _ => env.view m i, fun m _ => m⟩ : Env Unit) () ts 0 x).called = true) := by
  obtain ⟨h1, _, h3, _⟩ := process_eq hq ts m l 0 m (fun _ => rfl)
  have hil : i < l.length := (List.getElem?_eq_some_iff.1 hx).1
  have he : (step env m ts i x).elem = (step (⟨fun _ _ => env.view m i, fun m _ => m⟩ : Env Unit) () ts 0 x).elem ∧
      (step env m ts i x).called = (step (⟨fun _ _ => env.view m i, fun m _ => m⟩ : Env Unit) () ts 0 x).called := by
    simp only [step, now_quiet hq]
    simp only [now]
    by_cases h1 : x.old = List.take x.size (env.view m i) <;> by_cases h2 : x.delay > 0 <;>
      by_cases h3 : x.moved = true <;> by_cases h4 : Time.isLooselyExpired x.ts ts x.delay = true <;>
      simp only [h1, h2, h3, h4, ne_eq, not_true_eq_false, not_false_eq_true, if_true, if_false, and_self, Bool.false_eq_true]
  constructor
  · rw [h1 i, hx, Option.map_some, Nat.zero_add, he.1]
  · rw [h3]
    simp only [Nat.zero_add, List.map_id', List.mem_filter, List.mem_range, hx, hil, true_and, he.2]

/-- Bytes that change before calls 1 and 2 and then no more; calls every 4 units of time. -/
def bytes : Nat → List Byte
  | 0 => [0]
  | 1 => [1]
  | _ => [2]

example : (List.range 7).filter (fires 64 bytes (fun k => 4 * k) { make 64 false 1 10 with old := [0] }) = [4] ∧
    Due bytes (fun k => 4 * k) 10 5 := by
  refine ⟨by decide, 2, by decide, ⟨by decide, by decide⟩, ?_, by decide, ?_⟩
  · intro l h1 h2
    rintro ⟨_, h⟩
    obtain rfl | rfl | rfl : l = 3 ∨ l = 4 ∨ l = 5 := by omega
    all_goals exact h rfl
  · intro l h1 h2
    simp only
    omega

/-! ## C64 -/

/-- **C64** (partial). After `watcher_clear_changes`, as long as its bytes do not change, a watcher is not called, whatever
the times of the calls are, unless a notification was already pending (`moved`) and its bytes had not changed again when
`watcher_clear_changes` was called. Missing: those watchers (`C64_wrong`). -/
theorem C64_partial (env : Env M) (hq : Quiet env) (m : M) (ts : BitVec w) (l : List (Watcher w)) (i : Nat) (x : Watcher w)
    (hx : l[i]? = some x) (hmv : x.moved = false ∨ (x.old ≠ now env m i x ∧ x.delay > 0)) :
    ∃ y, (clear env m ts 0 l)[i]? = some y ∧ y.size = x.size ∧
      ∀ (calls : List (M × BitVec w)), (∀ c ∈ calls, now env c.1 i x = now env m i x) →
        calls.foldl (fun z c => (step env c.1 c.2 i z).elem) y = y ∧
        ∀ (m' : M) ts', now env m' i x = now env m i x →
          (step env m' ts' i (calls.foldl (fun z c => (step env c.1 c.2 i z).elem) y)).called = false := by
  have key : ∀ (l : List (Watcher w)) (k j : Nat) x, l[j]? = some x → (clear env m ts k l)[j]? =
      some (if x.old ≠ now env m (k + j) x then
        (if x.delay > 0 then { x with ts := ts, moved := false, old := now env m (k + j) x }
         else { x with old := now env m (k + j) x }) else x) := by
    intro l
    induction l with
    | nil => intro k j x h; simp at h
    | cons y ys ih =>
      intro k j x h
      cases j with
      | zero =>
        simp only [List.getElem?_cons_zero, Option.some.injEq] at h
        subst h
        simp [clear]
      | succ j =>
        have := ih (k + 1) j x (by simpa using h)
        simp only [clear, List.getElem?_cons_succ]
        rw [this, show k + 1 + j = k + (j + 1) by omega]
  have hk := key l 0 i x hx
  rw [Nat.zero_add] at hk
  -- the element afterwards: up to date and nothing pending
  obtain ⟨y, hy, hsz, hold, hmoved⟩ : ∃ y, (clear env m ts 0 l)[i]? = some y ∧ y.size = x.size ∧ y.old = now env m i x ∧
      y.moved = false := by
    refine ⟨_, hk, ?_⟩
    split_ifs with h1 h2
    · exact ⟨rfl, rfl, rfl⟩
    · refine ⟨rfl, rfl, ?_⟩
      rcases hmv with h | h
      · exact h
      · exact absurd h.2 h2
    · refine ⟨rfl, by simpa using h1, ?_⟩
      rcases hmv with h | h
      · exact h
      · exact absurd h.1 h1
  have hstep : ∀ (m' : M) (ts' : BitVec w), now env m' i x = now env m i x →
      step env m' ts' i y = ⟨y, m', false, false⟩ := by
    intro m' ts' h
    have : now env m' i y = y.old := by rw [hold, ← h]; exact now_size _ _ hsz
    rw [step, this, if_neg (by simp), if_neg (by rw [hmoved]; simp)]
  refine ⟨y, hy, hsz, ?_⟩
  intro calls hcalls
  have hfold : calls.foldl (fun z c => (step env c.1 c.2 i z).elem) y = y := by
    induction calls with
    | nil => rfl
    | cons c cs ih =>
      rw [List.foldl_cons, hstep c.1 c.2 (hcalls c (by simp))]
      exact ih (fun d hd => hcalls d (by simp [hd]))
  refine ⟨hfold, ?_⟩
  intro m' ts' h
  rw [hfold, hstep m' ts' h]

/-- **C64**, where it fails: a notification that is pending when `watcher_clear_changes` is called, the bytes being the
same as when the change was noticed, is not cancelled: the callback is called when the delay is over. -/
theorem C64_wrong (env : Env M) (m : M) (ts ts' : BitVec w) (i : Nat) (x : Watcher w) (hold : x.old = now env m i x)
    (hmv : x.moved = true) (hexp : Time.isLooselyExpired x.ts ts' x.delay = true) :
    clear env m ts i [x] = [x] ∧ (process env m ts' i (clear env m ts i [x])).calls = [i] := by
  have hc : clear env m ts i [x] = [x] := by simp [clear, hold]
  refine ⟨hc, ?_⟩
  rw [hc]
  simp [process, step, ← hold, hmv, hexp]

-- the byte changes, the change is noticed at time 100, cleared at 105, and still notified at 110
example : (process toy ([1, 9, 3], 0) 110 0
    (clear toy ([1, 9, 3], 0) 105 0 (process toy ([1, 9, 3], 0) 100 0 threeInit).list)).calls = [1] ∧
    -- cleared before it is noticed: nothing
    (process toy ([1, 9, 3], 0) 110 0 (clear toy ([1, 9, 3], 0) 105 0 threeInit)).calls = [] := by decide

/-! ## C96 -/

/-- **C96** (partial). What is declared is what is watched: with or without `GEL_WATCHER_REDUCE_RAM_FOOTPRINT`, if the
block has less than 256 bytes and the delay is less than 65536. Missing: larger ones (`C96_wrong`). -/
theorem C96_packed_partial (w : Nat) (packed : Bool) (size delay : Nat) (h1 : size < 256) (h2 : delay < 65536) :
    make w packed size delay = make w false size delay := by
  cases packed with
  | false => rfl
  | true =>
    simp only [make, if_true, Bool.false_eq_true, if_false]
    rw [Nat.mod_eq_of_lt (show size < 2 ^ 8 by omega), Nat.mod_eq_of_lt (show delay < 2 ^ 16 by omega)]

/-- **C96**, where it fails: in the packed configuration bytes from `size % 256` on are not watched, so that a change there
is not noticed, and a delay that is a multiple of 65536 is none. -/
theorem C96_wrong (env : Env M) (m1 m2 : M) (ts : BitVec w) (size delay : Nat)
    (hsame : (env.view m1 0).take (size % 256) = (env.view m2 0).take (size % 256)) :
    (∀ l, init none env m1 0 [make w true size delay] = .ok l → (process env m2 ts 0 l).calls = [] ∧
      check env m2 0 l = false) ∧
    (delay % 65536 = 0 → (make w true size delay).delay = 0) := by
  constructor
  · intro l hl
    simp only [init, fitsBlock, cassert, if_true, Res.ok_bind, Res.pure_eq, Res.ok.injEq] at hl
    subst hl
    have : now env m1 0 (make w true size delay) = now env m2 0 (make w true size delay) := by
      simp only [now, make, if_true]; exact hsame
    have h2 : ∀ o, now env m2 0 { make w true size delay with old := o } = now env m2 0 (make w true size delay) := fun o => rfl
    constructor
    · simp only [process, step, h2, this, ne_eq, not_true_eq_false, if_false]
      simp [make]
    · simp only [check, h2, this, ne_eq, not_true_eq_false, if_false]
  · intro h
    simp only [make, if_true]
    rw [show 2 ^ 16 = 65536 by rfl, h]; rfl

def big (x : Byte) : List Byte := List.replicate 256 0 ++ [x]

set_option maxRecDepth 4000 in
-- 257 bytes of which the last one changes
example : (match init none toy (big 1, 0) 0 [make 64 true 257 0] with
    | .ok l => check toy (big 2, 0) 0 l | _ => true) = false ∧
    (match init none toy (big 1, 0) 0 [make 64 false 257 0] with
    | .ok l => check toy (big 2, 0) 0 l | _ => false) = true := by decide

/-! ## C97 -/

/-- **C97** (partial). If a callback changes watched memory: an element that comes later in the list notices it in the same
call, and a delayed element whose delay has expired, or any other element, in the next one, as its copy is not touched.
Missing: an element without delay whose own callback changes its bytes (`C97_wrong`). Here: after a step of element `i`
with a delay, its copy is what the memory held before the callback. -/
theorem C97_own_partial (env : Env M) (m : M) (ts : BitVec w) (i : Nat) (x : Watcher w) (hd : x.delay > 0) :
    (step env m ts i x).elem.old = now env m i x := by
  rw [step]
  split_ifs with h1 h2 h3 <;> first | rfl | (rw [not_ne_iff] at h1; exact h1)

/-- **C97** (partial), the other elements: the copies of the elements before and after are not touched by the callback of
an element: they compare what they had with the memory the callback leaves. -/
theorem C97_others_partial (env : Env M) (m : M) (ts : BitVec w) (i : Nat) (x y : Watcher w) :
    (process env m ts i [x, y]).list = [(step env m ts i x).elem, (step env (step env m ts i x).mem ts (i + 1) y).elem] ∧
    (step env (step env m ts i x).mem ts (i + 1) y).res =
      decide (y.old ≠ now env (step env m ts i x).mem (i + 1) y) := by
  refine ⟨rfl, ?_⟩
  rw [step]
  split_ifs with h <;> simp_all

/-- **C97**, where it fails: what the callback of an element without delay writes to its own bytes is never noticed: right
after the call the copy is up to date. -/
theorem C97_wrong (env : Env M) (m : M) (ts : BitVec w) (i : Nat) (x : Watcher w) (hd : x.delay = 0)
    (hch : x.old ≠ now env m i x) :
    (process env m ts i [x]).calls = [i] ∧ check env (process env m ts i [x]).mem i (process env m ts i [x]).list = false := by
  have hd' : ¬ x.delay > 0 := by rw [hd]; simp
  have hs : step env m ts i x = ⟨{ x with moved := false, old := now env (env.cb m i) i x }, env.cb m i, true, true⟩ := by
    rw [step, if_pos hch, if_neg hd']
  have hn : now env (env.cb m i) i { x with moved := false, old := now env (env.cb m i) i x } = now env (env.cb m i) i x := rfl
  constructor
  · simp [process, hs]
  · simp only [process, hs, check, hn, ne_eq, not_true_eq_false, if_false]

/-- The callback of element 0 puts 7 into its byte. -/
def selfish : Env (List Byte) where
  view m i := m.drop i
  cb m i := if i = 0 then m.set 0 7 else m

example : (match init none selfish [1] 0 [make 64 false 1 0] with
    | .ok l => ((process selfish [2] 5 0 l).calls, (process selfish [2] 5 0 l).mem,
        check selfish (process selfish [2] 5 0 l).mem 0 (process selfish [2] 5 0 l).list)
    | _ => ([], [], true)) = ([0], [7], false) := by decide

/-! ## C98 -/

/-- **C98.** `watcher_trigger_all` calls every callback once, in list order, whatever the watchers hold. -/
theorem C98_trigger (env : Env M) (m : M) (l : List (Watcher w)) :
    (triggerAll env m 0 l).2 = List.range l.length ∧
    (triggerAll env m 0 l).1 = (List.range l.length).foldl env.cb m := by
  have key : ∀ (l : List (Watcher w)) i m, (triggerAll env m i l).2 = List.range' i l.length ∧
      (triggerAll env m i l).1 = (List.range' i l.length).foldl env.cb m := by
    intro l
    induction l with
    | nil => intro i m; exact ⟨rfl, rfl⟩
    | cons x xs ih =>
      intro i m
      obtain ⟨h1, h2⟩ := ih (i + 1) (env.cb m i)
      simp only [triggerAll, List.length_cons, List.range'_succ, List.foldl_cons]
      exact ⟨by rw [h1], h2⟩
  have := key l 0 m
  rwa [← List.range_eq_range'] at this

example : (triggerAll toy ([1, 2, 3], 0) 0 three).2 = [0, 1, 2] ∧ (triggerAll toy ([1, 2, 3], 0) 0 three).1.2 = 6 := by decide

end Gel.Watcher
