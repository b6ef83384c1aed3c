import Verif.Watcher.Model
import Mathlib.Tactic.SplitIfs

/-!
# Watchers: callbacks that change watched memory, whole lists (C97)
-/
namespace Gel.Watcher

/-- The memory after calls of callbacks in the given order. -/
def afterCalls (env : Env M) (m : M) (calls : List Nat) : M := calls.foldl env.cb m

/-- The memory when `watcher_process_changes` comes to element `j`, if the callbacks called are `calls`. -/
def before (env : Env M) (m : M) (calls : List Nat) (j : Nat) : M := afterCalls env m (calls.filter (· < j))

theorem step_called (env : Env M) (m : M) (ts : BitVec w) (i : Nat) (x : Watcher w) :
    (step env m ts i x).mem = if (step env m ts i x).called then env.cb m i else m := by
  rw [step]
  split_ifs <;> simp_all

theorem calls_ge (env : Env M) (ts : BitVec w) : ∀ (l : List (Watcher w)) (i : Nat) (m : M),
    ∀ c ∈ (process env m ts i l).calls, i ≤ c := by
  intro l
  induction l with
  | nil =>
    intro i m c hc
    cases hc
  | cons x xs ih =>
    intro i m c hc
    rw [process] at hc
    dsimp only at hc
    split_ifs at hc
    · rcases List.mem_cons.1 hc with rfl | hc
      · exact Nat.le_refl _
      · have := ih _ _ c hc
        omega
    · have := ih _ _ c hc
      omega

theorem calls_sorted (env : Env M) (ts : BitVec w) : ∀ (l : List (Watcher w)) (i : Nat) (m : M),
    (process env m ts i l).calls.Pairwise (· < ·) := by
  intro l
  induction l with
  | nil => exact fun _ _ => List.Pairwise.nil
  | cons x xs ih =>
    intro i m
    rw [process]
    dsimp only
    split_ifs
    · exact List.pairwise_cons.2 ⟨fun c hc => calls_ge env ts xs _ _ c hc, ih _ _⟩
    · exact ih _ _

theorem calls_cons (env : Env M) (ts : BitVec w) (x : Watcher w) (xs : List (Watcher w)) (i : Nat) (m : M) (j : Nat)
    (hj : i < j) : before env m (process env m ts i (x :: xs)).calls j =
      before env (step env m ts i x).mem (process env (step env m ts i x).mem ts (i + 1) xs).calls j := by
  rw [before, before, process]
  dsimp only
  have hm := step_called env m ts i x
  split_ifs with h
  · rw [if_pos h] at hm
    rw [List.filter_cons_of_pos (by simpa using hj), afterCalls, List.foldl_cons, ← hm]
    rfl
  · rw [if_neg h] at hm
    rw [hm]

theorem before_first (env : Env M) (ts : BitVec w) (l : List (Watcher w)) (i : Nat) (m : M) :
    before env m (process env m ts i l).calls i = m := by
  have : (process env m ts i l).calls.filter (· < i) = [] := by
    rw [List.filter_eq_nil_iff]
    intro c hc
    have := calls_ge env ts l i m c hc
    simpa using this
  rw [before, this]
  rfl

theorem process_at (env : Env M) (ts : BitVec w) : ∀ (l : List (Watcher w)) (i : Nat) (m : M) (k : Nat) (x : Watcher w),
    l[k]? = some x →
    (process env m ts i l).list[k]? = some (step env (before env m (process env m ts i l).calls (i + k)) ts (i + k) x).elem ∧
    (i + k ∈ (process env m ts i l).calls ↔
      (step env (before env m (process env m ts i l).calls (i + k)) ts (i + k) x).called = true) := by
  intro l
  induction l with
  | nil =>
    intro i m k x h
    simp at h
  | cons y ys ih =>
    intro i m k x h
    cases k with
    | zero =>
      simp only [List.getElem?_cons_zero, Option.some.injEq] at h
      subst h
      rw [Nat.add_zero, before_first]
      refine ⟨rfl, ?_⟩
      rw [process]
      dsimp only
      split_ifs with hc
      · simp [hc]
      · refine ⟨fun hm => ?_, fun hm => absurd hm hc⟩
        have := calls_ge env ts ys _ _ _ hm
        omega
    | succ k =>
      rw [List.getElem?_cons_succ] at h
      rw [calls_cons env ts y ys i m (i + (k + 1)) (by omega)]
      obtain ⟨h1, h2⟩ := ih (i + 1) (step env m ts i y).mem k x h
      rw [show i + 1 + k = i + (k + 1) by omega] at h1 h2
      refine ⟨h1, ?_⟩
      rw [← h2, process]
      dsimp only
      split_ifs
      · simp only [List.mem_cons, or_iff_right_iff_imp]
        omega
      · rfl

theorem process_mem (env : Env M) (ts : BitVec w) : ∀ (l : List (Watcher w)) (i : Nat) (m : M),
    (process env m ts i l).mem = afterCalls env m (process env m ts i l).calls := by
  intro l
  induction l with
  | nil => exact fun _ _ => rfl
  | cons y ys ih =>
    intro i m
    have hm := step_called env m ts i y
    rw [process]
    dsimp only
    rw [ih]
    split_ifs with h
    · rw [if_pos h] at hm
      rw [hm]
      rfl
    · rw [if_neg h] at hm
      rw [hm]

theorem process_res (env : Env M) (ts : BitVec w) : ∀ (l : List (Watcher w)) (i : Nat) (m : M),
    (process env m ts i l).res = true ↔ ∃ k x, l[k]? = some x ∧
      (step env (before env m (process env m ts i l).calls (i + k)) ts (i + k) x).res = true := by
  intro l
  induction l with
  | nil =>
    intro i m
    simp [process]
  | cons y ys ih =>
    intro i m
    have e : (process env m ts i (y :: ys)).res =
      ((step env m ts i y).res || (process env (step env m ts i y).mem ts (i + 1) ys).res) := rfl
    rw [e, Bool.or_eq_true, ih]
    constructor
    · rintro (h | ⟨k, x, hk, h⟩)
      · refine ⟨0, y, rfl, ?_⟩
        rw [Nat.add_zero, before_first]
        exact h
      · refine ⟨k + 1, x, hk, ?_⟩
        rw [calls_cons env ts y ys i m (i + (k + 1)) (by omega), show i + (k + 1) = i + 1 + k by omega]
        exact h
    · rintro ⟨k, x, hk, h⟩
      cases k with
      | zero =>
        left
        rw [List.getElem?_cons_zero, Option.some.injEq] at hk
        subst hk
        rw [Nat.add_zero, before_first] at h
        exact h
      | succ k =>
        right
        refine ⟨k, x, hk, ?_⟩
        rw [calls_cons env ts y ys i m (i + (k + 1)) (by omega), show i + (k + 1) = i + 1 + k by omega] at h
        exact h

theorem process_length (env : Env M) (ts : BitVec w) : ∀ (l : List (Watcher w)) (i : Nat) (m : M),
    (process env m ts i l).list.length = l.length := by
  intro l
  induction l with
  | nil => exact fun _ _ => rfl
  | cons y ys ih => exact fun i m => congrArg (· + 1) (ih _ _)

theorem check_iff (env : Env M) (m : M) : ∀ (l : List (Watcher w)) (i : Nat),
    check env m i l = true ↔ ∃ k x, l[k]? = some x ∧ x.old ≠ now env m (i + k) x := by
  intro l
  induction l with
  | nil =>
    intro i
    simp [check]
  | cons y ys ih =>
    intro i
    rw [check]
    split_ifs with h
    · exact ⟨fun _ => ⟨0, y, rfl, h⟩, fun _ => rfl⟩
    · rw [ih]
      constructor
      · rintro ⟨k, x, hk, hx⟩
        exact ⟨k + 1, x, hk, by rwa [show i + (k + 1) = i + 1 + k by omega]⟩
      · rintro ⟨k, x, hk, hx⟩
        cases k with
        | zero =>
          rw [List.getElem?_cons_zero, Option.some.injEq] at hk
          subst hk
          exact absurd hx h
        | succ k => exact ⟨k, x, hk, by rwa [show i + (k + 1) = i + 1 + k by omega] at hx⟩

/-- **C97** (partial), whole lists. One call of `watcher_process_changes` with callbacks that may change any memory: element
`j` is compared with the memory left by the callbacks called before it came to it (those of the elements before it), which
decides whether the call counts as a change and whether its callback is called; and the copy it keeps is what it was compared
with. Missing: an element without a delay whose callback is called keeps what its own callback leaves. -/
theorem C97_list_partial (env : Env M) (m : M) (ts : BitVec w) (l : List (Watcher w)) :
    let r := process env m ts 0 l
    r.mem = afterCalls env m r.calls ∧ r.calls.Pairwise (· < ·) ∧
    (∀ j x, l[j]? = some x →
      let mj := before env m r.calls j
      (j ∈ r.calls ↔ (x.old ≠ now env mj j x ∧ x.delay = 0) ∨
        (x.old = now env mj j x ∧ x.moved = true ∧ Time.isLooselyExpired x.ts ts x.delay = true)) ∧
      ∃ y, r.list[j]? = some y ∧ y.size = x.size ∧ y.delay = x.delay ∧
        y.old = if x.old ≠ now env mj j x ∧ x.delay = 0 then now env (env.cb mj j) j x else now env mj j x) ∧
    (r.res = true ↔ ∃ j x, l[j]? = some x ∧ x.old ≠ now env (before env m r.calls j) j x) := by
  have hz : ∀ d : BitVec w, d > 0 ↔ d ≠ 0 := fun d => by
    rw [gt_iff_lt, BitVec.lt_def, ne_eq, ← BitVec.toNat_inj]
    simp only [BitVec.ofNat_eq_ofNat, BitVec.toNat_ofNat, Nat.zero_mod]
    omega
  refine ⟨process_mem env ts l 0 m, calls_sorted env ts l 0 m, ?_, ?_⟩
  · intro j x hx
    obtain ⟨h1, h2⟩ := process_at env ts l 0 m j x hx
    rw [Nat.zero_add] at h1 h2
    refine ⟨?_, _, h1, ?_⟩
    · rw [h2, step]
      split_ifs with a b c d <;> simp_all
    · rw [step]
      have := hz x.delay
      split_ifs <;> simp_all
  · rw [process_res]
    have hs : ∀ (m : M) (i : Nat) (x : Watcher w), (step env m ts i x).res = true ↔ x.old ≠ now env m i x := by
      intro m i x
      rw [step]
      split_ifs <;> simp_all
    simp only [hs, Nat.zero_add]

/-- **C97** (partial), what is noticed afterwards: exactly the elements whose bytes are not, at the end of the call, what they
were when the element was compared (or, without a delay, right after its own callback) are found changed by
`watcher_check_for_changes`, and so by the next `watcher_process_changes` if the memory stays as it is. -/
theorem C97_noticed_partial (env : Env M) (m : M) (ts : BitVec w) (l : List (Watcher w)) :
    let r := process env m ts 0 l
    check env r.mem 0 r.list = true ↔ ∃ j x, l[j]? = some x ∧
      (let mj := before env m r.calls j
       if x.old ≠ now env mj j x ∧ x.delay = 0 then now env (env.cb mj j) j x ≠ now env r.mem j x
       else now env mj j x ≠ now env r.mem j x) := by
  intro r
  obtain ⟨-, -, hl, -⟩ := C97_list_partial env m ts l
  rw [check_iff]
  constructor
  · rintro ⟨j, y, hy, hne⟩
    rw [Nat.zero_add] at hne
    have hj : j < l.length := by
      have := (List.getElem?_eq_some_iff.1 hy).1
      rwa [process_length] at this
    obtain ⟨-, y', hy', hs, -, ho⟩ := hl j l[j] (by simp [hj])
    rw [hy] at hy'
    cases hy'
    refine ⟨j, l[j], by simp [hj], ?_⟩
    have hn : now env r.mem j y = now env r.mem j l[j] := by rw [now, now, hs]
    rw [hn, ho] at hne
    dsimp only
    split_ifs at hne ⊢ <;> exact hne
  · rintro ⟨j, x, hx, hne⟩
    obtain ⟨-, y, hy, hs, -, ho⟩ := hl j x hx
    refine ⟨j, y, hy, ?_⟩
    have hn : now env r.mem j y = now env r.mem j x := by rw [now, now, hs]
    rw [Nat.zero_add, hn, ho]
    dsimp only at hne
    split_ifs at hne ⊢ <;> exact hne

/-- The callback of element 1 changes the bytes of elements 0 and 2: element 2 notices at once, element 0 afterwards. -/
def meddling : Env (List Byte) where
  view m i := m.drop i
  cb m i := if i = 1 then (m.set 0 7).set 2 7 else m

example : (match init none meddling [1, 1, 1] 0 [make 64 false 1 0, make 64 false 1 0, make 64 false 1 0] with
    | .ok l => ((process meddling [1, 2, 1] 5 0 l).calls, (process meddling [1, 2, 1] 5 0 l).mem,
        check meddling (process meddling [1, 2, 1] 5 0 l).mem 0 (process meddling [1, 2, 1] 5 0 l).list)
    | _ => ([], [], false)) = ([1, 2], [7, 2, 7], true) := by decide

end Gel.Watcher
