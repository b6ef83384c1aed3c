import Verif.Watcher.Props
import Verif.Watcher.Callbacks
import Verif.Watcher.Static

/-!
# Watchers: property C147, the result of every history of calls

The watched memory may be changed in any way between the calls; the callbacks leave it alone.
-/
namespace Gel.Watcher
open Spec

/-- A call, with the memory at that time (and the true time). -/
inductive Op (M : Type) where
  | process (m : M) (t : Int)
  | clear (m : M) (t : Int)
  | check (m : M)
  | trigger (m : M)

/-- What the caller sees: the result, and the callbacks that were called. -/
structure Obs where
  res : Bool
  calls : List Nat
  deriving DecidableEq, Repr

/-- One call. -/
def exec (env : Env M) (l : List (Watcher w)) : Op M → List (Watcher w) × Obs
  | .process m t =>
    let r := process env m (Time.stamp w t) 0 l
    (r.list, ⟨r.res, r.calls⟩)
  | .clear m t => (clear env m (Time.stamp w t) 0 l, ⟨false, []⟩)
  | .check m => (l, ⟨check env m 0 l, []⟩)
  | .trigger m => (l, ⟨false, (triggerAll env m 0 l).2⟩)

/-- A history of calls. -/
def run (env : Env M) : List (Watcher w) → List (Op M) → List Obs
  | _, [] => []
  | l, o :: os => (exec env l o).2 :: run env (exec env l o).1 os

/-! ## Specification

`c` gives the bytes of one watcher, `d` is its delay, `m0` the memory at the initialisation. Past calls are listed from the
last one backwards. -/
namespace Exact

/-- The bytes at the last call that looked for changes. -/
def seen (c : M → List Byte) (m0 : M) : List (Op M) → List Byte
  | [] => c m0
  | .process m _ :: _ => c m
  | .clear m _ :: _ => c m
  | .check _ :: past => seen c m0 past
  | .trigger _ :: past => seen c m0 past

/-- They are different now. -/
def changed (c : M → List Byte) (m0 : M) (past : List (Op M)) (m : M) : Bool := decide (c m ≠ seen c m0 past)

/-- The time at which `watcher_process_changes` found the change for which the callback has yet to be called. -/
def since (c : M → List Byte) (d : Nat) (m0 : M) : List (Op M) → Option Int
  | [] => none
  | .process m t :: past =>
    if changed c m0 past m then (if d = 0 then none else some t)
    else match since c d m0 past with
      | some s => if s + d ≤ t then none else some s
      | none => none
  | .clear m _ :: past => if changed c m0 past m then none else since c d m0 past
  | .check _ :: past => since c d m0 past
  | .trigger _ :: past => since c d m0 past

/-- `watcher_process_changes` calls the callback. -/
def fires (c : M → List Byte) (d : Nat) (m0 : M) (past : List (Op M)) (m : M) (t : Int) : Bool :=
  if d = 0 then changed c m0 past m
  else !changed c m0 past m && match since c d m0 past with
    | some s => decide (s + d ≤ t)
    | none => false

/-- The bytes of the watcher `i` declared with `size` bytes. -/
def bytes (env : Env M) (i size : Nat) (m : M) : List Byte := (env.view m i).take size

/-- What a call should do, for watchers declared with these sizes and delays. -/
def obs (env : Env M) (decl : List (Nat × Nat)) (m0 : M) (past : List (Op M)) : Op M → Obs
  | .process m t =>
    ⟨decl.zipIdx.any fun x => changed (bytes env x.2 x.1.1) m0 past m,
      (decl.zipIdx.filter fun x => fires (bytes env x.2 x.1.1) x.1.2 m0 past m t).map (·.2)⟩
  | .clear _ _ => ⟨false, []⟩
  | .check m => ⟨decl.zipIdx.any fun x => changed (bytes env x.2 x.1.1) m0 past m, []⟩
  | .trigger _ => ⟨false, List.range decl.length⟩

def run (env : Env M) (decl : List (Nat × Nat)) (m0 : M) : List (Op M) → List (Op M) → List Obs
  | _, [] => []
  | past, o :: os => obs env decl m0 past o :: run env decl m0 (o :: past) os

/-- Every `watcher_process_changes` is less than half the range of the timestamps before the callback is due, and at most half
the range after. -/
def Fits (w : Nat) (c : M → List Byte) (d : Nat) (m0 : M) : List (Op M) → List (Op M) → Prop
  | _, [] => True
  | past, o :: os =>
    (∀ m t s, o = .process m t → since c d m0 past = some s → -(2 ^ w : Int) ≤ 2 * (s + d - t) ∧ 2 * (s + d - t) < 2 ^ w) ∧
    Fits w c d m0 (o :: past) os

/-- The time of the last `watcher_process_changes`. -/
def last : List (Op M) → Option Int
  | [] => none
  | .process _ t :: _ => some t
  | .clear _ _ :: past => last past
  | .check _ :: past => last past
  | .trigger _ :: past => last past

/-- `watcher_process_changes` is called at least once every half range of the timestamps. -/
def Regular (w : Nat) : List (Op M) → List (Op M) → Prop
  | _, [] => True
  | past, o :: os =>
    (∀ m t t0, o = .process m t → last past = some t0 → t0 ≤ t ∧ 2 * (t - t0) ≤ 2 ^ w) ∧ Regular w (o :: past) os

end Exact

/-! ## The proof -/

/-- What a watcher holds. -/
def Holds (c : M → List Byte) (d size : Nat) (m0 : M) (past : List (Op M)) (x : Watcher w) : Prop :=
  x.size = size ∧ x.delay = BitVec.ofNat w d ∧ x.old = Exact.seen c m0 past ∧
    x.moved = (Exact.since c d m0 past).isSome ∧ ∀ s, Exact.since c d m0 past = some s → x.ts = Time.stamp w s

theorem delay_pos {w d : Nat} (hd : d < 2 ^ w) : BitVec.ofNat w d > 0 ↔ d ≠ 0 := by
  show (0 : BitVec w) < BitVec.ofNat w d ↔ _
  rw [BitVec.lt_def, BitVec.toNat_ofNat, Nat.mod_eq_of_lt hd]
  simp
  omega

theorem since_zero (c : M → List Byte) (m0 : M) : ∀ past, Exact.since c 0 m0 past = none
  | [] => rfl
  | .process m t :: past => by
    rw [Exact.since, since_zero c m0 past]
    simp
  | .clear m t :: past => by
    rw [Exact.since, since_zero c m0 past]
    split_ifs <;> rfl
  | .check m :: past => by rw [Exact.since, since_zero c m0 past]
  | .trigger m :: past => by rw [Exact.since, since_zero c m0 past]

/-- One watcher, one call of `watcher_process_changes`. -/
theorem step_holds {env : Env M} (hq : Quiet env) (i size d : Nat) (hd : d < 2 ^ w) (m0 : M) (past : List (Op M))
    (x : Watcher w) (h : Holds (Exact.bytes env i size) d size m0 past x) (m : M) (t : Int)
    (hf : ∀ s, Exact.since (Exact.bytes env i size) d m0 past = some s →
      -(2 ^ w : Int) ≤ 2 * (s + d - t) ∧ 2 * (s + d - t) < 2 ^ w) :
    Holds (Exact.bytes env i size) d size m0 (.process m t :: past) (step env m (Time.stamp w t) i x).elem ∧
    (step env m (Time.stamp w t) i x).called = Exact.fires (Exact.bytes env i size) d m0 past m t ∧
    (step env m (Time.stamp w t) i x).res = Exact.changed (Exact.bytes env i size) m0 past m := by
  obtain ⟨h1, h2, h3, h4, h5⟩ := h
  have hn : now env m i x = Exact.bytes env i size m := by rw [now, h1, Exact.bytes]
  have hcd : x.delay > 0 ↔ d ≠ 0 := by rw [h2]; exact delay_pos hd
  rw [step, now_quiet hq, hn, h3]
  by_cases hc : Exact.changed (Exact.bytes env i size) m0 past m = true
  · have hc' : Exact.seen (Exact.bytes env i size) m0 past ≠ Exact.bytes env i size m := by
      have := of_decide_eq_true hc
      exact fun e => this e.symm
    rw [if_pos hc']
    by_cases h0 : d = 0
    · subst h0
      rw [if_neg (by rw [hcd]; simp)]
      refine ⟨⟨h1, h2, rfl, ?_, ?_⟩, ?_, hc.symm⟩
      · rw [since_zero]; rfl
      · rw [since_zero]; simp
      · rw [Exact.fires, if_pos rfl, hc]
    · rw [if_pos (hcd.2 h0)]
      refine ⟨⟨h1, h2, rfl, ?_, ?_⟩, ?_, hc.symm⟩
      · rw [Exact.since, if_pos hc, if_neg h0]; rfl
      · intro s hs
        rw [Exact.since, if_pos hc, if_neg h0, Option.some.injEq] at hs
        rw [← hs]
      · rw [Exact.fires, if_neg h0, hc]; rfl
  · have hc' : Exact.seen (Exact.bytes env i size) m0 past = Exact.bytes env i size m := by
      by_contra hne
      exact hc (decide_eq_true (fun e => hne e.symm))
    have hcf : Exact.changed (Exact.bytes env i size) m0 past m = false := by simpa using hc
    rw [if_neg (by simpa using hc')]
    cases hs : Exact.since (Exact.bytes env i size) d m0 past with
    | none =>
      rw [hs] at h4
      rw [if_neg (by rw [h4]; simp)]
      refine ⟨⟨h1, h2, by rw [h3, hc']; rfl, ?_, ?_⟩, ?_, hcf.symm⟩
      · rw [Exact.since, if_neg hc, hs, h4]
      · intro s hs'
        rw [Exact.since, if_neg hc, hs] at hs'
        cases hs'
      · rw [Exact.fires, hs, hcf]
        split_ifs <;> rfl
    | some s =>
      rw [hs] at h4
      rw [if_pos (by rw [h4]; rfl)]
      have h0 : d ≠ 0 := by
        rintro rfl
        rw [since_zero] at hs
        cases hs
      have hexp : Time.isLooselyExpired x.ts (Time.stamp w t) x.delay = true ↔ s + d ≤ t := by
        have hst : BitVec.ofNat w d = Time.stamp w d := by rw [Time.stamp, BitVec.ofInt_natCast]
        rw [h5 s hs, h2, hst]
        exact ((Time.C53_expired w s t d).1 (hf s hs).1 (hf s hs).2).1
      by_cases he : s + d ≤ t
      · rw [if_pos (hexp.2 he)]
        refine ⟨⟨h1, h2, by simp only; rw [hc']; rfl, ?_, ?_⟩, ?_, hcf.symm⟩
        · rw [Exact.since, if_neg hc, hs]; simp only; rw [if_pos he]; rfl
        · intro s' hs'
          rw [Exact.since, if_neg hc, hs] at hs'
          simp only at hs'
          rw [if_pos he] at hs'
          cases hs'
        · rw [Exact.fires, if_neg h0, hs, hcf]
          simp [he]
      · rw [if_neg (fun e => he (hexp.1 e))]
        refine ⟨⟨h1, h2, by rw [h3, hc']; rfl, ?_, ?_⟩, ?_, hcf.symm⟩
        · rw [Exact.since, if_neg hc, hs]; simp only; rw [if_neg he, h4]
        · intro s' hs'
          rw [Exact.since, if_neg hc, hs] at hs'
          simp only at hs'
          rw [if_neg he, Option.some.injEq] at hs'
          rw [← hs']
          exact h5 s hs
        · rw [Exact.fires, if_neg h0, hs, hcf]
          simp [he]

/-- One watcher, one call of `watcher_clear_changes`. -/
theorem clear_holds {env : Env M} (i size d : Nat) (hd : d < 2 ^ w) (m0 : M) (past : List (Op M))
    (x : Watcher w) (h : Holds (Exact.bytes env i size) d size m0 past x) (m : M) (t : Int) :
    Holds (Exact.bytes env i size) d size m0 (.clear m t :: past)
      (if x.old ≠ now env m i x then
        (if x.delay > 0 then { x with ts := Time.stamp w t, moved := false, old := now env m i x }
         else { x with old := now env m i x }) else x) := by
  obtain ⟨h1, h2, h3, h4, h5⟩ := h
  have hn : now env m i x = Exact.bytes env i size m := by rw [now, h1, Exact.bytes]
  have hcd : x.delay > 0 ↔ d ≠ 0 := by rw [h2]; exact delay_pos hd
  rw [hn, h3]
  by_cases hc : Exact.changed (Exact.bytes env i size) m0 past m = true
  · have hc' : Exact.seen (Exact.bytes env i size) m0 past ≠ Exact.bytes env i size m := by
      have := of_decide_eq_true hc
      exact fun e => this e.symm
    rw [if_pos hc']
    by_cases h0 : d = 0
    · subst h0
      rw [if_neg (by rw [hcd]; simp)]
      refine ⟨h1, h2, rfl, ?_, ?_⟩
      · rw [since_zero] at h4 ⊢; exact h4
      · rw [since_zero]; simp
    · rw [if_pos (hcd.2 h0)]
      refine ⟨h1, h2, rfl, ?_, ?_⟩
      · rw [Exact.since, if_pos hc]; rfl
      · intro s hs
        rw [Exact.since, if_pos hc] at hs
        cases hs
  · have hc' : Exact.seen (Exact.bytes env i size) m0 past = Exact.bytes env i size m := by
      by_contra hne
      exact hc (decide_eq_true (fun e => hne e.symm))
    rw [if_neg (by simpa using hc')]
    refine ⟨h1, h2, by rw [h3, hc']; rfl, ?_, ?_⟩
    · rw [Exact.since, if_neg hc]; exact h4
    · rw [Exact.since, if_neg hc]; exact h5

theorem clear_get {env : Env M} (m : M) (ts : BitVec w) : ∀ (l : List (Watcher w)) (i k : Nat),
    (clear env m ts i l)[k]? = l[k]?.map fun x => if x.old ≠ now env m (i + k) x then
        (if x.delay > 0 then { x with ts := ts, moved := false, old := now env m (i + k) x }
         else { x with old := now env m (i + k) x }) else x := by
  intro l
  induction l with
  | nil => simp [clear]
  | cons x xs ih =>
    intro i k
    cases k with
    | zero => simp [clear]
    | succ k =>
      rw [clear, List.getElem?_cons_succ, ih, List.getElem?_cons_succ, show i + 1 + k = i + (k + 1) by omega]

/-- What the list holds. -/
def Is (w : Nat) (env : Env M) (decl : List (Nat × Nat)) (m0 : M) (past : List (Op M)) (l : List (Watcher w)) : Prop :=
  l.length = decl.length ∧ ∀ i x, l[i]? = some x → ∃ e, decl[i]? = some e ∧
    Holds (Exact.bytes env i e.1) e.2 e.1 m0 past x

theorem Is.decl {env : Env M} {decl : List (Nat × Nat)} {m0 : M} {past : List (Op M)} {l : List (Watcher w)}
    (h : Is w env decl m0 past l) {i : Nat} {e : Nat × Nat} (he : decl[i]? = some e) :
    ∃ x, l[i]? = some x ∧ Holds (Exact.bytes env i e.1) e.2 e.1 m0 past x := by
  have hi : i < l.length := by rw [h.1]; exact (List.getElem?_eq_some_iff.1 he).1
  obtain ⟨e', he', hx⟩ := h.2 i l[i] (List.getElem?_eq_getElem hi)
  rw [he, Option.some.injEq] at he'
  subst he'
  exact ⟨_, List.getElem?_eq_getElem hi, hx⟩

theorem any_iff (decl : List (Nat × Nat)) (p : (Nat × Nat) → Nat → Bool) :
    (decl.zipIdx.any fun x => p x.1 x.2) = true ↔ ∃ i e, decl[i]? = some e ∧ p e i = true := by
  rw [List.any_eq_true]
  constructor
  · rintro ⟨⟨e, i⟩, h1, h2⟩
    exact ⟨i, e, List.mem_zipIdx_iff_getElem?.1 h1, h2⟩
  · rintro ⟨i, e, h1, h2⟩
    exact ⟨(e, i), List.mem_zipIdx_iff_getElem?.2 h1, h2⟩

theorem filter_zipIdx (p : (Nat × Nat) → Nat → Bool) : ∀ (decl : List (Nat × Nat)) (k : Nat),
    ((decl.zipIdx k).filter fun x => p x.1 x.2).map (·.2) =
      ((List.range decl.length).filter fun i => match decl[i]? with | some e => p e (k + i) | none => false).map (k + ·)
  | [], k => rfl
  | e :: es, k => by
    rw [List.zipIdx_cons, List.length_cons, List.range_succ_eq_map, List.filter_cons, List.filter_cons]
    have ih := filter_zipIdx p es (k + 1)
    have hm : ((List.map Nat.succ (List.range es.length)).filter fun i =>
        match (e :: es)[i]? with | some e => p e (k + i) | none => false).map (k + ·) =
        ((List.range es.length).filter fun i => match es[i]? with | some e => p e (k + 1 + i) | none => false).map (k + 1 + ·) := by
      rw [List.filter_map, List.map_map]
      congr 1
      · funext i; simp; omega
      · congr 1
        funext i
        simp only [Function.comp, Nat.succ_eq_add_one, List.getElem?_cons_succ]
        rw [show k + 1 + i = k + (i + 1) by omega]
    simp only [List.getElem?_cons_zero, Nat.add_zero]
    by_cases h : p e k = true
    · rw [if_pos h, if_pos h, List.map_cons, List.map_cons, ih, hm]
      rfl
    · rw [if_neg h, if_neg h, ih, hm]

theorem exec_is {env : Env M} (hq : Quiet env) (decl : List (Nat × Nat)) (hd : ∀ e ∈ decl, e.2 < 2 ^ w) (m0 : M)
    (past : List (Op M)) (l : List (Watcher w)) (h : Is w env decl m0 past l) (o : Op M)
    (hf : ∀ i e, decl[i]? = some e → ∀ m t s, o = .process m t → Exact.since (Exact.bytes env i e.1) e.2 m0 past = some s →
      -(2 ^ w : Int) ≤ 2 * (s + e.2 - t) ∧ 2 * (s + e.2 - t) < 2 ^ w) :
    Is w env decl m0 (o :: past) (exec env l o).1 ∧ (exec env l o).2 = Exact.obs env decl m0 past o := by
  have hchk : ∀ m, check env m 0 l = decl.zipIdx.any fun x => Exact.changed (Exact.bytes env x.2 x.1.1) m0 past m := by
    intro m
    rw [Bool.eq_iff_iff, check_iff, any_iff decl fun e i => Exact.changed (Exact.bytes env i e.1) m0 past m]
    constructor
    · rintro ⟨i, x, hx, hne⟩
      obtain ⟨e, he, h1, -, h3, -⟩ := h.2 i x hx
      refine ⟨i, e, he, decide_eq_true ?_⟩
      rw [Nat.zero_add, now, h1, h3] at hne
      exact fun e => hne e.symm
    · rintro ⟨i, e, he, hc⟩
      obtain ⟨x, hx, h1, -, h3, -⟩ := h.decl he
      refine ⟨i, x, hx, ?_⟩
      have := of_decide_eq_true hc
      rw [Nat.zero_add, now, h1, h3]
      exact fun e => this e.symm
  cases o with
  | check m =>
    refine ⟨⟨h.1, fun i x hx => ?_⟩, ?_⟩
    · obtain ⟨e, he, hx⟩ := h.2 i x hx
      exact ⟨e, he, hx⟩
    · simp only [exec, Exact.obs]
      rw [hchk]
  | trigger m =>
    refine ⟨⟨h.1, fun i x hx => ?_⟩, ?_⟩
    · obtain ⟨e, he, hx⟩ := h.2 i x hx
      exact ⟨e, he, hx⟩
    · simp only [exec, Exact.obs]
      rw [(C98_trigger env m l).1, h.1]
  | clear m t =>
    refine ⟨⟨?_, fun i x hx => ?_⟩, rfl⟩
    · have hl : ∀ (l : List (Watcher w)) i, (clear env m (Time.stamp w t) i l).length = l.length := by
        intro l
        induction l with
        | nil => exact fun _ => rfl
        | cons y ys ih => exact fun i => congrArg (· + 1) (ih _)
      rw [exec, hl, h.1]
    · simp only [exec] at hx
      rw [clear_get, Nat.zero_add] at hx
      obtain ⟨y, hy, rfl⟩ := Option.map_eq_some_iff.1 hx
      obtain ⟨e, he, hy⟩ := h.2 i y hy
      exact ⟨e, he, clear_holds i e.1 e.2 (hd e (List.mem_of_getElem? he)) m0 past y hy m t⟩
  | process m t =>
    obtain ⟨h1, h2, h3, -⟩ := process_eq hq (Time.stamp w t) m l 0 m (fun _ => rfl)
    have hs : ∀ i e x, decl[i]? = some e → Holds (Exact.bytes env i e.1) e.2 e.1 m0 past x →
        _ := fun i e x he hx => step_holds hq i e.1 e.2 (hd e (List.mem_of_getElem? he)) m0 past x hx m t
          (fun s hs => hf i e he m t s rfl hs)
    refine ⟨⟨?_, fun i x hx => ?_⟩, ?_⟩
    · rw [exec, process_length, h.1]
    · simp only [exec] at hx
      rw [h1, Nat.zero_add] at hx
      obtain ⟨y, hy, rfl⟩ := Option.map_eq_some_iff.1 hx
      obtain ⟨e, he, hy⟩ := h.2 i y hy
      exact ⟨e, he, (hs i e y he hy).1⟩
    · simp only [exec, Exact.obs]
      congr 1
      · rw [Bool.eq_iff_iff, h2, any_iff decl fun e i => Exact.changed (Exact.bytes env i e.1) m0 past m]
        constructor
        · rintro ⟨i, x, hx, hr⟩
          obtain ⟨e, he, hx⟩ := h.2 i x hx
          rw [Nat.zero_add, (hs i e x he hx).2.2] at hr
          exact ⟨i, e, he, hr⟩
        · rintro ⟨i, e, he, hc⟩
          obtain ⟨x, hx, hh⟩ := h.decl he
          exact ⟨i, x, hx, by rw [Nat.zero_add, (hs i e x he hh).2.2]; exact hc⟩
      · rw [h3, filter_zipIdx (fun e i => Exact.fires (Exact.bytes env i e.1) e.2 m0 past m t) decl 0, h.1]
        congr 1
        refine List.filter_congr fun i hi => ?_
        have hi' : i < decl.length := List.mem_range.1 hi
        have he := List.getElem?_eq_getElem hi'
        obtain ⟨x, hx, hh⟩ := h.decl he
        rw [he, hx]
        simp only [Nat.zero_add]
        exact (hs i _ x he hh).2.1

theorem run_is {env : Env M} (hq : Quiet env) (decl : List (Nat × Nat)) (hd : ∀ e ∈ decl, e.2 < 2 ^ w) (m0 : M) :
    ∀ (os past : List (Op M)) (l : List (Watcher w)), Is w env decl m0 past l →
      (∀ i e, decl[i]? = some e → Exact.Fits w (Exact.bytes env i e.1) e.2 m0 past os) →
      run env l os = Exact.run env decl m0 past os
  | [], _, _, _, _ => rfl
  | o :: os, past, l, h, hf => by
    obtain ⟨h1, h2⟩ := exec_is hq decl hd m0 past l h o fun i e he => (hf i e he).1
    rw [run, Exact.run, h2, run_is hq decl hd m0 os (o :: past) _ h1 fun i e he => (hf i e he).2]

theorem stored_get (env : Env M) (m : M) : ∀ (l : List (Watcher w)) (i k : Nat),
    (stored env m i l)[k]? = l[k]?.map fun x => { x with old := now env m (i + k) x } := by
  intro l
  induction l with
  | nil => simp [stored]
  | cons x xs ih =>
    intro i k
    cases k with
    | zero => simp [stored]
    | succ k =>
      rw [stored, List.getElem?_cons_succ, ih, List.getElem?_cons_succ, show i + 1 + k = i + (k + 1) by omega]

/-- **C147.** A list of watchers, after `watcher_list_init` with the memory `m0`, and any history of calls: each call returns
and calls what it should. -/
theorem C147_exact (w : Nat) (env : Env M) (hq : Quiet env) (decl : List (Nat × Nat)) (hd : ∀ e ∈ decl, e.2 < 2 ^ w)
    (m0 : M) (os : List (Op M))
    (hf : ∀ i e, decl[i]? = some e → Exact.Fits w (Exact.bytes env i e.1) e.2 m0 [] os) :
    ∃ l, init none env m0 0 (decl.map fun e => make w false e.1 e.2) = .ok l ∧
      run env l os = Exact.run env decl m0 [] os := by
  refine ⟨_, (C124_static env m0 0 _).1, run_is hq decl hd m0 os [] _ ⟨?_, fun i x hx => ?_⟩ hf⟩
  · have hl : ∀ (l : List (Watcher w)) i, (stored env m0 i l).length = l.length := by
      intro l
      induction l with
      | nil => exact fun _ => rfl
      | cons y ys ih => exact fun i => congrArg (· + 1) (ih _)
    rw [hl, List.length_map]
  · rw [stored_get, Nat.zero_add] at hx
    obtain ⟨y, hy, rfl⟩ := Option.map_eq_some_iff.1 hx
    rw [List.getElem?_map] at hy
    obtain ⟨e, he, rfl⟩ := Option.map_eq_some_iff.1 hy
    refine ⟨e, he, rfl, rfl, rfl, rfl, ?_⟩
    intro s hs
    cases hs

/-- **C147.** When a change is pending: the last call that found a change was a `watcher_process_changes` at the time `s`, and
all such calls after it were less than the delay after it. -/
theorem C147_since (c : M → List Byte) (d : Nat) (hd : d ≠ 0) (m0 : M) (past : List (Op M)) (s : Int) :
    Exact.since c d m0 past = some s ↔ ∃ later m earlier, past = later ++ .process m s :: earlier ∧
      Exact.changed c m0 earlier m = true ∧
      ∀ a o b, later = a ++ o :: b →
        (∀ m' t', o = .process m' t' → t' < s + d ∧ Exact.changed c m0 (b ++ .process m s :: earlier) m' = false) ∧
        ∀ m' t', o = .clear m' t' → Exact.changed c m0 (b ++ .process m s :: earlier) m' = false := by
  induction past with
  | nil => simp [Exact.since]
  | cons o past ih =>
    -- the pending change is an earlier one
    have old : (∃ later m earlier, o :: past = later ++ .process m s :: earlier ∧ Exact.changed c m0 earlier m = true ∧
        ∀ a o b, later = a ++ o :: b →
          (∀ m' t', o = .process m' t' → t' < s + d ∧ Exact.changed c m0 (b ++ .process m s :: earlier) m' = false) ∧
          ∀ m' t', o = .clear m' t' → Exact.changed c m0 (b ++ .process m s :: earlier) m' = false) ↔
        (∃ m, o = .process m s ∧ Exact.changed c m0 past m = true) ∨
        (Exact.since c d m0 past = some s ∧
          (∀ m' t', o = .process m' t' → t' < s + d ∧ Exact.changed c m0 past m' = false) ∧
          ∀ m' t', o = .clear m' t' → Exact.changed c m0 past m' = false) := by
      rw [ih]
      constructor
      · rintro ⟨later, m, earlier, h1, h2, h3⟩
        cases later with
        | nil =>
          rw [List.nil_append, List.cons.injEq] at h1
          obtain ⟨rfl, rfl⟩ := h1
          exact .inl ⟨m, rfl, h2⟩
        | cons x later =>
          rw [List.cons_append, List.cons.injEq] at h1
          obtain ⟨rfl, rfl⟩ := h1
          refine .inr ⟨⟨later, m, earlier, rfl, h2, fun a o b e => h3 (_ :: a) o b (by rw [e]; rfl)⟩, ?_, ?_⟩
          · exact (h3 [] _ later rfl).1
          · exact (h3 [] _ later rfl).2
      · rintro (⟨m, rfl, h2⟩ | ⟨⟨later, m, earlier, rfl, h2, h3⟩, h4, h5⟩)
        · exact ⟨[], m, past, rfl, h2, fun a o b e => by simp at e⟩
        · refine ⟨o :: later, m, earlier, rfl, h2, ?_⟩
          intro a o' b e
          cases a with
          | nil =>
            rw [List.nil_append, List.cons.injEq] at e
            obtain ⟨rfl, rfl⟩ := e
            exact ⟨h4, h5⟩
          | cons y a =>
            rw [List.cons_append, List.cons.injEq] at e
            exact h3 a o' b e.2
    rw [old]
    cases o with
    | process m t =>
      rw [Exact.since]
      by_cases hc : Exact.changed c m0 past m = true
      · rw [if_pos hc, if_neg hd, Option.some.injEq]
        constructor
        · rintro rfl
          exact .inl ⟨m, rfl, hc⟩
        · rintro (⟨m', h1, -⟩ | ⟨-, h, -⟩)
          · cases h1; rfl
          · have := (h m t rfl).2
            rw [hc] at this
            cases this
      · rw [if_neg hc]
        have hcf : Exact.changed c m0 past m = false := by simpa using hc
        constructor
        · intro h
          refine .inr ?_
          cases hs : Exact.since c d m0 past with
          | none => rw [hs] at h; cases h
          | some s' =>
            rw [hs] at h
            simp only at h
            split_ifs at h with he
            cases h
            refine ⟨rfl, ?_, by intro _ _ e; cases e⟩
            intro m' t' e
            cases e
            exact ⟨by omega, hcf⟩
        · rintro (⟨m', h1, h2⟩ | ⟨h1, h2, -⟩)
          · cases h1
            exact absurd h2 hc
          · rw [h1]
            simp only
            rw [if_neg (by have := (h2 m t rfl).1; omega)]
    | clear m t =>
      rw [Exact.since]
      by_cases hc : Exact.changed c m0 past m = true
      · rw [if_pos hc]
        constructor
        · intro h; cases h
        · rintro (⟨m', h1, -⟩ | ⟨-, -, h⟩)
          · cases h1
          · have := h m t rfl
            rw [hc] at this
            cases this
      · rw [if_neg hc]
        constructor
        · exact fun h => .inr ⟨h, (by intro _ _ e; cases e), (by intro _ _ e; cases e; simpa using hc)⟩
        · rintro (⟨m', h1, -⟩ | ⟨h, -⟩)
          · cases h1
          · exact h
    | check m =>
      rw [Exact.since]
      constructor
      · exact fun h => .inr ⟨h, (by intro _ _ e; cases e), (by intro _ _ e; cases e)⟩
      · rintro (⟨m', h1, -⟩ | ⟨h, -⟩)
        · cases h1
        · exact h
    | trigger m =>
      rw [Exact.since]
      constructor
      · exact fun h => .inr ⟨h, (by intro _ _ e; cases e), (by intro _ _ e; cases e)⟩
      · rintro (⟨m', h1, -⟩ | ⟨h, -⟩)
        · cases h1
        · exact h

/-- **C147.** The condition on the times is met if the delays are less than half the range, and `watcher_process_changes` is
called at least once every half range. -/
theorem C147_regular (w : Nat) (c : M → List Byte) (d : Nat) (hd : 2 * d < 2 ^ w) (m0 : M) : ∀ (os past : List (Op M)),
    (∀ s, Exact.since c d m0 past = some s → ∃ t0, Exact.last past = some t0 ∧ s ≤ t0 ∧ t0 < s + d) →
    Exact.Regular w past os → Exact.Fits w c d m0 past os
  | [], _, _, _ => trivial
  | o :: os, past, h, hr => by
    have hd' : (2 * d : Int) < 2 ^ w := by exact_mod_cast hd
    refine ⟨?_, C147_regular w c d hd m0 os (o :: past) ?_ hr.2⟩
    · intro m t s ho hs
      obtain ⟨t0, h1, h2, h3⟩ := h s hs
      have := hr.1 m t t0 ho h1
      omega
    · intro s hs
      cases o with
      | process m t =>
        rw [Exact.since] at hs
        refine ⟨t, rfl, ?_⟩
        split_ifs at hs with h1 h2
        · rw [Option.some.injEq] at hs
          omega
        · cases hp : Exact.since c d m0 past with
          | none => rw [hp] at hs; cases hs
          | some s' =>
            rw [hp] at hs
            simp only at hs
            split_ifs at hs with h3
            rw [Option.some.injEq] at hs
            subst hs
            obtain ⟨t0, h4, h5, h6⟩ := h _ hp
            have := (hr.1 m t t0 rfl h4).1
            omega
      | clear m t =>
        rw [Exact.since] at hs
        split_ifs at hs
        exact h s hs
      | check m => exact h s hs
      | trigger m => exact h s hs

/-- Two watchers of one byte, without delay and with a delay of 10. A change at 0 that is then kept is reported at 0 by the
first one and at 12 by the second, although the changes were cleared at 6; one that was followed by another one when the
changes were cleared is not. -/
example :
    let env : Env (Byte × Byte) := ⟨fun m i => if i = 0 then [m.1] else [m.2], fun m _ => m⟩
    let decl := [(1, 0), (1, 10)]
    let os : List (Op (Byte × Byte)) := [.process (1, 1) 0, .check (1, 2), .clear (2, 1) 6, .process (2, 1) 9, .process (2, 1) 12,
      .process (2, 3) 13, .clear (2, 4) 14, .process (2, 4) 30, .trigger (5, 5)]
    (∀ i e, decl[i]? = some e → Exact.Fits 32 (Exact.bytes env i e.1) e.2 (0, 0) [] os) ∧
    Exact.run env decl (0, 0) [] os = [⟨true, [0]⟩, ⟨true, []⟩, ⟨false, []⟩, ⟨false, []⟩, ⟨false, [1]⟩, ⟨true, []⟩,
      ⟨false, []⟩, ⟨false, []⟩, ⟨false, [0, 1]⟩] := by
  refine ⟨?_, by decide +kernel⟩
  intro i e he
  refine C147_regular 32 _ e.2 ?_ (0, 0) _ [] (by simp [Exact.since]) (by simp [Exact.Regular, Exact.last])
  rcases i with _ | _ | i
  · simp at he; subst he; decide
  · simp at he; subst he; decide
  · simp at he

end Gel.Watcher
