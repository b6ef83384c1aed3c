import Verif.Watcher.Props
import Verif.Watcher.Static

/-!
# Watchers: the list as a C array, properties C174 and C175

`Watcher/Model.lean` gets the list without its terminating element. Here the functions work on the array they are given, whose
elements may have a NULL `current` or a NULL `cb` anywhere, or nowhere; and `watcher_list_init` takes its memory from a heap.
-/
namespace Gel.Watcher

/-- An element of the array, watcher.h:38-63: the watcher and whether `current` and `cb` are other than NULL. -/
structure Cell (w : Nat) where
  watcher : Watcher w
  current : Bool
  cb : Bool
  deriving DecidableEq, Repr

/-- `WATCHER_NULL`, watcher.h:30. -/
def null (w : Nat) : Cell w := ⟨make w false 1 0, false, false⟩

/-- `while (list[i].current) { body; i++; }`, the loop of watcher.c:11-19, 42-52, 59-62, 74-77 and 85-105; `s` are the other
variables of the function. `f` bounds the number of iterations; any `f` above the length of the array will do. -/
def scan (body : Nat → Cell w → σ → Res (Cell w × σ)) : Nat → Nat → List (Cell w) × σ → Res (List (Cell w) × σ)
  | 0, _, _ => .diverge
  | f + 1, i, (arr, s) => do
    let c ← rd arr i
    if c.current then do
      let (c, s) ← body i c s
      let arr ← wr arr i c
      scan body f (i + 1) (arr, s)
    else pure (arr, s)

/-- The heap: the number of bytes allocated and not freed, and the number of allocations; `next` says which ones succeed. -/
structure Heap where
  live : Nat
  blocks : Nat
  next : Nat → Bool

/-- `list[i].old = malloc(list[i].size)` and the `memcpy` after it, watcher.c:13, 17. If there is no memory, `memcpy` gets NULL
(undefined, C11 7.24.1p2, also for no bytes). What `old` held before is not freed. -/
def initBody (env : Env M) (m : M) (i : Nat) (c : Cell w) (h : Heap) : Res (Cell w × Heap) :=
  if h.next h.blocks then
    pure ({ c with watcher := { c.watcher with old := now env m i c.watcher } },
      { h with live := h.live + c.watcher.size, blocks := h.blocks + 1 })
  else .ub

/-- `watcher_list_init`, watcher.c:8-20, with `malloc`. -/
def initA (env : Env M) (m : M) (f : Nat) (arr : List (Cell w)) (h : Heap) : Res (List (Cell w) × Heap) :=
  scan (initBody env m) f 0 (arr, h)

/-- `watcher_check_for_changes`, watcher.c:23-36, from element `i` on. -/
def checkA (env : Env M) (m : M) (arr : List (Cell w)) : Nat → Nat → Res Bool
  | 0, _ => .diverge
  | f + 1, i => do
    let c ← rd arr i
    if c.current then
      if c.watcher.old ≠ now env m i c.watcher then pure true else checkA env m arr f (i + 1)
    else pure false

/-- watcher.c:43-50. -/
def clearBody (env : Env M) (m : M) (ts : BitVec w) (i : Nat) (c : Cell w) (_ : Unit) : Res (Cell w × Unit) :=
  let x := c.watcher
  if x.old ≠ now env m i x then
    if x.delay > 0 then pure ({ c with watcher := { x with ts := ts, moved := false, old := now env m i x } }, ())
    else pure ({ c with watcher := { x with old := now env m i x } }, ())
  else pure (c, ())

/-- `watcher_clear_changes`, watcher.c:39-53. -/
def clearA (env : Env M) (m : M) (ts : BitVec w) (f : Nat) (arr : List (Cell w)) : Res (List (Cell w) × Unit) :=
  scan (clearBody env m ts) f 0 (arr, ())

/-- `list[i].cb(list[i].current, list[i].data)`: calling NULL is undefined. -/
def call (env : Env M) (i : Nat) (c : Cell w) (m : M) : Res M := if c.cb then .ok (env.cb m i) else .ub

/-- `watcher_trigger_cb`, watcher.c:66-68; the index is an `int`. -/
def triggerCb (env : Env M) (arr : List (Cell w)) (index : Int) (m : M) : Res M :=
  if index < 0 then .ub
  else do
    let c ← rd arr index.toNat
    call env index.toNat c m

/-- watcher.c:60 and 75; the list is the indices of the callbacks called. -/
def triggerBody (env : Env M) (i : Nat) (c : Cell w) (s : M × List Nat) : Res (Cell w × (M × List Nat)) := do
  let m ← call env i c s.1
  pure (c, (m, s.2 ++ [i]))

/-- `watcher_trigger_all` and `watcher_trigger_all_cb`, watcher.c:56-63 and 71-78. -/
def triggerAllA (env : Env M) (m : M) (f : Nat) (arr : List (Cell w)) : Res (List (Cell w) × (M × List Nat)) :=
  scan (triggerBody env) f 0 (arr, (m, []))

/-- watcher.c:86-102; the state is the memory, `res` and the indices of the callbacks called. -/
def processBody (env : Env M) (ts : BitVec w) (i : Nat) (c : Cell w) (s : M × Bool × List Nat) :
    Res (Cell w × (M × Bool × List Nat)) :=
  let x := c.watcher
  let (m, res, calls) := s
  if x.old ≠ now env m i x then
    if x.delay > 0 then
      pure ({ c with watcher := { x with ts := ts, moved := true, old := now env m i x } }, (m, true, calls))
    else do
      let m ← call env i c m
      pure ({ c with watcher := { x with moved := false, old := now env m i x } }, (m, true, calls ++ [i]))
  else if x.moved then
    if Time.isLooselyExpired x.ts ts x.delay then do
      let m ← call env i c m
      pure ({ c with watcher := { x with moved := false } }, (m, res, calls ++ [i]))
    else pure (c, s)
  else pure (c, s)

/-- `watcher_process_changes`, watcher.c:81-108. -/
def processA (env : Env M) (m : M) (ts : BitVec w) (f : Nat) (arr : List (Cell w)) :
    Res (List (Cell w) × (M × Bool × List Nat)) :=
  scan (processBody env ts) f 0 (arr, (m, false, []))

/-! ## The loop -/

/-- The body done with the elements of a list in turn. -/
def inTurn (body : Nat → Cell w → σ → Res (Cell w × σ)) : Nat → List (Cell w) → σ → Res (List (Cell w) × σ)
  | _, [], s => .ok ([], s)
  | i, c :: cs, s => do
    let (c, s) ← body i c s
    let (cs, s) ← inTurn body (i + 1) cs s
    pure (c :: cs, s)

theorem rd_mid (pre : List α) (x : α) (post : List α) : rd (pre ++ x :: post) pre.length = .ok x := by
  simp [rd]

theorem wr_mid (pre : List α) (x y : α) (post : List α) : wr (pre ++ x :: post) pre.length y = .ok (pre ++ y :: post) := by
  simp [wr]

/-- The loop does the body with the elements before the first one without `current`, and leaves the rest alone. -/
theorem scan_eq (body : Nat → Cell w → σ → Res (Cell w × σ)) (cs rest : List (Cell w)) (stop : Cell w)
    (hc : ∀ c ∈ cs, c.current = true) (hstop : stop.current = false) :
    ∀ (pre : List (Cell w)) (s : σ) (f : Nat), cs.length < f →
    scan body f pre.length (pre ++ cs ++ stop :: rest, s) = (do
      let (cs, s) ← inTurn body pre.length cs s
      pure (pre ++ cs ++ stop :: rest, s)) := by
  induction cs with
  | nil =>
    intro pre s f hf
    obtain ⟨f, rfl⟩ : ∃ k, f = k + 1 := ⟨f - 1, by simp at hf; omega⟩
    rw [List.append_nil, scan, rd_mid]
    simp [hstop, inTurn]
  | cons c cs ih =>
    intro pre s f hf
    obtain ⟨f, rfl⟩ : ∃ k, f = k + 1 := ⟨f - 1, by simp at hf; omega⟩
    have e : pre ++ c :: cs ++ stop :: rest = pre ++ c :: (cs ++ stop :: rest) := by simp
    rw [e, scan, rd_mid, Res.ok_bind, if_pos (hc c (by simp)), inTurn]
    cases hb : body pre.length c s with
    | ok p =>
      obtain ⟨c', s'⟩ := p
      have e' : pre ++ c' :: (cs ++ stop :: rest) = (pre ++ [c']) ++ cs ++ stop :: rest := by simp
      simp only [Res.ok_bind, wr_mid]
      have := ih (fun c hcc => hc c (by simp [hcc])) (pre ++ [c']) s' f (by simp at hf; omega)
      rw [List.length_append, List.length_singleton] at this
      rw [e', this]
      cases inTurn body (pre.length + 1) cs s' with
      | ok q => simp
      | ub => rfl
      | abort => rfl
      | diverge => rfl
    | ub => rfl
    | abort => rfl
    | diverge => rfl

/-- Without an element whose `current` is NULL the loop runs out of the array, unless its body ends the execution before. -/
theorem scan_ub (body : Nat → Cell w → σ → Res (Cell w × σ)) (cs : List (Cell w)) (hc : ∀ c ∈ cs, c.current = true) :
    ∀ (pre : List (Cell w)) (s : σ) (f : Nat), cs.length < f → ∀ r, scan body f pre.length (pre ++ cs, s) ≠ .ok r := by
  induction cs with
  | nil =>
    intro pre s f hf r
    obtain ⟨f, rfl⟩ : ∃ k, f = k + 1 := ⟨f - 1, by simp at hf; omega⟩
    rw [List.append_nil, scan, rd, List.getElem?_eq_none (Nat.le_refl _)]
    simp
  | cons c cs ih =>
    intro pre s f hf r
    obtain ⟨f, rfl⟩ : ∃ k, f = k + 1 := ⟨f - 1, by simp at hf; omega⟩
    rw [scan, rd_mid, Res.ok_bind, if_pos (hc c (by simp))]
    cases hb : body pre.length c s with
    | ok p =>
      obtain ⟨c', s'⟩ := p
      simp only [Res.ok_bind, wr_mid]
      have := ih (fun c hcc => hc c (by simp [hcc])) (pre ++ [c']) s' f (by simp at hf; omega) r
      rw [List.length_append, List.length_singleton, List.append_assoc] at this
      exact this
    | ub => simp
    | abort => simp
    | diverge => simp

/-! ## C174 -/

/-- The elements of the array for the watchers of a list, with callbacks. -/
def cells (l : List (Watcher w)) : List (Cell w) := l.map fun x => ⟨x, true, true⟩

theorem check_stop (env : Env M) (m : M) (stop : Cell w) (rest : List (Cell w)) (hstop : stop.current = false)
    (l : List (Watcher w)) : ∀ (pre : List (Cell w)) (f : Nat), l.length < f →
    checkA env m (pre ++ cells l ++ stop :: rest) f pre.length = .ok (check env m pre.length l) := by
  induction l with
  | nil =>
    intro pre f hf
    obtain ⟨f, rfl⟩ : ∃ k, f = k + 1 := ⟨f - 1, by simp at hf; omega⟩
    rw [cells, List.map_nil, List.append_nil, checkA, rd_mid]
    simp [hstop, check]
  | cons x l ih =>
    intro pre f hf
    obtain ⟨f, rfl⟩ : ∃ k, f = k + 1 := ⟨f - 1, by simp at hf; omega⟩
    have e : pre ++ cells (x :: l) ++ stop :: rest = pre ++ ⟨x, true, true⟩ :: (cells l ++ stop :: rest) := by simp [cells]
    have e' : pre ++ ⟨x, true, true⟩ :: (cells l ++ stop :: rest) = (pre ++ [⟨x, true, true⟩]) ++ cells l ++ stop :: rest := by
      simp
    rw [e, checkA, rd_mid, Res.ok_bind, check]
    simp only [if_true]
    have := ih (pre ++ [⟨x, true, true⟩]) f (by simp at hf; omega)
    rw [List.length_append, List.length_singleton] at this
    rw [e', this]
    split_ifs <;> rfl

theorem init_turn (env : Env M) (m : M) (l : List (Watcher w)) : ∀ (i : Nat) (h : Heap),
    (∀ k, k < l.length → h.next (h.blocks + k) = true) →
    inTurn (initBody env m) i (cells l) h = .ok (cells (stored env m i l),
      { h with live := h.live + (l.map (·.size)).sum, blocks := h.blocks + l.length }) := by
  induction l with
  | nil => intro i h _; simp [cells, inTurn, stored]
  | cons x l ih =>
    intro i h hm
    have h0 := hm 0 (by simp)
    rw [Nat.add_zero] at h0
    have := ih (i + 1) { h with live := h.live + x.size, blocks := h.blocks + 1 } (by
      intro k hk
      have := hm (k + 1) (by simp; omega)
      rw [show h.blocks + (k + 1) = h.blocks + 1 + k by omega] at this
      exact this)
    simp only [cells, List.map_cons, inTurn, initBody, h0, if_true, Res.pure_eq, Res.ok_bind] at this ⊢
    rw [this]
    simp only [Res.ok_bind, stored, List.map_cons, List.sum_cons, List.length_cons]
    congr 3
    · omega
    · omega

theorem clear_turn (env : Env M) (m : M) (ts : BitVec w) (l : List (Watcher w)) : ∀ i,
    inTurn (clearBody env m ts) i (cells l) () = .ok (cells (clear env m ts i l), ()) := by
  induction l with
  | nil => intro i; rfl
  | cons x l ih =>
    intro i
    have := ih (i + 1)
    simp only [cells, List.map_cons, inTurn, clearBody, clear] at this ⊢
    split_ifs <;> simp only [Res.pure_eq, Res.ok_bind, this]

theorem trigger_turn (env : Env M) (l : List (Watcher w)) : ∀ (i : Nat) (m : M) (calls : List Nat),
    inTurn (triggerBody env) i (cells l) (m, calls) =
      .ok (cells l, ((triggerAll env m i l).1, calls ++ (triggerAll env m i l).2)) := by
  induction l with
  | nil => intro i m calls; simp [cells, inTurn, triggerAll]
  | cons x l ih =>
    intro i m calls
    have := ih (i + 1) (env.cb m i) (calls ++ [i])
    simp only [cells, List.map_cons, inTurn, triggerBody, triggerAll, call, if_true, Res.ok_bind, Res.pure_eq] at this ⊢
    rw [this]
    simp

theorem process_turn (env : Env M) (ts : BitVec w) (l : List (Watcher w)) : ∀ (i : Nat) (m : M) (res : Bool) (calls : List Nat),
    inTurn (processBody env ts) i (cells l) (m, res, calls) =
      .ok (cells (process env m ts i l).list, ((process env m ts i l).mem, res || (process env m ts i l).res,
        calls ++ (process env m ts i l).calls)) := by
  induction l with
  | nil => intro i m res calls; simp [cells, inTurn, process]
  | cons x l ih =>
    intro i m res calls
    have hb : processBody env ts i ⟨x, true, true⟩ (m, res, calls) =
        .ok (⟨(step env m ts i x).elem, true, true⟩, ((step env m ts i x).mem, res || (step env m ts i x).res,
          if (step env m ts i x).called then calls ++ [i] else calls)) := by
      simp only [processBody, step, call, if_true, Res.ok_bind, Res.pure_eq]
      by_cases h1 : x.old ≠ now env m i x
      · by_cases h2 : x.delay > 0
        · simp only [if_pos h1, if_pos h2]; simp
        · simp only [if_pos h1, if_neg h2]; simp
      · by_cases h2 : x.moved = true
        · by_cases h3 : Time.isLooselyExpired x.ts ts x.delay = true
          · simp only [if_neg h1, if_pos h2, if_pos h3]; simp
          · simp only [if_neg h1, if_pos h2, if_neg h3]; simp
        · simp only [if_neg h1, if_neg h2]; simp
    simp only [cells, List.map_cons, inTurn, hb, Res.ok_bind]
    have := ih (i + 1) (step env m ts i x).mem (res || (step env m ts i x).res)
      (if (step env m ts i x).called then calls ++ [i] else calls)
    rw [cells] at this
    rw [this]
    simp only [process, Res.ok_bind, Res.pure_eq, List.map_cons, cells, Bool.or_assoc]
    split_ifs <;> simp

/-- **C174.** Every function deals with the elements before the first one whose `current` is NULL, as the model of the list does, and
leaves that one and everything after it alone, whatever it is. -/
theorem C174_list (env : Env M) (m : M) (ts : BitVec w) (l : List (Watcher w)) (stop : Cell w) (rest : List (Cell w))
    (hstop : stop.current = false) (f : Nat) (hf : l.length < f) :
    let arr := cells l ++ stop :: rest
    (∀ h : Heap, (∀ k, h.next k = true) → ∃ h', initA env m f arr h = .ok (cells (stored env m 0 l) ++ stop :: rest, h')) ∧
    checkA env m arr f 0 = .ok (check env m 0 l) ∧
    clearA env m ts f arr = .ok (cells (clear env m ts 0 l) ++ stop :: rest, ()) ∧
    triggerAllA env m f arr = .ok (arr, triggerAll env m 0 l) ∧
    processA env m ts f arr = .ok (cells (process env m ts 0 l).list ++ stop :: rest,
      ((process env m ts 0 l).mem, (process env m ts 0 l).res, (process env m ts 0 l).calls)) := by
  intro arr
  have hc : ∀ c ∈ cells l, c.current = true := by
    intro c hc
    rw [cells, List.mem_map] at hc
    obtain ⟨x, _, rfl⟩ := hc
    rfl
  have hl : (cells l).length < f := by simpa [cells] using hf
  have key : ∀ {σ : Type _} (body : Nat → Cell w → σ → Res (Cell w × σ)) (s : σ), scan body f 0 (arr, s) = (do
      let (cs, s) ← inTurn body 0 (cells l) s
      pure (cs ++ stop :: rest, s)) := by
    intro σ body s
    have := scan_eq body (cells l) rest stop hc hstop [] s f hl
    simpa using this
  refine ⟨?_, ?_, ?_, ?_, ?_⟩
  · intro h hn
    refine ⟨{ h with live := h.live + (l.map (·.size)).sum, blocks := h.blocks + l.length }, ?_⟩
    rw [initA, key, init_turn env m l 0 h (fun k _ => hn _)]
    rfl
  · have := check_stop env m stop rest hstop l [] f hf
    simpa using this
  · rw [clearA, key, clear_turn]; rfl
  · rw [triggerAllA, key, trigger_turn]; simp [arr]
  · rw [processA, key, process_turn]; simp

/-- **C174** with `WATCHER_NULL` (watcher.h:30) as the end: what lies behind it is neither looked at nor changed. -/
theorem C174_null (env : Env M) (m : M) (ts : BitVec w) (l : List (Watcher w)) (rest : List (Cell w)) (f : Nat)
    (hf : l.length < f) :
    checkA env m (cells l ++ null w :: rest) f 0 = .ok (check env m 0 l) ∧
    clearA env m ts f (cells l ++ null w :: rest) = .ok (cells (clear env m ts 0 l) ++ null w :: rest, ()) ∧
    triggerAllA env m f (cells l ++ null w :: rest) = .ok (cells l ++ null w :: rest, triggerAll env m 0 l) ∧
    processA env m ts f (cells l ++ null w :: rest) = .ok (cells (process env m ts 0 l).list ++ null w :: rest,
      ((process env m ts 0 l).mem, (process env m ts 0 l).res, (process env m ts 0 l).calls)) :=
  (C174_list env m ts l (null w) rest rfl f hf).2

/-- **C174.** If no element has a NULL `current`, no function that goes through the whole array returns: it reads beyond it. -/
theorem C174_endless (env : Env M) (m : M) (ts : BitVec w) (arr : List (Cell w)) (hc : ∀ c ∈ arr, c.current = true) (f : Nat)
    (hf : arr.length < f) :
    (∀ h r, initA env m f arr h ≠ .ok r) ∧ (∀ r, clearA env m ts f arr ≠ .ok r) ∧ (∀ r, triggerAllA env m f arr ≠ .ok r) ∧
    (∀ r, processA env m ts f arr ≠ .ok r) ∧ checkA env m arr f 0 ≠ .ok false := by
  refine ⟨fun h => ?_, ?_, ?_, ?_, ?_⟩
  · exact scan_ub _ arr hc [] _ f hf
  · exact scan_ub _ arr hc [] _ f hf
  · exact scan_ub _ arr hc [] _ f hf
  · exact scan_ub _ arr hc [] _ f hf
  · have key : ∀ (cs pre : List (Cell w)) (f : Nat), (∀ c ∈ cs, c.current = true) → cs.length < f →
        checkA env m (pre ++ cs) f pre.length ≠ .ok false := by
      intro cs
      induction cs with
      | nil =>
        intro pre f _ hf
        obtain ⟨f, rfl⟩ : ∃ k, f = k + 1 := ⟨f - 1, by simp at hf; omega⟩
        rw [List.append_nil, checkA, rd, List.getElem?_eq_none (Nat.le_refl _)]
        simp
      | cons c cs ih =>
        intro pre f hcs hf
        obtain ⟨f, rfl⟩ : ∃ k, f = k + 1 := ⟨f - 1, by simp at hf; omega⟩
        rw [checkA, rd_mid, Res.ok_bind, if_pos (hcs c (by simp))]
        have := ih (pre ++ [c]) f (fun c hcc => hcs c (by simp [hcc])) (by simp at hf; omega)
        rw [List.length_append, List.length_singleton, List.append_assoc] at this
        split_ifs
        · simp
        · exact this
    exact key arr [] f hc hf

/-- **C174.** `watcher_trigger_cb` calls the callback of the element with that index, of any element that has one; a negative index,
one beyond the array and an element without callback (`WATCHER_NULL`) are undefined. -/
theorem C174_trigger (env : Env M) (m : M) (arr : List (Cell w)) (index : Int) :
    (∀ m', triggerCb env arr index m = .ok m' ↔
      0 ≤ index ∧ (∃ c, arr[index.toNat]? = some c ∧ c.cb = true) ∧ m' = env.cb m index.toNat) ∧
    ((index < 0 ∨ arr.length ≤ index.toNat ∨ arr[index.toNat]? = some (null w)) → triggerCb env arr index m = .ub) := by
  constructor
  · intro m'
    rw [triggerCb]
    by_cases h0 : index < 0
    · rw [if_pos h0]
      constructor
      · intro h; cases h
      · rintro ⟨h, -⟩; omega
    · rw [if_neg h0, rd]
      cases hr : arr[index.toNat]? with
      | none => simp
      | some c =>
        simp only [Res.ok_bind, call]
        cases hcb : c.cb with
        | true => simp only [if_true, Res.ok.injEq]; constructor
                  · rintro rfl; exact ⟨by omega, ⟨c, rfl, hcb⟩, rfl⟩
                  · rintro ⟨-, -, rfl⟩; rfl
        | false => simp [hcb]
  · intro h
    rw [triggerCb]
    by_cases h0 : index < 0
    · rw [if_pos h0]
    · rw [if_neg h0, rd]
      rcases h with h | h | h
      · exact absurd h h0
      · rw [List.getElem?_eq_none h]; rfl
      · rw [h]; rfl

/-- The second watcher is behind a null element: its change is not found. -/
example : let arr := cells [{ make 64 false 1 0 with old := [1] }] ++ null 64 :: cells [{ make 64 false 1 0 with old := [9] }]
    (processA toy ([2, 0, 3], 0) 5 4 arr).isOk = true ∧ checkA toy ([1, 0, 3], 0) arr 4 0 = .ok false ∧
    checkA toy ([1, 0, 3], 0) (cells [{ make 64 false 1 0 with old := [1] }]) 4 0 = .ub ∧
    checkA toy ([2, 0, 3], 0) (cells [{ make 64 false 1 0 with old := [1] }]) 4 0 = .ok true := by decide

/-! ## C175 -/

/-- **C175** (partial). One `watcher_list_init` allocates one block for every watcher, of the size of the watched memory, if the
allocations succeed. Missing: a further initialisation of the same list (`C175_leak_wrong`), and allocations that fail
(`C175_fail_wrong`). -/
theorem C175_once_partial (env : Env M) (m : M) (l : List (Watcher w)) (stop : Cell w) (rest : List (Cell w))
    (hstop : stop.current = false) (f : Nat) (hf : l.length < f) (h : Heap)
    (hn : ∀ k, k < l.length → h.next (h.blocks + k) = true) :
    initA env m f (cells l ++ stop :: rest) h = .ok (cells (stored env m 0 l) ++ stop :: rest,
      { h with live := h.live + (l.map (·.size)).sum, blocks := h.blocks + l.length }) := by
  have hc : ∀ c ∈ cells l, c.current = true := by
    intro c hc
    rw [cells, List.mem_map] at hc
    obtain ⟨x, _, rfl⟩ := hc
    rfl
  have := scan_eq (initBody env m) (cells l) rest stop hc hstop [] h f (by simpa [cells] using hf)
  rw [List.length_nil, init_turn env m l 0 h hn] at this
  simpa [initA] using this

/-- `n` calls of `watcher_list_init` with the same list. -/
def initTimes (env : Env M) (m : M) (f : Nat) : Nat → List (Cell w) → Heap → Res (List (Cell w) × Heap)
  | 0, arr, h => .ok (arr, h)
  | n + 1, arr, h => do
    let (arr, h) ← initA env m f arr h
    initTimes env m f n arr h

/-- **C175**, where it fails: every further initialisation allocates all blocks again and frees none: after `n` calls the list uses
one set of blocks, and `n - 1` sets are lost. -/
theorem C175_leak_wrong (env : Env M) (m : M) (l : List (Watcher w)) (stop : Cell w) (rest : List (Cell w))
    (hstop : stop.current = false) (f : Nat) (hf : l.length < f) (n : Nat) :
    ∀ (h : Heap), (∀ k, h.next k = true) → ∃ arr h', initTimes env m f n (cells l ++ stop :: rest) h = .ok (arr, h') ∧
      h'.live = h.live + n * (l.map (·.size)).sum ∧ h'.blocks = h.blocks + n * l.length := by
  induction n generalizing l with
  | zero => intro h _; exact ⟨_, _, rfl, by simp, by simp⟩
  | succ n ih =>
    intro h hn
    have hlen : (stored env m 0 l).length = l.length := by
      have : ∀ (l : List (Watcher w)) i, (stored env m i l).length = l.length := by
        intro l
        induction l with
        | nil => intro i; rfl
        | cons x l ih => intro i; simp [stored, ih]
      exact this l 0
    have hsum : (stored env m 0 l).map (·.size) = l.map (·.size) := by
      have : ∀ (l : List (Watcher w)) i, (stored env m i l).map (·.size) = l.map (·.size) := by
        intro l
        induction l with
        | nil => intro i; rfl
        | cons x l ih => intro i; simp [stored, ih]
      exact this l 0
    obtain ⟨arr, h', e, h1, h2⟩ := ih (stored env m 0 l) (by omega)
      { h with live := h.live + (l.map (·.size)).sum, blocks := h.blocks + l.length } hn
    refine ⟨arr, h', ?_, ?_, ?_⟩
    · rw [initTimes, C175_once_partial env m l stop rest hstop f hf h fun k _ => hn _]
      exact e
    · rw [h1, hsum, Nat.add_mul]; simp only []; omega
    · rw [h2, hlen, Nat.add_mul]; simp only []; omega

/-- **C175**, where it fails: the result of `malloc` is not checked; if one allocation fails the call is undefined. -/
theorem C175_fail_wrong (env : Env M) (m : M) (l : List (Watcher w)) (stop : Cell w) (rest : List (Cell w))
    (hstop : stop.current = false) (f : Nat) (hf : l.length < f) (h : Heap) (k : Nat) (hk : k < l.length)
    (hn : h.next (h.blocks + k) = false) : initA env m f (cells l ++ stop :: rest) h = .ub := by
  have hc : ∀ c ∈ cells l, c.current = true := by
    intro c hc
    rw [cells, List.mem_map] at hc
    obtain ⟨x, _, rfl⟩ := hc
    rfl
  have key : ∀ (l : List (Watcher w)) (i : Nat) (h : Heap) (k : Nat), k < l.length → h.next (h.blocks + k) = false →
      inTurn (initBody env m) i (cells l) h = .ub := by
    intro l
    induction l with
    | nil => intro i h k hk; simp at hk
    | cons x l ih =>
      intro i h k hk hn
      cases h0 : h.next h.blocks with
      | false => simp [cells, inTurn, initBody, h0]
      | true =>
        cases k with
        | zero => rw [Nat.add_zero, h0] at hn; cases hn
        | succ k =>
          have := ih (i + 1) { h with live := h.live + x.size, blocks := h.blocks + 1 } k (by simpa using hk) (by
            rw [show h.blocks + (k + 1) = h.blocks + 1 + k by omega] at hn
            exact hn)
          simp only [cells, List.map_cons, inTurn, initBody, h0, if_true, Res.pure_eq, Res.ok_bind] at this ⊢
          rw [this]; rfl
  have := scan_eq (initBody env m) (cells l) rest stop hc hstop [] h f (by simpa [cells] using hf)
  rw [List.length_nil, key l 0 h k hk hn] at this
  simpa [initA] using this

example : (do let (_, h) ← initTimes toy ([1, 2, 3], 0) 5 3 (cells three ++ [null 64]) ⟨0, 0, fun _ => true⟩
              pure (h.live, h.blocks)) = .ok (9, 9) ∧
    (do let (_, h) ← initA toy ([1, 2, 3], 0) 5 (cells three ++ [null 64]) ⟨0, 0, fun k => decide (k < 2)⟩
        pure h.blocks) = .ub := by decide

end Gel.Watcher
