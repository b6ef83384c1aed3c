import Verif.Stack.Props

/-!
# Macro stack: interrupt handlers (C205)

The calls as sequences of accesses to the stack, with a handler before each of them that runs to its end; the handler does `H t` at
the `t`-th point of the call. An element is copied in one step.
-/
namespace Gel.Stack

variable {α : Type u}

/-- `NAME_push`, stack.h:36-44. The increment and the store of the element in line 42 are unsequenced; `first` says that the
incremented index is stored before the element. -/
def pushI (first : Bool) (H : Nat → Stack α → Stack α) (s : Stack α) (x : α) : Res (Stack α × Nat) :=
  let s := H 0 s
  if s.idx = s.items.length then .ok (s, 1)
  else
    let s := H 1 s
    let i := s.idx
    let s := H 2 s
    if first then do
      let s := H 3 { s with idx := (i + 1) % 2 ^ 16 }
      let items ← wr s.items i x
      pure ({ s with items := items }, 0)
    else do
      let items ← wr s.items i x
      let s := H 3 { s with items := items }
      pure ({ s with idx := (i + 1) % 2 ^ 16 }, 0)

/-- `NAME_pop`, stack.h:46-56, with a non-NULL pointer; an index of 0 in line 52 is outside the array. -/
def popI (H : Nat → Stack α → Stack α) (s : Stack α) : Res (Stack α × Nat × Option α) :=
  let s := H 0 s
  if s.idx = 0 then .ok (s, 1, none)
  else
    let s := H 1 s
    let i := s.idx
    let s := H 2 s
    if i = 0 then .ub
    else do
      let x ← rd s.items (i - 1)
      let s := H 3 s
      let j := s.idx
      let s := H 4 s
      pure ({ s with idx := (j + 65535) % 2 ^ 16 }, 0, some x)

/-- The loop of `NAME_dequeue`, stack.h:72-73, from `i`; `t` is the number of the next point. -/
def dequeueLoop (H : Nat → Stack α → Stack α) : Nat → Nat → Nat → Stack α → Res (Nat × Stack α)
  | 0, _, _, _ => .diverge
  | fuel + 1, t, i, s =>
    let s := H t s
    if (i : Int) < (s.idx : Int) - 1 then do
      let s := H (t + 1) s
      let x ← rd s.items (i + 1)
      let s := H (t + 2) s
      let items ← wr s.items i x
      dequeueLoop H fuel (t + 3) (i + 1) { s with items := items }
    else .ok (t + 1, s)

/-- `NAME_dequeue`, stack.h:69-77. -/
def dequeueI (H : Nat → Stack α → Stack α) (s : Stack α) : Res (Stack α) :=
  let s := H 0 s
  if s.idx > 0 then do
    let (t, s) ← dequeueLoop H 65536 1 0 s
    let s := H t s
    let j := s.idx
    let s := H (t + 1) s
    pure { s with idx := (j + 65535) % 2 ^ 16 }
  else .ok s

/-- Handlers that leave the stack, whatever it holds, as it was; above the top they may leave anything. -/
def Balanced (cap : Nat) (H : Nat → Stack α → Stack α) : Prop := ∀ t s l, Rep cap s l → Rep cap (H t s) l

/-- A handler that pushes `y` and, unless the stack is full, pops it again. -/
def pushPop (y : α) (s : Stack α) : Stack α :=
  match push s y with
  | .ok (s', 0) => (popNull s').1
  | _ => s

theorem pushPop_rep {cap : Nat} (hc : cap ≤ 65535) (y : α) {s : Stack α} {l : List α} (h : Rep cap s l) : Rep cap (pushPop y s) l := by
  have := push_rep hc h y
  rw [pushPop]
  split_ifs at this with hl
  · obtain ⟨s', e, r⟩ := this
    rw [e]
    simpa using (pop_rep r (by simp)).2.2
  · rw [this]
    exact h

/-- **C205.** Without handlers the calls are those of the first model (of an index within the array, below 2^16). -/
theorem C205_quiet (s : Stack α) (x : α) (first : Bool) :
    pushI first (fun _ s => s) s x = push s x ∧ (s.idx < 2 ^ 16 → popI (fun _ s => s) s = pop s) := by
  constructor
  · rw [pushI, push]
    simp only
    split_ifs
    · rfl
    · rfl
    · rfl
  · intro h
    rw [popI, pop]
    simp only
    by_cases h0 : s.idx = 0
    · rw [if_pos h0, if_pos h0]
    · rw [if_neg h0, if_neg h0, if_neg h0]
      rw [show (s.idx + 65535) % 2 ^ 16 = s.idx - 1 by omega]

/-- The stack after a handler's calls. -/
def calls (cs : List (Call α)) (s : Stack α) : Stack α :=
  match run s cs with
  | .ok (s', _) => s'
  | _ => s

/-- **C205.** Handlers that make calls (but `peek` with an element to store, which is broken) are balanced if the list
specification says that the stack is in the end what it was. The calls may depend on the point and on the index. -/
theorem C205_calls {cap : Nat} (hc : cap ≤ 65535) (cs : Nat → Nat → List (Call α)) (hp : ∀ t n, .peek ∉ cs t n)
    (hb : ∀ t (l : List α), l.length ≤ cap → (Spec.run cap l (cs t l.length)).1 = l) :
    Balanced cap (fun t s => calls (cs t s.idx) s) := fun t s l h => by
  obtain ⟨s', e, r⟩ := run_rep hc h (cs t s.idx) (hp t _)
  simp only [calls, e]
  have := hb t l h.fits
  rw [← h.idx] at this
  rwa [this] at r

/-- **C205.** A handler that pushes an element and, unless the stack was full, pops it is balanced. -/
theorem C205_handler {cap : Nat} (hc : cap ≤ 65535) (y : α) : Balanced cap (fun _ => pushPop y) := fun _ _ _ h => pushPop_rep hc y h

/-- **C205.** `push` with balanced handlers, if the index is stored first: as without them. -/
theorem C205_push {cap : Nat} (hc : cap ≤ 65535) {H : Nat → Stack α → Stack α} (hH : Balanced cap H) {s : Stack α} {l : List α} (h : Rep cap s l)
    (x : α) : ∃ s', pushI true H s x = .ok (s', if l.length < cap then 0 else 1) ∧ Rep cap s' (if l.length < cap then l ++ [x] else l) := by
  have r0 := hH 0 _ _ h
  rw [pushI]
  simp only
  by_cases hl : l.length < cap
  · simp only [if_pos hl]
    rw [if_neg (by rw [r0.idx, r0.len]; omega)]
    have r1 := hH 1 _ _ r0
    have r2 := hH 2 _ _ r1
    generalize hs2 : H 2 (H 1 (H 0 s)) = s2 at *
    rw [r1.idx]
    obtain ⟨z, hz⟩ : ∃ z, s2.items[l.length]? = some z := ⟨_, List.getElem?_eq_getElem (by rw [r2.len]; exact hl)⟩
    have r2' : Rep cap { s2 with idx := (l.length + 1) % 2 ^ 16 } (l ++ [z]) := by
      refine ⟨by simp only [List.length_append, List.length_singleton]; omega, r2.len, by simp; omega, fun i hi => ?_⟩
      simp only [List.length_append, List.length_singleton] at hi
      by_cases hi' : i < l.length
      · rw [List.getElem?_append_left hi']; exact r2.get i hi'
      · have : i = l.length := by omega
        subst this
        simpa using hz
    have r3 := hH 3 _ _ r2'
    generalize H 3 _ = s3 at *
    rw [if_pos trivial, wr, if_pos (by rw [r3.len]; exact hl)]
    refine ⟨_, rfl, by simpa using r3.idx, by simpa using r3.len, by simp; omega, fun i hi => ?_⟩
    simp only [List.length_append, List.length_singleton] at hi
    simp only [List.getElem?_set]
    by_cases hi' : i < l.length
    · rw [if_neg (by omega), r3.get i (by simp; omega), List.getElem?_append_left hi', List.getElem?_append_left hi']
    · have : i = l.length := by omega
      subst this
      rw [if_pos rfl, if_pos (by rw [r3.len]; exact hl)]; simp
  · simp only [if_neg hl]
    have hf := r0.fits
    rw [if_pos (by rw [r0.idx, r0.len]; omega)]
    exact ⟨_, rfl, r0⟩

theorem dec_rep {cap : Nat} (hc : cap ≤ 65535) {s : Stack α} {l : List α} (h : Rep cap s l) (hl : l.length ≠ 0) :
    Rep cap { s with idx := (l.length + 65535) % 2 ^ 16 } l.dropLast := by
  have hf := h.fits
  refine ⟨by simp only [List.length_dropLast]; omega, h.len, by simp; omega, fun i hi => ?_⟩
  simp only [List.length_dropLast] at hi
  rw [List.getElem?_dropLast, if_pos hi]
  exact h.get i (by omega)

/-- **C205.** `pop` with balanced handlers: as without them. -/
theorem C205_pop {cap : Nat} (hc : cap ≤ 65535) {H : Nat → Stack α → Stack α} (hH : Balanced cap H) {s : Stack α} {l : List α} (h : Rep cap s l) :
    ∃ s', popI H s = .ok (s', (if l.length = 0 then 1 else 0), l.getLast?) ∧ Rep cap s' l.dropLast := by
  have r0 := hH 0 _ _ h
  rw [popI]
  simp only
  by_cases hl : l.length = 0
  · have : l = [] := List.length_eq_zero_iff.1 hl
    subst this
    rw [if_pos (by simpa using r0.idx)]
    exact ⟨_, rfl, r0⟩
  · rw [if_neg (by rw [r0.idx]; exact hl)]
    have r1 := hH 1 _ _ r0
    have r2 := hH 2 _ _ r1
    have r3 := hH 3 _ _ r2
    have r4 := hH 4 _ _ r3
    rw [r1.idx, if_neg hl, if_neg hl, rd, r2.get (l.length - 1) (by omega)]
    have e : l[l.length - 1]? = some (l[l.length - 1]'(by omega)) := List.getElem?_eq_getElem (by omega)
    rw [List.getLast?_eq_getElem?, e]
    simp only [Res.ok_bind, Res.pure_eq]
    exact ⟨_, rfl, by rw [r3.idx]; exact dec_rep hc r4 hl⟩

theorem dequeueLoop_rep {cap : Nat} {H : Nat → Stack α → Stack α} (hH : Balanced cap H) : ∀ (fuel t i : Nat) {s : Stack α} {l : List α}
    (_ : Rep cap s l) (_ : 0 < l.length) (_ : i < l.length) (_ : l.length - i ≤ fuel),
    ∃ t' s' l', dequeueLoop H fuel t i s = .ok (t', s') ∧ Rep cap s' l' ∧ l'.dropLast = l.take i ++ l.drop (i + 1) ∧ l'.length = l.length
  | 0, _, _, _, _, _, _, h1, h2 => by omega
  | fuel + 1, t, i, s, l, h, h0, h1, h2 => by
    have r0 := hH t _ _ h
    rw [dequeueLoop]
    simp only
    by_cases hi : i + 1 < l.length
    · rw [if_pos (by rw [r0.idx]; omega)]
      have r1 := hH (t + 1) _ _ r0
      have r2 := hH (t + 2) _ _ r1
      have e : l[i + 1]? = some (l[i + 1]'hi) := List.getElem?_eq_getElem hi
      rw [rd, r1.get (i + 1) hi, e]
      simp only [Res.ok_bind]
      rw [wr, if_pos (by rw [r2.len]; have := r2.fits; omega)]
      have r3 : Rep cap { H (t + 2) (H (t + 1) (H t s)) with items := (H (t + 2) (H (t + 1) (H t s))).items.set i (l[i + 1]'hi) }
          (l.set i (l[i + 1]'hi)) := by
        refine ⟨by simpa using r2.idx, by simpa using r2.len, by simpa using r2.fits, fun j hj => ?_⟩
        simp only [List.length_set] at hj
        simp only [List.getElem?_set]
        by_cases hij : i = j
        · subst hij
          rw [if_pos rfl, if_pos rfl, if_pos (by rw [r2.len]; have := r2.fits; omega), if_pos hj]
        · rw [if_neg hij, if_neg hij]; exact r2.get j hj
      obtain ⟨t', s', l', e1, e2, e3, e4⟩ := dequeueLoop_rep hH fuel (t + 3) (i + 1) r3 (by simpa using h0) (by simpa using hi)
        (by simp; omega)
      refine ⟨t', s', l', by simpa using e1, e2, ?_, by simpa using e4⟩
      rw [e3]
      have a1 : (l.set i l[i + 1]).take (i + 1) = l.take i ++ [l[i + 1]] := by
        rw [List.take_succ_eq_append_getElem (by simp; omega), List.getElem_set_self, List.take_set_of_le (by omega)]
      have a2 : (l.set i l[i + 1]).drop (i + 1 + 1) = l.drop (i + 1 + 1) := List.drop_set_of_lt (by omega)
      rw [a1, a2, List.drop_eq_getElem_cons hi]
      simp
    · rw [if_neg (by rw [r0.idx]; omega)]
      refine ⟨_, _, l, rfl, r0, ?_, rfl⟩
      have : i = l.length - 1 := by omega
      rw [this, List.drop_of_length_le (by omega), List.append_nil, List.dropLast_eq_take]

/-- **C205.** `dequeue` with balanced handlers: as without them. -/
theorem C205_dequeue {cap : Nat} (hc : cap ≤ 65535) {H : Nat → Stack α → Stack α} (hH : Balanced cap H) {s : Stack α} {l : List α}
    (h : Rep cap s l) : ∃ s', dequeueI H s = .ok s' ∧ Rep cap s' (l.drop 1) := by
  have r0 := hH 0 _ _ h
  have hf := h.fits
  rw [dequeueI]
  simp only
  by_cases hl : l.length = 0
  · have : l = [] := List.length_eq_zero_iff.1 hl
    subst this
    rw [if_neg (by rw [r0.idx]; simp)]
    exact ⟨_, rfl, r0⟩
  · rw [if_pos (by rw [r0.idx]; omega)]
    obtain ⟨t, s', l', e1, e2, e3, e4⟩ := dequeueLoop_rep hH 65536 1 0 r0 (by omega) (by omega) (by omega)
    rw [e1]
    simp only [Res.ok_bind, Res.pure_eq]
    have r1 := hH t _ _ e2
    have r2 := hH (t + 1) _ _ r1
    refine ⟨_, rfl, ?_⟩
    rw [r1.idx]
    have := dec_rep hc r2 (by omega)
    rw [e3] at this
    simpa using this

/-- One handler, at point `t`. -/
def onceAt (t : Nat) (f : Stack α → Stack α) : Nat → Stack α → Stack α := fun u s => if u = t then f s else s

/-- A handler that pushes `y`. -/
def pushH (y : α) (s : Stack α) : Stack α :=
  match push s y with
  | .ok (s', _) => s'
  | _ => s

/-- **C205**, where it fails: if the compiler stores the element first, a handler that pushes and pops `y` before the index is
stored puts `y` in the place of the element. -/
theorem C205_order_wrong {cap : Nat} (hc : cap ≤ 65535) {s : Stack α} {l : List α} (h : Rep cap s l) (hl : l.length < cap) (x y : α) :
    ∃ s', pushI false (onceAt 3 (pushPop y)) s x = .ok (s', 0) ∧ Rep cap s' (l ++ [y]) := by
  have hi := h.idx; have hn := h.len
  have hne : ¬ s.idx = s.items.length := by omega
  refine ⟨⟨(s.idx + 1) % 2 ^ 16, (s.items.set s.idx x).set s.idx y⟩, ?_, ?_⟩
  · rw [pushI]
    simp only [onceAt, Nat.reduceEqDiff, if_false, if_true, Bool.false_eq_true, hne]
    rw [wr, if_pos (by omega)]
    simp only [Res.ok_bind, Res.pure_eq]
    have : pushPop y { s with items := s.items.set s.idx x } = ⟨s.idx, (s.items.set s.idx x).set s.idx y⟩ := by
      have hm : (s.idx + 1) % 2 ^ 16 = s.idx + 1 := Nat.mod_eq_of_lt (by omega)
      rw [pushPop, push]
      simp only [List.length_set]
      rw [if_neg hne, wr, if_pos (by simp; omega)]
      simp [popNull, hm]
    rw [this]
  · refine ⟨?_, by simpa using hn, by simp; omega, fun i hi' => ?_⟩
    · simp only [List.length_append, List.length_singleton]; omega
    · simp only [List.length_append, List.length_singleton] at hi'
      simp only [List.set_set, List.getElem?_set]
      by_cases hil : i < l.length
      · rw [if_neg (by omega), h.get i hil, List.getElem?_append_left hil]
      · have : i = l.length := by omega
        subst this
        rw [if_pos hi, if_pos (by omega)]; simp

/-- **C205**, why the handlers have to be balanced: a handler pushes `y` while the top element is popped, after it was read. Its
element is lost; if it comes before `idx--` loads the index the element popped is still in the stack. -/
theorem C205_lost_wrong {cap : Nat} (hc : cap ≤ 65535) {s : Stack α} {l : List α} (h : Rep cap s l) (h0 : l.length ≠ 0) (hl : l.length < cap) (y : α) :
    (∃ s', popI (onceAt 3 (pushH y)) s = .ok (s', 0, l.getLast?) ∧ Rep cap s' l) ∧
    (∃ s', popI (onceAt 4 (pushH y)) s = .ok (s', 0, l.getLast?) ∧ Rep cap s' l.dropLast) := by
  have hi := h.idx; have hn := h.len
  have e : l[l.length - 1]? = some (l[l.length - 1]'(by omega)) := List.getElem?_eq_getElem (by omega)
  have hpush : pushH y s = ⟨l.length + 1, s.items.set l.length y⟩ := by
    rw [pushH, push, if_neg (by omega), wr, if_pos (by omega), hi]
    simp only [Res.ok_bind, Res.pure_eq]
    rw [Nat.mod_eq_of_lt (by omega)]
  have keep : ∀ i, i < l.length → (s.items.set l.length y)[i]? = l[i]? := fun i hi' => by
    rw [List.getElem?_set_ne (by omega)]; exact h.get i hi'
  constructor
  · rw [popI]
    simp only [onceAt, Nat.reduceEqDiff, if_false, if_true]
    rw [hi, if_neg h0, if_neg h0, rd, h.get _ (by omega), List.getLast?_eq_getElem?, e, hpush]
    simp only [Res.ok_bind, Res.pure_eq]
    exact ⟨_, rfl, by simp only; omega, by simpa using hn, by omega, keep⟩
  · rw [popI]
    simp only [onceAt, Nat.reduceEqDiff, if_false, if_true]
    rw [hi, if_neg h0, if_neg h0, rd, h.get _ (by omega), List.getLast?_eq_getElem?, e, hpush]
    simp only [Res.ok_bind, Res.pure_eq]
    refine ⟨_, rfl, by simp only [List.length_dropLast]; omega, by simpa using hn, by simp; omega, fun i hi' => ?_⟩
    simp only [List.length_dropLast] at hi'
    rw [List.getElem?_dropLast, if_pos hi']
    exact keep i (by omega)

/-- **C205**, why the handlers have to be balanced: a handler that pops before the element is stored gets what was in its place
before, and the element is lost. -/
theorem C205_stale_wrong {cap : Nat} (hc : cap ≤ 65535) {s : Stack α} {l : List α} (h : Rep cap s l) (hl : l.length < cap) (x : α) :
    (∃ s', pushI true (onceAt 3 fun s => (popNull s).1) s x = .ok (s', 0) ∧ Rep cap s' l) ∧
    ∃ z, s.items[l.length]? = some z ∧ pop { s with idx := l.length + 1 } = .ok (s, 0, some z) := by
  have hi := h.idx; have hn := h.len
  obtain ⟨z, hz⟩ : ∃ z, s.items[l.length]? = some z := ⟨_, List.getElem?_eq_getElem (by omega)⟩
  refine ⟨?_, z, hz, ?_⟩
  · rw [pushI]
    simp only [onceAt, Nat.reduceEqDiff, if_false, if_true]
    rw [if_neg (by omega)]
    have hm : (s.idx + 1) % 2 ^ 16 = l.length + 1 := by omega
    simp only [popNull, hm]
    simp only [Nat.add_one_ne_zero, if_false, Nat.add_sub_cancel]
    rw [wr, if_pos (by omega)]
    refine ⟨_, rfl, rfl, by simpa using hn, by omega, fun i hi' => ?_⟩
    simp only
    rw [List.getElem?_set_ne (by omega)]; exact h.get i hi'
  · rw [pop]
    simp only [Nat.add_one_ne_zero, if_false, Nat.add_sub_cancel]
    rw [rd, hz]
    simp only [Res.ok_bind, Res.pure_eq]
    rw [← hi]

/-! ## Examples: three slots, 1 and 2 pushed -/

def exK : Stack Nat := ⟨2, [1, 2, 0]⟩

example : Rep 3 exK [1, 2] := ⟨rfl, rfl, by decide, by decide⟩
example : pushI true (fun _ => pushPop 9) exK 3 = .ok (⟨3, [1, 2, 3]⟩, 0) := by decide
example : popI (fun _ => pushPop 9) exK = .ok (⟨1, [1, 2, 9]⟩, 0, some 2) := by decide
example : pushI false (onceAt 3 (pushPop 9)) exK 3 = .ok (⟨3, [1, 2, 9]⟩, 0) := by decide
example : popI (onceAt 3 (pushH 9)) exK = .ok (⟨2, [1, 2, 9]⟩, 0, some 2) := by decide
example : Balanced 3 (fun _ s => calls (if s.idx < 2 then [.push 7, .push 8, .pop, .pop] else []) s) :=
  C205_calls (by decide) (fun _ n => if n < 2 then [.push 7, .push 8, .pop, .pop] else []) (fun _ n => by split_ifs <;> simp) fun _ l h => by
    by_cases hl : l.length < 2
    · simp [hl, Spec.run, Spec.step, show l.length < 3 by omega, show l.length + 1 < 3 by omega]
    · simp [hl, Spec.run]
example : dequeueLoop (fun _ => pushPop 9) 5 1 0 exK = .ok (5, ⟨2, [2, 2, 9]⟩) := by decide

end Gel.Stack
