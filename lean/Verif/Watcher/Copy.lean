import Verif.Watcher.Props

/-!
# Watchers: callbacks that copy the watched memory (C234)

The usual callback saves or sends the watched memory, which leaves a copy of it elsewhere. The program polls with
`watcher_process_changes`; between two polls the memory may change in any way.
-/
namespace Gel.Watcher.Copy
open Spec

/-- The watched blocks, the copies that the callbacks have made, and for each callback its index, its copy and the block when it was called. -/
structure World where
  mem : Nat → List Byte
  copy : Nat → List Byte
  log : List (Nat × List Byte × List Byte)

/-- Every callback copies the block of its watcher. -/
def copying : Env World where
  view s i := s.mem i
  cb s i := { s with copy := Function.update s.copy i (s.mem i), log := s.log ++ [(i, s.copy i, s.mem i)] }

/-- The memory at a poll, and the time. -/
structure Poll where
  mem : Nat → List Byte
  time : Int

/-- One poll: `watcher_process_changes`, watcher.c:81-108. -/
def poll (s : World × List (Watcher w)) (p : Poll) : World × List (Watcher w) :=
  let r := process copying ⟨p.mem, s.1.copy, s.1.log⟩ (Time.stamp w p.time) 0 s.2
  (r.mem, r.list)

/-- The program after `watcher_list_init`: the copies are right. -/
def start (m0 : Nat → List Byte) (l : List (Watcher w)) : World × List (Watcher w) :=
  (⟨m0, m0, []⟩, match init none copying ⟨m0, m0, []⟩ 0 l with | .ok l => l | _ => [])

/-- The program after the polls `ps`. -/
def after (m0 : Nat → List Byte) (l : List (Watcher w)) (ps : List Poll) : World × List (Watcher w) := ps.foldl poll (start m0 l)

/-- The callbacks of the watcher `i` so far. -/
def calls (s : World) (i : Nat) : List (Nat × List Byte × List Byte) := s.log.filter (·.1 = i)

/-! ## One watcher -/

theorem cb_mem (s : World) (i : Nat) : (copying.cb s i).mem = s.mem := rfl

theorem cb_copy (s : World) (i : Nat) : (copying.cb s i).copy = Function.update s.copy i (s.mem i) := rfl

theorem cb_log (s : World) (i : Nat) : (copying.cb s i).log = s.log ++ [(i, s.copy i, s.mem i)] := rfl

theorem view_eq (s : World) (i : Nat) : copying.view s i = s.mem i := rfl

theorem step_mem (s : World) (ts : BitVec w) (i : Nat) (x : Watcher w) :
    (step copying s ts i x).mem = if (step copying s ts i x).called then copying.cb s i else s := by
  simp only [step]
  split_ifs <;> simp_all

theorem step_same (s s' : World) (h : s'.mem = s.mem) (ts : BitVec w) (i : Nat) (x : Watcher w) :
    (step copying s' ts i x).called = (step copying s ts i x).called ∧ (step copying s' ts i x).elem = (step copying s ts i x).elem := by
  simp only [step, now, view_eq, cb_mem, h]
  split_ifs <;> simp

theorem proc (ts : BitVec w) : ∀ (l : List (Watcher w)) (k : Nat) (s : World),
    (process copying s ts k l).mem.mem = s.mem ∧
    (∀ j, j < k → (process copying s ts k l).mem.copy j = s.copy j ∧ calls (process copying s ts k l).mem j = calls s j) ∧
    (process copying s ts k l).list.length = l.length ∧
    ∀ (i : Nat) (x : Watcher w), l[i]? = some x →
      (process copying s ts k l).list[i]? = some (step copying s ts (k + i) x).elem ∧
      (process copying s ts k l).mem.copy (k + i) =
        (if (step copying s ts (k + i) x).called then s.mem (k + i) else s.copy (k + i)) ∧
      calls (process copying s ts k l).mem (k + i) =
        calls s (k + i) ++ (if (step copying s ts (k + i) x).called then [(k + i, s.copy (k + i), s.mem (k + i))] else [])
  | [], k, s => by simp [process]
  | y :: l, k, s => by
    obtain ⟨h1, h2, h3, h4⟩ := proc ts l (k + 1) (step copying s ts k y).mem
    have hm := step_mem s ts k y
    have hmem : (step copying s ts k y).mem.mem = s.mem := by rw [hm]; split_ifs <;> rfl
    have hcopy : ∀ j, (step copying s ts k y).mem.copy j =
        if j = k ∧ (step copying s ts k y).called then s.mem k else s.copy j := by
      intro j
      rw [hm]
      by_cases hc : (step copying s ts k y).called
      · by_cases hj : j = k
        · subst hj; simp [hc, cb_copy]
        · simp [hc, cb_copy, hj]
      · simp [hc]
    have hcalls : ∀ j, calls (step copying s ts k y).mem j =
        calls s j ++ if j = k ∧ (step copying s ts k y).called then [(k, s.copy k, s.mem k)] else [] := by
      intro j
      rw [hm]
      by_cases hc : (step copying s ts k y).called
      · by_cases hj : j = k
        · subst hj; simp [hc, cb_log, calls]
        · have : k ≠ j := fun h => hj h.symm
          simp [hc, cb_log, calls, hj, this]
      · simp [hc]
    have hstep : ∀ (j : Nat) (x : Watcher w), (step copying (step copying s ts k y).mem ts j x).called = (step copying s ts j x).called ∧
        (step copying (step copying s ts k y).mem ts j x).elem = (step copying s ts j x).elem := by
      intro j x
      exact step_same _ _ hmem ts j x
    refine ⟨by simp only [process]; rw [h1, hmem], ?_, by simp [process, h3], ?_⟩
    · intro j hj
      simp only [process]
      obtain ⟨a, b⟩ := h2 j (by omega)
      rw [a, b, hcopy, hcalls]
      simp [show ¬ j = k by omega]
    · rintro (_ | i) x hx
      · simp only [List.length_cons, Nat.zero_lt_succ, List.getElem?_cons_zero, Option.some.injEq] at hx
        subst hx
        obtain ⟨a, b⟩ := h2 k (by omega)
        simp only [process, Nat.add_zero, List.getElem?_cons_zero]
        refine ⟨trivial, ?_, ?_⟩
        · rw [a, hcopy]; simp
        · rw [b, hcalls]; simp
      · simp only [List.getElem?_cons_succ] at hx
        obtain ⟨a, b, c⟩ := h4 i x hx
        have e : k + 1 + i = k + (i + 1) := by omega
        rw [e] at a b c
        simp only [process, List.getElem?_cons_succ]
        refine ⟨by rw [a, (hstep _ x).2], ?_, ?_⟩
        · rw [b, (hstep _ x).1, hcopy, hmem]; simp
        · rw [c, (hstep _ x).1, hcopy, hcalls, hmem]; simp

theorem init_get (m0 : World) : ∀ (l : List (Watcher w)) (k : Nat), ∃ l', init none copying m0 k l = .ok l' ∧ l'.length = l.length ∧
    ∀ (i : Nat) (x : Watcher w), l[i]? = some x → l'[i]? = some { x with old := (m0.mem (k + i)).take x.size }
  | [], _ => ⟨[], rfl, rfl, by simp⟩
  | y :: l, k => by
    obtain ⟨l', h1, h2, h3⟩ := init_get m0 l (k + 1)
    refine ⟨{ y with old := now copying m0 k y } :: l', ?_, by simp [h2], ?_⟩
    · simp [init, fitsBlock, cassert, h1]
    · rintro (_ | i) x hx
      · simp only [List.getElem?_cons_zero, Option.some.injEq] at hx
        subst hx; simp [now, copying]
      · simp only [List.getElem?_cons_succ] at hx ⊢
        rw [h3 i x hx]
        simp [show k + 1 + i = k + (i + 1) by omega]

theorem after_snoc (m0 : Nat → List Byte) (l : List (Watcher w)) (ps : List Poll) (p : Poll) :
    after m0 l (ps ++ [p]) = poll (after m0 l ps) p := by simp [after]

/-- The bytes of watcher `i` at the last poll, or at the initialisation. -/
def bytes (m0 : Nat → List Byte) (ps : List Poll) (i size : Nat) : List Byte :=
  ((ps.getLast?.map (·.mem)).getD m0 i).take size

theorem bytes_snoc (m0 : Nat → List Byte) (ps : List Poll) (p : Poll) (i size : Nat) :
    bytes m0 (ps ++ [p]) i size = (p.mem i).take size := by simp [bytes]

/-- The watcher `i` was declared with this size and delay. -/
theorem held (m0 : Nat → List Byte) (l : List (Watcher w)) (i : Nat) (x : Watcher w) (hx : l[i]? = some x) (hm : x.moved = false)
    (ps : List Poll) :
    ∃ y, (after m0 l ps).2[i]? = some y ∧ y.size = x.size ∧ y.delay = x.delay ∧ y.old = bytes m0 ps i x.size ∧
      (after m0 l ps).1.mem i = ((ps.getLast?.map (·.mem)).getD m0 i) ∧
      (y.moved = false → ((after m0 l ps).1.copy i).take x.size = y.old) ∧
      (x.delay = 0 → y.moved = false) ∧
      (y.moved = true → ∃ a b p, ps = a ++ b ∧ p ∈ b ∧ calls (after m0 l a).1 i = calls (after m0 l ps).1 i ∧
        (p.mem i).take x.size ≠ ((after m0 l ps).1.copy i).take x.size) := by
  induction ps using List.reverseRecOn with
  | nil =>
    obtain ⟨l', h1, h2, h3⟩ := init_get (w := w) ⟨m0, m0, []⟩ l 0
    have := h3 i x hx
    rw [Nat.zero_add] at this
    refine ⟨{ x with old := (m0 i).take x.size }, ?_, rfl, rfl, ?_, ?_, ?_, ?_, ?_⟩ <;>
      simp [after, start, h1, this, bytes, hm]
  | append_singleton ps p ih =>
    obtain ⟨y, hy, hs, hd, ho, hmem, hc, h0, hp⟩ := ih
    rw [after_snoc]
    obtain ⟨g1, -, -, g4⟩ := proc (Time.stamp w p.time) (after m0 l ps).2 0 ⟨p.mem, (after m0 l ps).1.copy, (after m0 l ps).1.log⟩
    obtain ⟨a, b, c⟩ := g4 i y hy
    rw [Nat.zero_add] at a b c
    refine ⟨_, a, ?_, ?_, ?_, ?_, ?_, ?_, ?_⟩
    · simp only [step]; split_ifs <;> exact hs
    · simp only [step]; split_ifs <;> exact hd
    · rw [bytes_snoc]
      simp only [step, now, view_eq, cb_mem, hs]
      split_ifs with k1 k2 k3 k4 <;> simp_all
    · simp only [poll]; rw [g1]; simp
    · intro hmv
      simp only [poll]
      rw [b]
      revert hmv
      simp only [step, now, view_eq, cb_mem, hs]
      split_ifs with k1 k2 k3 k4 <;> simp_all
    · intro hz
      have := h0 hz
      simp only [step]
      split_ifs with k1 k2 k3 k4 <;> simp_all
    · intro hmv
      simp only [poll]
      rw [b, c]
      by_cases k1 : y.old ≠ now copying ⟨p.mem, (after m0 l ps).1.copy, (after m0 l ps).1.log⟩ i y
      · have k2 : y.delay > 0 := by
          by_contra k2
          rw [step, if_pos k1, if_neg k2] at hmv
          simp at hmv
        have hcl : (step copying ⟨p.mem, (after m0 l ps).1.copy, (after m0 l ps).1.log⟩ (Time.stamp w p.time) i y).called = false := by
          rw [step, if_pos k1, if_pos k2]
        simp only [hcl, Bool.false_eq_true, if_false, List.append_nil]
        cases hym : y.moved with
        | false =>
          refine ⟨ps, [p], p, by simp, by simp, rfl, ?_⟩
          rw [hc hym]
          simpa [now, copying, hs] using Ne.symm k1
        | true =>
          obtain ⟨a', b', q, e1, e2, e3, e4⟩ := hp hym
          exact ⟨a', b' ++ [p], q, by rw [e1, List.append_assoc], by simp [e2], e3, e4⟩
      · have hym : y.moved = true := by
          by_contra hym
          rw [step, if_neg k1, if_neg hym] at hmv
          exact hym hmv
        have k4 : Time.isLooselyExpired y.ts (Time.stamp w p.time) y.delay = false := by
          by_contra k4
          rw [step, if_neg k1, if_pos hym, if_pos (by simpa using k4)] at hmv
          simp at hmv
        have hcl : (step copying ⟨p.mem, (after m0 l ps).1.copy, (after m0 l ps).1.log⟩ (Time.stamp w p.time) i y).called = false := by
          rw [step, if_neg k1, if_pos hym, if_neg (by simp [k4])]
        simp only [hcl, Bool.false_eq_true, if_false, List.append_nil]
        obtain ⟨a', b', q, e1, e2, e3, e4⟩ := hp hym
        exact ⟨a', b' ++ [p], q, by rw [e1, List.append_assoc], by simp [e2], e3, e4⟩

/-! ## The copies -/

/-- The poll that follows the polls `ps` calls the callback of the watcher `i` once more. -/
theorem called (m0 : Nat → List Byte) (l : List (Watcher w)) (i : Nat) (y : Watcher w) (ps : List Poll) (p : Poll)
    (hy : (after m0 l ps).2[i]? = some y) :
    (after m0 l (ps ++ [p])).2[i]? = some (step copying ⟨p.mem, (after m0 l ps).1.copy, (after m0 l ps).1.log⟩ (Time.stamp w p.time) i y).elem ∧
    calls (after m0 l (ps ++ [p])).1 i = calls (after m0 l ps).1 i ++
      if (step copying ⟨p.mem, (after m0 l ps).1.copy, (after m0 l ps).1.log⟩ (Time.stamp w p.time) i y).called
      then [(i, (after m0 l ps).1.copy i, p.mem i)] else [] := by
  rw [after_snoc]
  obtain ⟨-, -, -, g4⟩ := proc (Time.stamp w p.time) (after m0 l ps).2 0 ⟨p.mem, (after m0 l ps).1.copy, (after m0 l ps).1.log⟩
  obtain ⟨a, -, c⟩ := g4 i y hy
  rw [Nat.zero_add] at a c
  exact ⟨a, c⟩

/-- From the poll that found a change on: the callback is pending since then, or the copy is right. -/
theorem since_inv (m0 : Nat → List Byte) (l : List (Watcher w)) (i : Nat) (x : Watcher w) (hx : l[i]? = some x) (hm : x.moved = false)
    (before : List Poll) (p : Poll) (hchg : (p.mem i).take x.size ≠ bytes m0 before i x.size) (since : List Poll) :
    (∀ q ∈ since, (q.mem i).take x.size = (p.mem i).take x.size) →
    ∃ y, (after m0 l (before ++ p :: since)).2[i]? = some y ∧ y.size = x.size ∧ y.delay = x.delay ∧ y.old = (p.mem i).take x.size ∧
      ((y.moved = true ∧ y.ts = Time.stamp w p.time ∧
          ∀ q ∈ since, Time.isLooselyExpired (Time.stamp w p.time) (Time.stamp w q.time) x.delay = false) ∨ y.moved = false) := by
  induction since using List.reverseRecOn with
  | nil =>
    intro _
    obtain ⟨y, hy, hs, hd, ho, -⟩ := held m0 l i x hx hm before
    have k1 : y.old ≠ now copying ⟨p.mem, (after m0 l before).1.copy, (after m0 l before).1.log⟩ i y := by
      rw [ho, now, hs]; exact hchg.symm
    refine ⟨_, (called m0 l i y before p hy).1, ?_⟩
    by_cases k2 : y.delay > 0
    · rw [step, if_pos k1, if_pos k2]
      exact ⟨hs, hd, by simp [now, view_eq, hs], .inl ⟨rfl, rfl, by simp⟩⟩
    · rw [step, if_pos k1, if_neg k2]
      exact ⟨hs, hd, by simp [now, view_eq, cb_mem, hs], .inr rfl⟩
  | append_singleton since q ih =>
    intro hsame
    obtain ⟨y, hy, hs, hd, ho, h⟩ := ih fun q hq => hsame q (by simp [hq])
    have e : before ++ p :: (since ++ [q]) = (before ++ p :: since) ++ [q] := by simp
    have k1 : ¬ y.old ≠ now copying ⟨q.mem, (after m0 l (before ++ p :: since)).1.copy, (after m0 l (before ++ p :: since)).1.log⟩ i y := by
      rw [not_not, ho, now, hs]; exact (hsame q (by simp)).symm
    rw [e]
    refine ⟨_, (called m0 l i y _ q hy).1, ?_⟩
    rw [step, if_neg k1]
    rcases h with ⟨h1, h2, h3⟩ | h1
    · rw [if_pos h1]
      by_cases k4 : Time.isLooselyExpired y.ts (Time.stamp w q.time) y.delay = true
      · rw [if_pos k4]
        exact ⟨hs, hd, ho, .inr rfl⟩
      · rw [if_neg k4]
        refine ⟨hs, hd, ho, .inl ⟨h1, h2, ?_⟩⟩
        intro r hr
        rcases List.mem_append.1 hr with hr | hr
        · exact h3 r hr
        · rw [List.mem_singleton.1 hr, ← h2, ← hd]; simpa using k4
    · rw [if_neg (by simp [h1])]
      exact ⟨hs, hd, ho, .inr h1⟩

/-- **C234.** The last poll that found a change of the watcher `i` was `p`. If the watcher has no delay, or one of the polls since then was
at least the delay later (and at most half the range of the timestamps after that), the copy is right, whatever happened before. -/
theorem C234_copy (m0 : Nat → List Byte) (l : List (Watcher w)) (i : Nat) (x : Watcher w) (hx : l[i]? = some x) (hm : x.moved = false)
    (d : Int) (hd : x.delay = Time.stamp w d) (before : List Poll) (p : Poll) (since : List Poll)
    (hchg : (p.mem i).take x.size ≠ bytes m0 before i x.size)
    (hsame : ∀ q ∈ since, (q.mem i).take x.size = (p.mem i).take x.size)
    (hlate : x.delay = 0 ∨ ∃ q ∈ since, p.time + d ≤ q.time ∧ 2 * (q.time - p.time - d) ≤ 2 ^ w) :
    ((after m0 l (before ++ p :: since)).1.copy i).take x.size = (p.mem i).take x.size := by
  obtain ⟨y, hy, hs, hdel, ho, h⟩ := since_inv m0 l i x hx hm before p hchg since hsame
  obtain ⟨z, hz, -, -, -, -, hc, h0, -⟩ := held m0 l i x hx hm (before ++ p :: since)
  have hyz : y = z := by rw [hy] at hz; exact Option.some.inj hz
  subst hyz
  have hmv : y.moved = false := by
    rcases hlate with hl | ⟨q, hq, hl, hr⟩
    · exact h0 hl
    · rcases h with ⟨-, -, h3⟩ | h
      · have h4 := h3 q hq
        have hp : (0 : Int) < 2 ^ w := by positivity
        rw [hd] at h4
        have := ((Time.C53_expired w p.time q.time d).1 (by omega) (by omega)).1.2 hl
        rw [this] at h4
        simp at h4
      · exact h
  rw [hc hmv, ho]

/-- **C234.** Memory that has not changed at any poll has a right copy, and its callback has not been called. -/
theorem C234_still (m0 : Nat → List Byte) (l : List (Watcher w)) (i : Nat) (x : Watcher w) (hx : l[i]? = some x) (hm : x.moved = false)
    (ps : List Poll) (hsame : ∀ q ∈ ps, (q.mem i).take x.size = (m0 i).take x.size) :
    calls (after m0 l ps).1 i = [] ∧ ((after m0 l ps).1.copy i).take x.size = (m0 i).take x.size := by
  suffices h : calls (after m0 l ps).1 i = [] ∧
      ∃ y, (after m0 l ps).2[i]? = some y ∧ y.size = x.size ∧ y.moved = false ∧ y.old = (m0 i).take x.size by
    obtain ⟨h1, y, hy, -, hmv, ho⟩ := h
    obtain ⟨z, hz, -, -, -, -, hc, -⟩ := held m0 l i x hx hm ps
    have hyz : y = z := by rw [hy] at hz; exact Option.some.inj hz
    subst hyz
    exact ⟨h1, by rw [hc hmv, ho]⟩
  induction ps using List.reverseRecOn with
  | nil =>
    obtain ⟨l', h1, -, h3⟩ := init_get (w := w) ⟨m0, m0, []⟩ l 0
    have := h3 i x hx
    rw [Nat.zero_add] at this
    exact ⟨rfl, { x with old := (m0 i).take x.size }, by simpa [after, start, h1] using this, rfl, hm, rfl⟩
  | append_singleton ps q ih =>
    obtain ⟨h1, y, hy, hs, hmv, ho⟩ := ih fun q hq => hsame q (by simp [hq])
    obtain ⟨a, c⟩ := called m0 l i y ps q hy
    have k1 : ¬ y.old ≠ now copying ⟨q.mem, (after m0 l ps).1.copy, (after m0 l ps).1.log⟩ i y := by
      rw [not_not, ho, now, hs]; exact (hsame q (by simp)).symm
    rw [step, if_neg k1, if_neg (by simp [hmv])] at a c
    exact ⟨by rw [c, h1]; rfl, y, a, hs, hmv, ho⟩

/-- **C234.** Each callback has a reason: one of the polls since the one before it (or since the initialisation) has found memory that is
different from the copy (what is missing: it may have come back, see below). Without a delay that is the poll that calls it, so that the copy is always made of something new. -/
theorem C234_reason_partial (m0 : Nat → List Byte) (l : List (Watcher w)) (i : Nat) (x : Watcher w) (hx : l[i]? = some x) (hm : x.moved = false)
    (ps : List Poll) (p : Poll) (hcall : calls (after m0 l (ps ++ [p])).1 i ≠ calls (after m0 l ps).1 i) :
    (∃ a b q, ps ++ [p] = a ++ b ∧ q ∈ b ∧ calls (after m0 l a).1 i = calls (after m0 l ps).1 i ∧
      (q.mem i).take x.size ≠ ((after m0 l ps).1.copy i).take x.size) ∧
    (x.delay = 0 → (p.mem i).take x.size ≠ ((after m0 l ps).1.copy i).take x.size) := by
  obtain ⟨y, hy, hs, hd, ho, -, hc, h0, hp⟩ := held m0 l i x hx hm ps
  obtain ⟨-, c⟩ := called m0 l i y ps p hy
  by_cases k1 : y.old ≠ now copying ⟨p.mem, (after m0 l ps).1.copy, (after m0 l ps).1.log⟩ i y
  · by_cases k2 : y.delay > 0
    · rw [step, if_pos k1, if_pos k2] at c
      exact absurd (by simpa using c) hcall
    · have hz : x.delay = 0 := by
        rw [← hd]
        by_contra h
        exact k2 ((BitVec.pos_iff_ne_zero _).2 h)
      have hne : (p.mem i).take x.size ≠ ((after m0 l ps).1.copy i).take x.size := by
        rw [hc (h0 hz)]
        simpa [now, view_eq, hs] using k1.symm
      exact ⟨⟨ps, [p], p, rfl, by simp, rfl, hne⟩, fun _ => hne⟩
  · have hmv : y.moved = true := by
      by_contra hmv
      rw [step, if_neg k1, if_neg hmv] at c
      exact hcall (by simpa using c)
    obtain ⟨a, b, q, e1, e2, e3, e4⟩ := hp hmv
    refine ⟨⟨a, b ++ [p], q, by rw [e1, List.append_assoc], by simp [e2], e3, e4⟩, fun hz => ?_⟩
    rw [h0 hz] at hmv
    simp at hmv

/-- **C234.** With a delay the copy may be made of nothing new: memory that changes at one poll and is back at the next one is copied again,
though the copy was right. -/
theorem C234_needless_wrong (a b : Nat → List Byte) (size : Nat) (d : Int) (hd : 0 < d) (hw : 2 * d < 2 ^ w) (hab : (a 0).take size ≠ (b 0).take size)
    (t1 t2 t3 : Int) (h3 : t2 + d ≤ t3) (h4 : 2 * (t3 - t2 - d) ≤ 2 ^ w) :
    (after a [(⟨[], size, Time.stamp w d, 0, false⟩ : Watcher w)] [⟨b, t1⟩, ⟨a, t2⟩, ⟨a, t3⟩]).1.log = [(0, a 0, a 0)] := by
  have hpos : Time.stamp w d > 0 := by
    show (0 : BitVec w) < Time.stamp w d
    rw [BitVec.lt_def, Time.stamp, BitVec.toNat_ofInt]
    have hp : (2 ^ w : Nat) = (2 : Int) ^ w := by push_cast; rfl
    rw [Int.emod_eq_of_lt (by omega) (by rw [hp]; omega)]
    simp; omega
  have he := ((Time.C53_expired w t2 t3 d).1 (by omega) (by have hp : (0 : Int) < 2 ^ w := by positivity
                                                            omega)).1.2 h3
  simp [after, start, init, fitsBlock, cassert, poll, process, step, now, copying, hab, Ne.symm hab, he, show 0#w < Time.stamp w d from hpos]

/-! ## Examples -/

/-- Two bytes without and one with a delay of 10; the second changes twice, and the other comes back. -/
def two : List (Watcher 32) := [make 32 false 2 0, make 32 false 1 10]

def mem (x y : Byte) (i : Nat) : List Byte := if i = 0 then [x, 7] else [y]

example : (after (mem 1 1) two [⟨mem 1 2, 4⟩, ⟨mem 2 3, 8⟩, ⟨mem 1 3, 17⟩, ⟨mem 1 3, 18⟩, ⟨mem 1 5, 20⟩, ⟨mem 1 3, 21⟩, ⟨mem 1 3, 40⟩]).1.log =
    [(0, [1, 7], [2, 7]), (0, [2, 7], [1, 7]), (1, [1], [3]), (1, [3], [3])] := by decide

end Gel.Watcher.Copy
