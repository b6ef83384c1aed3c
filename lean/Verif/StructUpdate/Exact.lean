import Verif.StructUpdate.Props

/-!
# Struct updates: property C150, every history of calls

The user's structures are the first blocks of the memory. `malloc` may fail.
-/
namespace Gel.StructUpdate

/-- What the user does: write to a structure, create an update from part of a structure (`got`: whether `malloc` succeeds), apply
the `k`-th update that was created to a structure, or free it. -/
inductive Op where
  | write (p off : Nat) (bytes : List Byte)
  | create (got : Bool) (offset p off size : Nat)
  | apply (p off k : Nat)
  | free (k : Nat)

/-- `struct_update_from_data`, struct_update.c:8-14, with a `malloc` that may return a null pointer, which is then passed to
`memcpy`. (`malloc(0)` is taken to return a pointer.) -/
def fromData' (got : Bool) (h : Heap) (offset p off size : Nat) : Res (Heap × Update) :=
  if got then fromData h offset p off size else .ub

/-- One action; the updates are kept in a list. -/
def exec : Op → Heap × List Update → Res (Heap × List Update)
  | .write p off bytes, (h, us) => do pure (← store h p off bytes, us)
  | .create got offset p off size, (h, us) => do
    let (h, u) ← fromData' got h offset p off size
    pure (h, us ++ [u])
  | .apply p off k, (h, us) => do
    let u ← rd us k
    pure (← StructUpdate.apply h p off u, us)
  | .free k, (h, us) => do
    let u ← rd us k
    pure (← StructUpdate.free h u, us)

/-- A history. -/
def run : List Op → Heap × List Update → Res (Heap × List Update)
  | [], s => .ok s
  | o :: os, s => do run os (← exec o s)

/-! ## Specification -/

/-- The user's structures, and for each update the offset and, until it is freed, its bytes. -/
structure Ideal where
  structs : List (List Byte)
  updates : List (Nat × Option (List Byte))

/-- Replace bytes of a structure, if they are all within it. -/
def put (ss : List (List Byte)) (p off : Nat) (bytes : List Byte) : Option (List (List Byte)) :=
  match ss[p]? with
  | some b => if off + bytes.length ≤ b.length then some (ss.set p (splice b off bytes)) else none
  | none => none

/-- What an action should do; `none` if it is not allowed. -/
def Ideal.step (s : Ideal) : Op → Option Ideal
  | .write p off bytes => (put s.structs p off bytes).map fun ss => { s with structs := ss }
  | .create got offset p off size =>
    match s.structs[p]? with
    | some b => if got = true ∧ off + size ≤ b.length then
        some { s with updates := s.updates ++ [(offset, some ((b.drop off).take size))] } else none
    | none => none
  | .apply p off k =>
    match s.updates[k]? with
    | some (o, some bytes) => (put s.structs p (off + o) bytes).map fun ss => { s with structs := ss }
    | _ => none
  | .free k =>
    match s.updates[k]? with
    | some (o, some _) => some { s with updates := s.updates.set k (o, none) }
    | _ => none

def Ideal.run : List Op → Ideal → Option Ideal
  | [], s => some s
  | o :: os, s => (s.step o).bind (Ideal.run os)

/-- The actions name structures, not the memory of the library. -/
def Op.User (n : Nat) : Op → Prop
  | .write p _ _ => p < n
  | .create _ _ p _ _ => p < n
  | .apply p _ _ => p < n
  | .free _ => True

/-! ## Theorems -/

/-- The memory and the updates of an ideal state. -/
def Ideal.heap (s : Ideal) : Heap := s.structs.map some ++ s.updates.map (·.2)

/-- The updates of the program and those of the ideal state. -/
def Rel (n : Nat) (s : Ideal) (h : Heap) (us : List Update) : Prop :=
  s.structs.length = n ∧ h = s.heap ∧ us.length = s.updates.length ∧
    ∀ k u, us[k]? = some u → u.data = n + k ∧ ∃ b, s.updates[k]? = some (u.offset, b) ∧ ∀ bytes, b = some bytes → u.size = bytes.length

theorem put_length {ss ss' : List (List Byte)} {p off : Nat} {bytes : List Byte} (h : put ss p off bytes = some ss') :
    ss'.length = ss.length := by
  rw [put] at h
  split at h
  · split_ifs at h
    injection h with h
    rw [← h, List.length_set]
  · cases h

theorem store_put (s : Ideal) (p off : Nat) (bytes : List Byte) (hp : p < s.structs.length) :
    store s.heap p off bytes = match put s.structs p off bytes with
      | some ss => .ok ({ s with structs := ss } : Ideal).heap
      | none => .ub := by
  have h1 : s.heap[p]? = some (some s.structs[p]) := by
    rw [Ideal.heap, List.getElem?_append_left (by simpa using hp)]
    simp [hp]
  rw [store, h1, put, List.getElem?_eq_getElem hp]
  simp only
  by_cases hl : off + bytes.length ≤ s.structs[p].length
  · rw [if_pos hl, if_pos hl]
    simp only [Ideal.heap]
    rw [List.set_append_left _ _ (by simpa using hp), List.map_set]
  · rw [if_neg hl, if_neg hl]

theorem exec_step {n : Nat} {s : Ideal} {h : Heap} {us : List Update} (hr : Rel n s h us) (o : Op) (ho : o.User n) :
    match s.step o with
    | some s' => ∃ h' us', exec o (h, us) = .ok (h', us') ∧ Rel n s' h' us'
    | none => exec o (h, us) = .ub := by
  obtain ⟨hn, rfl, hl, hu⟩ := hr
  have hblk : ∀ k, k < s.updates.length → s.heap[n + k]? = s.updates[k]?.map (·.2) := by
    intro k _
    rw [Ideal.heap, List.getElem?_append_right (by simp [hn])]
    simp [hn]
  cases o with
  | write p off bytes =>
    have := store_put s p off bytes (by rw [hn]; exact ho)
    rw [Ideal.step]
    cases hq : put s.structs p off bytes with
    | none =>
      rw [hq] at this
      simp only [Option.map_none]
      rw [exec, this]
      rfl
    | some ss =>
      rw [hq] at this
      simp only [Option.map_some]
      refine ⟨_, us, by rw [exec, this]; rfl, ?_, rfl, hl, hu⟩
      rw [← hn]
      exact put_length hq
  | create got offset p off size =>
    have hp : p < s.structs.length := by rw [hn]; exact ho
    have h1 : s.heap[p]? = some (some s.structs[p]) := by
      rw [Ideal.heap, List.getElem?_append_left (by simpa using hp)]
      simp [hp]
    rw [Ideal.step, List.getElem?_eq_getElem hp]
    simp only
    by_cases hg : got = true
    · by_cases hb : off + size ≤ s.structs[p].length
      · rw [if_pos ⟨hg, hb⟩]
        refine ⟨s.heap ++ [some ((s.structs[p].drop off).take size)], us ++ [⟨offset, s.heap.length, size⟩], ?_, hn, ?_, ?_, ?_⟩
        · rw [exec, fromData', if_pos hg, fromData, load, h1]
          simp only
          rw [if_pos hb]
          rfl
        · simp [Ideal.heap]
        · simp [hl]
        · intro k u hk
          by_cases hkl : k < us.length
          · rw [List.getElem?_append_left hkl] at hk
            obtain ⟨e1, b, e2, e3⟩ := hu k u hk
            refine ⟨e1, b, ?_, e3⟩
            rw [List.getElem?_append_left (by omega)]
            exact e2
          · have : k = us.length := by
              have := (List.getElem?_eq_some_iff.1 hk).1
              simp at this
              omega
            subst this
            simp only [List.getElem?_append_right (Nat.le_refl _), Nat.sub_self, List.getElem?_cons_zero,
              Option.some.injEq] at hk
            subst hk
            refine ⟨by simp [Ideal.heap, hn, hl], some ((s.structs[p].drop off).take size), by simp [hl], ?_⟩
            intro bytes hbs
            injection hbs with hbs
            subst hbs
            simp
            omega
      · rw [if_neg (by tauto), exec, fromData', if_pos hg, fromData, load, h1]
        simp only
        rw [if_neg hb]
        rfl
    · rw [if_neg (by tauto), exec, fromData', if_neg hg]
      rfl
  | apply p off k =>
    rw [Ideal.step]
    cases hk : s.updates[k]? with
    | none =>
      simp only
      rw [exec, rd, List.getElem?_eq_none (by rw [hl]; exact List.getElem?_eq_none_iff.1 hk)]
      rfl
    | some x =>
      have hkl : k < s.updates.length := (List.getElem?_eq_some_iff.1 hk).1
      have hus : us[k]? = some us[k] := List.getElem?_eq_getElem (by omega)
      obtain ⟨e1, b, e2, e3⟩ := hu k _ hus
      have hrd : rd us k = .ok us[k] := by rw [rd, hus]
      rw [hk, Option.some.injEq] at e2
      subst e2
      have hb := hblk k hkl
      rw [hk] at hb
      simp only [Option.map_some] at hb
      cases b with
      | none =>
        simp only
        rw [exec, hrd, Res.ok_bind, StructUpdate.apply, load, e1, hb]
        rfl
      | some bytes =>
        simp only
        have hsz := e3 bytes rfl
        have := store_put s p (off + us[k].offset) bytes (by rw [hn]; exact ho)
        have hap : StructUpdate.apply s.heap p off us[k] = store s.heap p (off + us[k].offset) bytes := by
          rw [StructUpdate.apply, load, e1, hb]
          simp only
          rw [if_pos (by omega), Res.ok_bind, List.drop_zero, List.take_of_length_le (by omega)]
        rw [exec, hrd, Res.ok_bind, hap, this]
        cases hq : put s.structs p (off + us[k].offset) bytes with
        | none => rfl
        | some ss =>
          refine ⟨_, us, rfl, ?_, rfl, hl, hu⟩
          rw [← hn]
          exact put_length hq
  | free k =>
    rw [Ideal.step]
    cases hk : s.updates[k]? with
    | none =>
      simp only
      rw [exec, rd, List.getElem?_eq_none (by rw [hl]; exact List.getElem?_eq_none_iff.1 hk)]
      rfl
    | some x =>
      have hkl : k < s.updates.length := (List.getElem?_eq_some_iff.1 hk).1
      have hus : us[k]? = some us[k] := List.getElem?_eq_getElem (by omega)
      obtain ⟨e1, b, e2, e3⟩ := hu k _ hus
      have hrd : rd us k = .ok us[k] := by rw [rd, hus]
      rw [hk, Option.some.injEq] at e2
      subst e2
      have hb := hblk k hkl
      rw [hk] at hb
      simp only [Option.map_some] at hb
      cases b with
      | none =>
        simp only
        rw [exec, hrd, Res.ok_bind, StructUpdate.free, e1, hb]
        rfl
      | some bytes =>
        simp only
        refine ⟨s.heap.set (n + k) none, us, ?_, hn, ?_, by simp [hl], ?_⟩
        · rw [exec, hrd, Res.ok_bind, StructUpdate.free, e1, hb]
          rfl
        · simp only [Ideal.heap]
          rw [List.set_append_right _ _ (by simp [hn]), List.map_set]
          simp [hn]
        · intro j u hj
          obtain ⟨f1, c, f2, f3⟩ := hu j u hj
          refine ⟨f1, ?_⟩
          by_cases hjk : k = j
          · subst hjk
            rw [hus, Option.some.injEq] at hj
            subst hj
            exact ⟨none, by simp [hkl], by simp⟩
          · exact ⟨c, by simp only; rw [List.getElem?_set_ne hjk]; exact f2, f3⟩

/-- **C150.** Every history of writes, creations, applications and frees, starting with the user's structures: it is undefined
exactly if some action is not allowed (a `malloc` fails, bytes outside a structure, an update that is used or freed after it
was freed), and otherwise the structures are exactly as specified, and the memory allocated is that of the updates that have
not been freed. -/
theorem C150_exact (structs : List (List Byte)) (os : List Op) (hos : ∀ o ∈ os, o.User structs.length) :
    match Ideal.run os ⟨structs, []⟩ with
    | some s => ∃ us, run os (structs.map some, []) = .ok (s.heap, us) ∧ us.length = s.updates.length
    | none => run os (structs.map some, []) = .ub := by
  have gen : ∀ (os : List Op) (s : Ideal) (h : Heap) (us : List Update), (∀ o ∈ os, o.User structs.length) →
      Rel structs.length s h us →
      match Ideal.run os s with
      | some s => ∃ us', run os (h, us) = .ok (s.heap, us') ∧ us'.length = s.updates.length
      | none => run os (h, us) = .ub := by
    intro os
    induction os with
    | nil => exact fun s h us _ hr => ⟨us, by rw [run, hr.2.1], hr.2.2.1⟩
    | cons o os ih =>
      intro s h us ho hr
      have h1 := exec_step hr o (ho o (by simp))
      rw [Ideal.run]
      cases hs : s.step o with
      | none =>
        rw [hs] at h1
        simp only [Option.bind_none] at h1 ⊢
        rw [run, h1]
        rfl
      | some s' =>
        rw [hs] at h1
        obtain ⟨h', us', e, hr'⟩ := h1
        simp only [Option.bind_some]
        rw [run, e]
        exact ih s' h' us' (fun o' h' => ho o' (by simp [h'])) hr'
  exact gen os ⟨structs, []⟩ _ [] hos ⟨rfl, by simp [Ideal.heap], rfl, by simp⟩

/-- **C150.** The number of blocks in use at the end is the number of structures and of updates that have not been freed; in
particular nothing leaks if all have been freed. -/
theorem C150_blocks (structs : List (List Byte)) (os : List Op) (hos : ∀ o ∈ os, o.User structs.length) (h : Heap)
    (us : List Update) (hrun : run os (structs.map some, []) = .ok (h, us)) :
    ∃ s, Ideal.run os ⟨structs, []⟩ = some s ∧
      h.countP Option.isSome = s.structs.length + s.updates.countP fun u => u.2.isSome := by
  have := C150_exact structs os hos
  cases hs : Ideal.run os ⟨structs, []⟩ with
  | none =>
    rw [hs] at this
    simp only at this
    rw [hrun] at this
    cases this
  | some s =>
    rw [hs] at this
    obtain ⟨us', e, -⟩ := this
    rw [hrun] at e
    injection e with e
    injection e with e1 e2
    refine ⟨s, rfl, ?_⟩
    rw [e1, Ideal.heap, List.countP_append, List.countP_map, List.countP_map]
    congr 1
    rw [List.countP_eq_length]
    simp

/-- **C150**, where it fails: `struct_update_from_data` does not look whether `malloc` succeeded. -/
theorem C150_malloc_wrong (h : Heap) (us : List Update) (offset p off size : Nat) :
    exec (.create false offset p off size) (h, us) = .ub := rfl

/-- Two structures; an update made from the first, which is changed before it is applied to the second one; a second update
that is never freed. And: freeing twice. -/
example : run [.create true 1 0 0 2, .create true 0 0 2 1, .write 0 0 [9, 9], .apply 1 0 0, .free 0, .apply 0 1 1]
      ([some [1, 2, 3], some [4, 5, 6]], []) =
      .ok ([some [9, 3, 3], some [4, 1, 2], none, some [3]], [⟨1, 2, 2⟩, ⟨0, 3, 1⟩]) ∧
    run [.create true 1 0 0 2, .free 0, .free 0] ([some [1, 2, 3]], []) = .ub := by
  decide

end Gel.StructUpdate
