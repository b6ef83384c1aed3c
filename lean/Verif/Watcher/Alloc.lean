import Verif.Watcher.Model

/-!
# Watchers: the memory taken by `watcher_list_init` (C175)

With `GEL_MALLOC_AVAILABLE` every call allocates a block for every watcher (watcher.c:13), does not look whether it got one, and nothing in
watcher.c frees them. `room` is the number of bytes of the heap; the allocator is the best possible: it fails only if the blocks still
allocated and the new one do not fit.
-/
namespace Gel.Watcher

variable {w : Nat} {M : Type}

/-- `watcher_list_init`, watcher.c:8-20, with `malloc`, from element `i` on, with `used` bytes allocated: the list and the bytes allocated
afterwards. A failing `malloc` gives a null pointer, which is passed to `memcpy` (line 17): undefined. -/
def initHeap (room : Nat) (env : Env M) (m : M) : (i used : Nat) → List (Watcher w) → Res (List (Watcher w) × Nat)
  | _, used, [] => .ok ([], used)
  | i, used, x :: xs =>
    if used + x.size ≤ room then do
      let (l, u) ← initHeap room env m (i + 1) (used + x.size) xs
      .ok ({ x with old := now env m i x } :: l, u)
    else .ub

/-- The list initialised again and again, each time with other contents of the memory. -/
def initsHeap (room : Nat) (env : Env M) : List M → (used : Nat) → List (Watcher w) → Res (List (Watcher w) × Nat)
  | [], used, xs => .ok (xs, used)
  | m :: ms, used, xs => do
    let (l, u) ← initHeap room env m 0 used xs
    initsHeap room env ms u l

/-- The bytes watched. -/
def total (xs : List (Watcher w)) : Nat := (xs.map (·.size)).sum

/-- The list with copies of the bytes watched. -/
def copied (env : Env M) (m : M) : (i : Nat) → List (Watcher w) → List (Watcher w)
  | _, [] => []
  | i, x :: xs => { x with old := now env m i x } :: copied env m (i + 1) xs

theorem init_copied (env : Env M) (m : M) : ∀ (i : Nat) (xs : List (Watcher w)), init none env m i xs = .ok (copied env m i xs)
  | _, [] => rfl
  | i, x :: xs => by
    rw [init, init_copied env m (i + 1) xs]
    rfl

theorem total_copied (env : Env M) (m : M) : ∀ (i : Nat) (xs : List (Watcher w)), total (copied env m i xs) = total xs
  | _, [] => rfl
  | i, x :: xs => by
    have := total_copied env m (i + 1) xs
    simp only [total, copied, List.map_cons, List.sum_cons] at this ⊢
    rw [this]

theorem initHeap_eq (room : Nat) (env : Env M) (m : M) : ∀ (i used : Nat) (xs : List (Watcher w)), used ≤ room →
    initHeap room env m i used xs = if used + total xs ≤ room then .ok (copied env m i xs, used + total xs) else .ub
  | i, used, [], h => by simp [initHeap, total, copied, h]
  | i, used, x :: xs, h => by
    rw [initHeap]
    have ht : total (x :: xs) = x.size + total xs := by simp [total]
    by_cases hx : used + x.size ≤ room
    · rw [if_pos hx, initHeap_eq room env m (i + 1) (used + x.size) xs hx, ht]
      by_cases hr : used + x.size + total xs ≤ room
      · rw [if_pos hr, if_pos (by omega), ← Nat.add_assoc]
        rfl
      · rw [if_neg hr, if_neg (by omega)]
        rfl
    · rw [if_neg hx, if_neg (by omega)]

theorem copied_copied (env : Env M) (m m' : M) : ∀ (i : Nat) (xs : List (Watcher w)), copied env m' i (copied env m i xs) = copied env m' i xs
  | _, [] => rfl
  | i, x :: xs => by
    rw [copied, copied, copied, copied_copied env m m' (i + 1) xs]
    rfl

/-- **C175**, how often it may be called. Initialising a list once for each of `ms` is undefined unless the heap has room for all the copies ever made; if it
has, the list is that of one call with the last contents, and all the blocks stay allocated. -/
theorem C175_room_exact (room : Nat) (env : Env M) : ∀ (ms : List M) (m : M) (used : Nat) (xs : List (Watcher w)), used ≤ room →
    initsHeap room env (ms ++ [m]) used xs =
      if used + (ms.length + 1) * total xs ≤ room then .ok (copied env m 0 xs, used + (ms.length + 1) * total xs) else .ub
  | [], m, used, xs, h => by
    simp only [List.nil_append, initsHeap, initHeap_eq room env m 0 used xs h, List.length_nil, Nat.zero_add, Nat.one_mul]
    by_cases hr : used + total xs ≤ room
    · rw [if_pos hr]; rfl
    · rw [if_neg hr]; rfl
  | m' :: ms, m, used, xs, h => by
    have hm : (ms.length + 1 + 1) * total xs = total xs + (ms.length + 1) * total xs := by rw [Nat.succ_mul, Nat.add_comm]
    rw [List.cons_append, initsHeap, initHeap_eq room env m' 0 used xs h, List.length_cons, hm]
    by_cases hr : used + total xs ≤ room
    · rw [if_pos hr]
      simp only [Res.ok_bind]
      rw [C175_room_exact room env ms m _ _ hr, total_copied, copied_copied, Nat.add_assoc]
    · rw [if_neg hr, if_neg (by omega)]
      rfl

/-- **C175**, where it fails: whatever the size of the heap, if any byte is watched, a list initialised often enough is undefined,
though each call needs only as much as the first. -/
theorem C175_room_wrong (room : Nat) (env : Env M) (xs : List (Watcher w)) (h : 0 < total xs) (ms : List M) (hms : room < ms.length) :
    initsHeap room env ms 0 xs = .ub := by
  have hne : ms ≠ [] := by intro e; subst e; simp at hms
  obtain ⟨l, m, rfl⟩ : ∃ l m, ms = l ++ [m] := ⟨ms.dropLast, ms.getLast hne, (List.dropLast_concat_getLast hne).symm⟩
  rw [C175_room_exact room env l m 0 xs (by omega), if_neg]
  simp only [List.length_append, List.length_singleton] at hms
  have : (l.length + 1) * 1 ≤ (l.length + 1) * total xs := Nat.mul_le_mul_left _ h
  omega

/-- Two watchers of 2 and 4 bytes, a heap of 16 bytes: two calls are all right, the third is not. -/
def allocEnv : Env (List Byte) := { view := fun m i => m.drop (2 * i), cb := fun m _ => m }

def allocList : List (Watcher 32) := [make 32 false 2 0, make 32 false 4 10]

def allocSeen (n : Nat) : Option (List (List Byte) × Nat) :=
  match initsHeap 16 allocEnv (List.replicate n [1, 2, 3, 4, 5, 6]) 0 allocList with
  | .ok (l, u) => some (l.map (·.old), u)
  | _ => none

example : allocSeen 1 = some ([[1, 2], [3, 4, 5, 6]], 6) := by decide +kernel
example : allocSeen 2 = some ([[1, 2], [3, 4, 5, 6]], 12) := by decide +kernel
example : allocSeen 3 = none := by decide +kernel

end Gel.Watcher
