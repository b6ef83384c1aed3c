import Verif.StructUpdate.Model
import Mathlib.Tactic.SplitIfs
import Mathlib.Tactic.Ring

/-!
# Struct updates: properties C66 and C99
-/
namespace Gel.StructUpdate

/-- The block `p` exists and has the content `b`. -/
def Has (h : Heap) (p : Nat) (b : List Byte) : Prop := h[p]? = some (some b)

theorem splice_length (b : List Byte) (off : Nat) (bytes : List Byte) (hl : off + bytes.length ≤ b.length) :
    (splice b off bytes).length = b.length := by
  simp [splice]; omega

theorem splice_get (b : List Byte) (off : Nat) (bytes : List Byte) (hl : off + bytes.length ≤ b.length) (i : Nat) :
    (splice b off bytes)[i]? = if off ≤ i ∧ i < off + bytes.length then bytes[i - off]? else b[i]? := by
  have h1 : (b.take off).length = off := by simp; omega
  rw [splice]
  by_cases hi : i < off
  · rw [if_neg (by omega), List.append_assoc, List.getElem?_append_left (by omega), List.getElem?_take, if_pos hi]
  · by_cases hi2 : i < off + bytes.length
    · rw [if_pos (by omega), List.getElem?_append_left (by simp; omega), List.getElem?_append_right (by omega), h1]
    · rw [if_neg (by omega), List.getElem?_append_right (by simp; omega), List.getElem?_drop]
      congr 1
      simp; omega

theorem load_has {h : Heap} {p : Nat} {b : List Byte} (hp : Has h p b) (off n : Nat) (hl : off + n ≤ b.length) :
    load h p off n = .ok ((b.drop off).take n) := by
  rw [load, hp]; simp only; rw [if_pos hl]

theorem store_has {h : Heap} {p : Nat} {b : List Byte} (hp : Has h p b) (off : Nat) (bytes : List Byte)
    (hl : off + bytes.length ≤ b.length) : store h p off bytes = .ok (h.set p (some (splice b off bytes))) := by
  rw [store, hp]; simp only; rw [if_pos hl]

theorem has_set {h : Heap} {p : Nat} {b b' : List Byte} (hp : Has h p b) : Has (h.set p (some b')) p b' := by
  have : p < h.length := (List.getElem?_eq_some_iff.1 hp).1
  rw [Has, List.getElem?_set_self this]

theorem has_set_ne {h : Heap} {p q : Nat} {b : List Byte} {x} (hne : p ≠ q) (hp : Has h p b) : Has (h.set q x) p b := by
  rw [Has, List.getElem?_set_ne (Ne.symm hne)]; exact hp

/-- An update that is not freed and holds `bytes`. -/
def Holds (h : Heap) (u : Update) (bytes : List Byte) : Prop := Has h u.data bytes ∧ u.size = bytes.length

/-- **C66.** Creation: the update holds the bytes that are in the source at that time, in a block of its own; nothing else
changes. -/
theorem C66_create (h : Heap) (offset p off size : Nat) (b : List Byte) (hp : Has h p b) (hl : off + size ≤ b.length) :
    ∃ h' u, fromData h offset p off size = .ok (h', u) ∧ Holds h' u ((b.drop off).take size) ∧ u.offset = offset ∧
      h.length ≤ u.data ∧ ∀ q, q < h.length → h'[q]? = h[q]? := by
  refine ⟨_, _, by rw [fromData, load_has hp off size hl]; rfl, ⟨?_, ?_⟩, rfl, Nat.le_refl _, ?_⟩
  · simp [Has]
  · simp; omega
  · intro q hq; rw [List.getElem?_append_left hq]

/-- **C66.** However memory is written, other updates are applied, created or freed in between: as long as the writes are
not to the block of the update itself, and it is not freed itself, it holds its bytes. -/
theorem C66_keep (h : Heap) (u : Update) (bytes : List Byte) (hu : Holds h u bytes) :
    (∀ p off bs h', p ≠ u.data → store h p off bs = .ok h' → Holds h' u bytes) ∧
    (∀ o p off n h' v, fromData h o p off n = .ok (h', v) → Holds h' u bytes ∧ v.data ≠ u.data) ∧
    (∀ p off v h', p ≠ u.data → apply h p off v = .ok h' → Holds h' u bytes) ∧
    (∀ v h', v.data ≠ u.data → free h v = .ok h' → Holds h' u bytes) := by
  have hlt : u.data < h.length := (List.getElem?_eq_some_iff.1 hu.1).1
  have hstore : ∀ p off bs h', p ≠ u.data → store h p off bs = .ok h' → Holds h' u bytes := by
    intro p off bs h' hne hs
    rw [store] at hs
    split at hs
    · split_ifs at hs
      injection hs with hs
      subst hs
      exact ⟨has_set_ne (Ne.symm hne) hu.1, hu.2⟩
    · cases hs
  refine ⟨hstore, ?_, ?_, ?_⟩
  · intro o p off n h' v hf
    rw [fromData, Res.bind_eq_ok] at hf
    obtain ⟨bs, _, hf⟩ := hf
    injection hf with hf
    injection hf with e1 e2
    subst e1 e2
    refine ⟨⟨?_, hu.2⟩, by simp only; omega⟩
    rw [Has, List.getElem?_append_left hlt]; exact hu.1
  · intro p off v h' hne hs
    rw [apply, Res.bind_eq_ok] at hs
    obtain ⟨bs, _, hs⟩ := hs
    exact hstore _ _ _ _ hne hs
  · intro v h' hne hs
    rw [free] at hs
    split at hs
    · injection hs with hs
      subst hs
      exact ⟨has_set_ne (Ne.symm hne) hu.1, hu.2⟩
    · cases hs

/-- **C66.** Applying: exactly the addressed bytes change. -/
theorem C66_apply (h : Heap) (u : Update) (bytes : List Byte) (hu : Holds h u bytes) (p off : Nat) (b : List Byte)
    (hp : Has h p b) (hl : off + u.offset + u.size ≤ b.length) :
    ∃ h' b', apply h p off u = .ok h' ∧ Has h' p b' ∧ b'.length = b.length ∧ h'.length = h.length ∧
      (∀ i, b'[i]? = if off + u.offset ≤ i ∧ i < off + u.offset + u.size then bytes[i - (off + u.offset)]? else b[i]?) ∧
      (∀ q, q ≠ p → h'[q]? = h[q]?) := by
  have hl' : off + u.offset + bytes.length ≤ b.length := by rw [← hu.2]; exact hl
  refine ⟨h.set p (some (splice b (off + u.offset) bytes)), splice b (off + u.offset) bytes, ?_, has_set hp,
    splice_length _ _ _ hl', by simp, ?_, ?_⟩
  · rw [apply, load_has hu.1 0 u.size (by rw [hu.2]; omega), Res.ok_bind, hu.2, List.drop_zero,
      List.take_of_length_le (Nat.le_refl _)]
    exact store_has hp _ _ hl'
  · intro i
    rw [splice_get b _ _ hl', hu.2]
  · intro q hq
    rw [List.getElem?_set_ne (Ne.symm hq)]

/-- The exact result of an application. -/
theorem apply_eq {h : Heap} {u : Update} {bytes : List Byte} (hu : Holds h u bytes) {p : Nat} (off : Nat) {b : List Byte}
    (hp : Has h p b) (hl : off + u.offset + u.size ≤ b.length) :
    apply h p off u = .ok (h.set p (some (splice b (off + u.offset) bytes))) := by
  have hl' : off + u.offset + bytes.length ≤ b.length := by rw [← hu.2]; exact hl
  rw [apply, load_has hu.1 0 u.size (by rw [hu.2]; omega), Res.ok_bind, hu.2, List.drop_zero,
      List.take_of_length_le (Nat.le_refl _)]
  exact store_has hp _ _ hl'

/-- Two applications in a row. -/
theorem apply_apply {h : Heap} {u v : Update} {x y : List Byte} (hu : Holds h u x) (hv : Holds h v y) {p : Nat} (off : Nat)
    {b : List Byte} (hp : Has h p b) (hpv : v.data ≠ p) (hl : off + u.offset + u.size ≤ b.length)
    (hl2 : off + v.offset + v.size ≤ b.length) :
    (do let h ← apply h p off u; apply h p off v) =
      .ok (h.set p (some (splice (splice b (off + u.offset) x) (off + v.offset) y))) := by
  have hl' : off + u.offset + x.length ≤ b.length := by rw [← hu.2]; exact hl
  rw [apply_eq hu off hp hl, Res.ok_bind,
    apply_eq (u := v) (bytes := y) ⟨has_set_ne hpv hv.1, hv.2⟩ off (has_set hp) (by rw [splice_length _ _ _ hl']; exact hl2),
    List.set_set]

/-- **C66.** Idempotence, commutation of disjoint updates, and the last one wins. The structure is not one of the blocks of
the updates. -/
theorem C66_algebra (h : Heap) (u v : Update) (x y : List Byte) (hu : Holds h u x) (hv : Holds h v y) (p off : Nat)
    (b : List Byte) (hp : Has h p b) (hpu : u.data ≠ p) (hpv : v.data ≠ p) (hl : off + u.offset + u.size ≤ b.length)
    (hl2 : off + v.offset + v.size ≤ b.length) :
    (do let h ← apply h p off u; apply h p off u) = apply h p off u ∧
    (u.offset + u.size ≤ v.offset ∨ v.offset + v.size ≤ u.offset →
      (do let h ← apply h p off u; apply h p off v) = (do let h ← apply h p off v; apply h p off u)) ∧
    (u.offset = v.offset → u.size = v.size → (do let h ← apply h p off u; apply h p off v) = apply h p off v) := by
  have hx : off + u.offset + x.length ≤ b.length := by rw [← hu.2]; exact hl
  have hy : off + v.offset + y.length ≤ b.length := by rw [← hv.2]; exact hl2
  refine ⟨?_, ?_, ?_⟩
  · rw [apply_apply hu hu off hp hpu hl hl, apply_eq hu off hp hl]
    congr 3
    apply List.ext_getElem?
    intro i
    rw [splice_get _ _ _ (by rw [splice_length _ _ _ hx]; exact hx), splice_get _ _ _ hx]
    split_ifs <;> rfl
  · intro hd
    rw [apply_apply hu hv off hp hpv hl hl2, apply_apply hv hu off hp hpu hl2 hl]
    congr 3
    apply List.ext_getElem?
    intro i
    rw [hu.2, hv.2] at hd
    rw [splice_get _ _ _ (by rw [splice_length _ _ _ hx]; exact hy), splice_get _ _ _ hx,
      splice_get _ _ _ (by rw [splice_length _ _ _ hy]; exact hx), splice_get _ _ _ hy]
    split_ifs <;> first | rfl | omega
  · intro ho hs
    rw [apply_apply hu hv off hp hpv hl hl2, apply_eq hv off hp hl2]
    congr 3
    apply List.ext_getElem?
    intro i
    rw [splice_get _ _ _ (by rw [splice_length _ _ _ hx]; exact hy), splice_get _ _ _ hx, splice_get _ _ _ hy]
    rw [hu.2, hv.2] at hs
    split_ifs <;> first | rfl | omega

/-- **C66.** Freeing an update once is fine; using or freeing it again is undefined. -/
theorem C66_free (h : Heap) (u : Update) (bytes : List Byte) (hu : Holds h u bytes) :
    ∃ h', free h u = .ok h' ∧ (∀ q, q ≠ u.data → h'[q]? = h[q]?) ∧ free h' u = .ub ∧ ∀ p off, apply h' p off u = .ub := by
  have hlt : u.data < h.length := (List.getElem?_eq_some_iff.1 hu.1).1
  have hn : (h.set u.data none)[u.data]? = some none := List.getElem?_set_self hlt
  have hf : free h u = .ok (h.set u.data none) := by
    rw [free, show h[u.data]? = some (some bytes) from hu.1]
  refine ⟨_, hf, fun q hq => List.getElem?_set_ne (Ne.symm hq), ?_, ?_⟩
  · rw [free, hn]
  · intro p off
    rw [apply, load, hn]; rfl

-- block 0: a structure of four bytes; block 1: the source, overwritten after the creation of the update
example : (do
    let (h, u) ← fromData [some [1, 2, 3, 4], some [8, 9]] 1 1 0 2
    let h ← store h 1 0 [0, 0]
    let h ← apply h 0 0 u
    free h u) = .ok [some [1, 8, 9, 4], some [0, 0], none] := by decide

/-! ## C99 -/

/-- **C99** (partial). `STRUCT_UPDATE_ARRAY` captures `length` elements if `length` is a primary expression, or a sum and
the elements are bytes. Missing: other sums (`C99_wrong`). -/
theorem C99_array_partial (elem : Nat) (l : Length) (h : (∃ n, l = .one n) ∨ elem = 1) :
    arraySize elem l = elem * l.value := by
  rcases h with ⟨n, rfl⟩ | rfl
  · rfl
  · cases l with
    | one n => rfl
    | sum a b => simp [arraySize, Length.value]

/-- **C99**, where it fails: for `a + b` (`b ≥ 1`) elements of several bytes fewer bytes are captured. -/
theorem C99_wrong (elem a b : Nat) (he : 2 ≤ elem) (hb : 1 ≤ b) : arraySize elem (.sum a b) < elem * (Length.sum a b).value := by
  simp only [arraySize, Length.value]
  have : b < elem * b := by
    calc b = 1 * b := by omega
      _ < elem * b := Nat.mul_lt_mul_of_pos_right (by omega) (by omega)
  rw [Nat.mul_add]; omega

example : arraySize 4 (.sum 2 1) = 9 ∧ 4 * (Length.sum 2 1).value = 12 := by decide

end Gel.StructUpdate
