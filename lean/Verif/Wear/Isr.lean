import Verif.Wear.Faults

/-!
# Wear leveling: interrupt handlers during a write (C209, C210)

`wearleveling_write` as a sequence of accesses to the structure and calls of the callbacks, with a handler before each of them and after
the last one that runs to its end; the handler does `H t` at the `t`-th point. A callback runs to its end without interruption, and the
members of the structure are loaded and stored in one step.
-/
namespace Gel.Wear

open Spec

/-- `wearleveling_write`, wearleveling.c:48-63. The order in which the arguments in line 60 are loaded is left open by C; here the block
comes first. -/
def writeI (dev : Dev D) (H : Nat → D × Wlm → D × Wlm) (s : D × Wlm) (buffer : List Byte) : Res ((D × Wlm) × Int) :=
  if buffer.length = 0 then .ub
  else
    let s := H 0 s
    let a := s.2.last
    let s := H 1 s
    let (res, intermediate) := dev.readBlock s.1 a buffer.length
    let s := H 2 s
    if res ≠ 0 then .ok (s, res)
    else if intermediate ≠ buffer then do
      let m := s.2.marker
      let s := H 3 s
      let s := H 4 (s.1, { s.2 with marker := m + 1 })
      let l ← nextBlock s.2.last s.2.n
      let s := H 5 s
      let s := H 6 (s.1, { s.2 with last := l })
      let a := s.2.last
      let s := H 7 s
      let m := s.2.marker
      let s := H 8 s
      let (res, d) := dev.writeBlock s.1 a m buffer
      pure (H 9 (d, s.2), res)
    else .ok (s, 0)

/-- **C209.** Without handlers this is the write of the first model. -/
theorem C209_quiet (dev : Dev D) (s : D × Wlm) (x : List Byte) :
    writeI dev (fun _ s => s) s x = (do let (d, w, r) ← write dev s.1 s.2 x; pure ((d, w), r)) := by
  rw [writeI, write]
  split_ifs
  · rfl
  · simp only
    split_ifs
    · rfl
    · cases nextBlock s.2.last s.2.n <;> rfl
    · rfl

/-! ## The device as a function -/

/-- The device after a block was written. -/
def put (d : List Block) (i : Nat) (m : Byte) (x : List Byte) : List Block :=
  match d[i]? with
  | some b => d.set i ⟨m, x ++ b.data.drop x.length⟩
  | none => d

/-- The record in a block. -/
def dat (len : Nat) (d : List Block) (i : Nat) : Option (List Byte) := d[i]?.map (·.data.take len)

/-- The marker of a block. -/
def mar (d : List Block) (i : Nat) : Option Byte := d[i]?.map (·.marker)

theorem fits_put {size n : Nat} {d : List Block} (hd : Fits size n d) (i : Nat) (m : Byte) (x : List Byte) (hl : x.length ≤ size) :
    Fits size n (put d i m x) := by
  rw [put]
  by_cases hi : i < d.length
  · rw [List.getElem?_eq_getElem hi]
    exact fits_set hd i hi m x hl
  · rw [List.getElem?_eq_none (by omega)]
    exact hd

theorem dat_put {d : List Block} {i : Nat} (hi : i < d.length) (m : Byte) {x : List Byte} {len : Nat} (hx : x.length = len) (j : Nat) :
    dat len (put d i m x) j = if j = i then some x else dat len d j := by
  rw [put, List.getElem?_eq_getElem hi, dat, dat]
  simp only [List.getElem?_set]
  by_cases h : j = i
  · subst h
    subst hx
    simp [hi]
  · rw [if_neg (fun h' => h h'.symm), if_neg h]

theorem mar_put {d : List Block} {i : Nat} (hi : i < d.length) (m : Byte) (x : List Byte) (j : Nat) :
    mar (put d i m x) j = if j = i then some m else mar d j := by
  rw [put, List.getElem?_eq_getElem hi, mar, mar]
  simp only [List.getElem?_set]
  by_cases h : j = i
  · subst h
    simp [hi]
  · rw [if_neg (fun h' => h h'.symm), if_neg h]

theorem put_length (d : List Block) (i : Nat) (m : Byte) (x : List Byte) : (put d i m x).length = d.length := by
  rw [put]
  split <;> simp

theorem flash_put {size : Nat} {d : List Block} {i : Nat} (hi : i < d.length) (m : Byte) {x : List Byte} (hl : x.length ≤ size) :
    (flash size).writeBlock d i m x = (0, put d i m x) := by
  rw [flash_write size d i m x hi hl, put, List.getElem?_eq_getElem hi]

theorem flash_dat {size n len : Nat} {d : List Block} (hd : Fits size n d) {i : Nat} (hl : len ≤ size) {x : List Byte}
    (h : dat len d i = some x) : (flash size).readBlock d i len = (0, x) := by
  rw [dat] at h
  cases hb : d[i]? with
  | none => rw [hb] at h; cases h
  | some b =>
    rw [hb] at h
    obtain ⟨hi, rfl⟩ := List.getElem?_eq_some_iff.1 hb
    rw [flash_read size n d hd i len hi hl]
    injection h with h
    rw [← h]

theorem dat_some {size n len : Nat} {d : List Block} (hd : Fits size n d) {i : Nat} (hi : i < n) : ∃ x, dat len d i = some x := by
  rw [dat, List.getElem?_eq_getElem (by rw [hd.1]; exact hi)]
  exact ⟨_, rfl⟩

theorem holds_iff {size n len : Nat} {s : List Block × Wlm} {x : List Byte} :
    Holds size n len s x ↔ Fits size n s.1 ∧ s.2.n = n ∧ s.2.last < n ∧ dat len s.1 s.2.last = some x := by
  constructor
  · rintro ⟨h1, h2, h3, h4⟩
    refine ⟨h1, h2, by rw [← h1.1]; exact h3, ?_⟩
    rw [dat, List.getElem?_eq_getElem h3, Option.map_some, h4]
  · rintro ⟨h1, h2, h3, h4⟩
    have h3' : s.2.last < s.1.length := by rw [h1.1]; exact h3
    refine ⟨h1, h2, h3', ?_⟩
    rw [dat, List.getElem?_eq_getElem h3', Option.map_some] at h4
    injection h4

/-- The handler's write. -/
def wrH (size : Nat) (y : List Byte) (s : List Block × Wlm) : List Block × Wlm :=
  match write (flash size) s.1 s.2 y with
  | .ok (d, w, _) => (d, w)
  | _ => s

/-- What a write of another record does. -/
def adv (s : List Block × Wlm) (x : List Byte) : List Block × Wlm :=
  (put s.1 (next s.2.n s.2.last) (s.2.marker + 1) x, { s.2 with last := next s.2.n s.2.last, marker := s.2.marker + 1 })

theorem wrH_eq {size n len : Nat} {s : List Block × Wlm} {old : List Byte} (hn : n < 256) (h0 : 0 < len) (hl : len ≤ size)
    (h : Holds size n len s old) {y : List Byte} (hy : y.length = len) : wrH size y s = if y = old then s else adv s y := by
  obtain ⟨hd, hw, ha, hold⟩ := h
  subst hy
  rw [wrH]
  by_cases he : y = old
  · rw [if_pos he, write_same size n s.1 hd s.2 ha y h0 hl (by rw [hold, he])]
  · obtain ⟨hlt, e⟩ := write_other size n s.1 hd s.2 hw hn ha y h0 hl (by rw [hold]; exact fun h => he h.symm)
    rw [if_neg he, e]
    simp only [adv, put, hw, List.getElem?_eq_getElem hlt]

theorem holds_adv {size n len : Nat} {s : List Block × Wlm} {old : List Byte} (hl : len ≤ size)
    (h : Holds size n len s old) {x : List Byte} (hx : x.length = len) : Holds size n len (adv s x) x := by
  rw [holds_iff] at h ⊢
  obtain ⟨hd, hw, ha, _⟩ := h
  have hlt := next_lt n _ ha
  refine ⟨fits_put hd _ _ _ (by omega), hw, by simp only [adv, hw]; exact hlt, ?_⟩
  simp only [adv, hw]
  rw [dat_put (by rw [hd.1]; exact hlt) _ hx, if_pos rfl]

theorem rel_adv {size n len : Nat} {s : List Block × Wlm} {i : Ideal} (hn0 : 0 < n) (hn : n < 256) (hl : len ≤ size)
    (h : Rel size n len s i) {x : List Byte} (hx : x.length = len) : Rel size n len (adv s x) ⟨x, i.changes + 1⟩ := by
  obtain ⟨hh, hc, b, hm⟩ := h
  have halt : s.2.last < n := by rw [hc]; exact Nat.mod_lt _ hn0
  have hw := hh.2.1
  have hlt : next n s.2.last < s.1.length := by rw [hh.1.1]; exact next_lt n _ halt
  refine ⟨holds_adv hl hh hx, ?_, ?_⟩
  · simp only [adv, hw]
    rw [next_mod _ _ halt, hc, Nat.mod_add_mod]
  · refine marked_write hh.1.1 hn halt hm (by simp only [adv, hw]) rfl (y := x ++ s.1[next n s.2.last].data.drop x.length) ?_
    simp only [put, hw, List.getElem?_eq_getElem hlt]

theorem rel_wrH {size n len : Nat} {s : List Block × Wlm} {i : Ideal} (hn0 : 0 < n) (hn : n < 256) (h0 : 0 < len) (hl : len ≤ size)
    (h : Rel size n len s i) {y : List Byte} (hy : y.length = len) : Rel size n len (wrH size y s) (i.write y) := by
  rw [wrH_eq hn h0 hl h.1 hy, Ideal.write]
  split_ifs
  · exact h
  · exact rel_adv hn0 hn hl h hy

/-- The handler does `f` at point `t` and nothing at the others. -/
def onceAt (t : Nat) (f : S → S) : Nat → S → S := fun u s => if u = t then f s else s

/-! ## C209: a handler that reads -/

/-- A device with a record of what was read. -/
def logged (dev : Dev D) : Dev (D × List (Int × List Byte)) where
  readBlock d := dev.readBlock d.1
  writeBlock d i m x := ((dev.writeBlock d.1 i m x).1, (dev.writeBlock d.1 i m x).2, d.2)
  readMarker d := dev.readMarker d.1

/-- The handler's `wearleveling_read`. -/
def rdH (dev : Dev D) (len : Nat) (s : (D × List (Int × List Byte)) × Wlm) : (D × List (Int × List Byte)) × Wlm :=
  ((s.1.1, s.1.2 ++ [read dev s.1.1 s.2 len]), s.2)

/-- **C209.** What a handler reads if it comes at every point of a write of another record: the old record until the number of the active
block is stored, then what is in the next block, and the new record only after the block was written. -/
theorem C209_exact (size n len : Nat) (s : List Block × Wlm) (old x : List Byte) (hn : n < 256) (h0 : 0 < len) (hl : len ≤ size)
    (h : Holds size n len s old) (hx : x.length = len) (hne : x ≠ old) :
    ∃ (s' : List Block × Wlm) (stale : List Byte), (flash size).readBlock s.1 ((s.2.last + 1) % n) len = (0, stale) ∧
      writeI (logged (flash size)) (fun _ => rdH (flash size) len) ((s.1, []), s.2) x =
        .ok ((((s'.1, List.replicate 6 (0, old) ++ List.replicate 3 (0, stale) ++ [(0, x)]), s'.2), 0)) ∧
      write (flash size) s.1 s.2 x = .ok (s'.1, s'.2, 0) := by
  have hh := h
  rw [holds_iff] at h
  obtain ⟨hd, hw, ha, hold⟩ := h
  have hlt := next_lt n _ ha
  have hlt' : next n s.2.last < s.1.length := by rw [hd.1]; exact hlt
  obtain ⟨stale, hst⟩ := dat_some (len := len) hd hlt
  have r1 := flash_dat hd hl hold
  have r2 := flash_dat hd hl hst
  refine ⟨adv s x, stale, by rw [← next_mod _ _ ha]; exact r2, ?_, ?_⟩
  · have r3 : (flash size).readBlock (adv s x).1 (next n s.2.last) len = (0, x) := by
      have := holds_read hl (holds_adv hl hh hx)
      simpa only [read, adv, hw] using this
    have w1 := flash_put (size := size) hlt' (s.2.marker + 1) (x := x) (by omega)
    have nb : nextBlock s.2.last n = .ok (next n s.2.last) := by rw [nextBlock_eq _ _ ha hn]; rfl
    simp only [adv, hw] at r3
    rw [writeI, if_neg (by omega), hx]
    simp only [rdH, logged, read, r1, nb, Res.ok_bind, r2, w1, r3, ne_eq, not_true_eq_false, if_false, Ne.symm hne, not_false_eq_true,
      if_true, Res.pure_eq, adv, hw]
    rfl
  · have := wrH_eq hn h0 hl hh hx
    rw [if_neg hne, wrH] at this
    obtain ⟨d, w, e, _⟩ := holds_write hn h0 hl hh x hx
    rw [e] at this ⊢
    simp only at this
    rw [← this]

/-- **C209.** What is read if the record does not change is the record. -/
theorem C209_same (size n len : Nat) (s : List Block × Wlm) (x : List Byte) (h0 : 0 < len) (hl : len ≤ size)
    (h : Holds size n len s x) (hx : x.length = len) :
    writeI (logged (flash size)) (fun _ => rdH (flash size) len) ((s.1, []), s.2) x = .ok (((s.1, List.replicate 3 (0, x)), s.2), 0) := by
  have r1 := holds_read hl h
  rw [read] at r1
  rw [writeI, if_neg (by omega), hx]
  simp only [rdH, logged, read, r1, ne_eq, not_true_eq_false, if_false]
  rfl

/-- The blocks up to the active one, backwards, hold the last records, newest first. -/
def Hist (size n len : Nat) (s : List Block × Wlm) (ys : List (List Byte)) : Prop :=
  Fits size n s.1 ∧ s.2.n = n ∧ s.2.last < n ∧ ys ≠ [] ∧ ∀ j, j < n → j < ys.length → dat len s.1 ((s.2.last + n - j) % n) = ys[j]?

theorem hist_holds {size n len : Nat} {s : List Block × Wlm} {y : List Byte} {ys : List (List Byte)} (h : Hist size n len s (y :: ys)) :
    Holds size n len s y := by
  obtain ⟨h1, h2, h3, _, h4⟩ := h
  rw [holds_iff]
  refine ⟨h1, h2, h3, ?_⟩
  have := h4 0 (by omega) (by simp)
  rwa [Nat.sub_zero, Nat.add_mod_right, Nat.mod_eq_of_lt h3] at this

theorem hist_adv {size n len : Nat} {s : List Block × Wlm} {ys : List (List Byte)} (hl : len ≤ size) (h : Hist size n len s ys)
    {x : List Byte} (hx : x.length = len) : Hist size n len (adv s x) (x :: ys) := by
  obtain ⟨h1, h2, h3, _, h4⟩ := h
  have hlt := next_lt n _ h3
  refine ⟨fits_put h1 _ _ _ (by omega), h2, by simp only [adv, h2]; exact hlt, by simp, ?_⟩
  intro j hj hj'
  simp only [adv, h2]
  rw [dat_put (by rw [h1.1]; exact hlt) _ hx]
  cases j with
  | zero => rw [Nat.sub_zero, Nat.add_mod_right, Nat.mod_eq_of_lt hlt, if_pos rfl]; rfl
  | succ j =>
    have e : (next n s.2.last + n - (j + 1)) % n = (s.2.last + n - j) % n := by
      rw [next]
      split_ifs with hc
      · congr 1; omega
      · rw [show s.2.last + n - j = 0 + n - (j + 1) + n by omega, Nat.add_mod_right]
    have hne : (s.2.last + n - j) % n ≠ next n s.2.last := by
      rw [next]
      intro hc
      by_cases h' : j ≤ s.2.last
      · rw [show s.2.last + n - j = s.2.last - j + n by omega, Nat.add_mod_right, Nat.mod_eq_of_lt (by omega)] at hc
        split_ifs at hc <;> omega
      · rw [Nat.mod_eq_of_lt (by omega)] at hc
        split_ifs at hc <;> omega
    rw [e, if_neg hne, List.getElem?_cons_succ]
    exact h4 j (by omega) (by simpa using hj')

theorem hist_run {size n len : Nat} (hn : n < 256) (h0 : 0 < len) (hl : len ≤ size) (xs : List (List Byte)) :
    ∀ (s : List Block × Wlm) (y : List Byte) (ys : List (List Byte)), Hist size n len s (y :: ys) → (∀ x ∈ xs, x.length = len) →
      AllChange y xs → ∃ s', run (flash size) s (xs.map .write) = .ok s' ∧ Hist size n len s' (xs.reverse ++ y :: ys) := by
  induction xs with
  | nil => intro s y ys h _ _; exact ⟨s, rfl, h⟩
  | cons x xs ih =>
    intro s y ys h hx hc
    have hxl := hx x (by simp)
    have e := wrH_eq hn h0 hl (hist_holds h) hxl
    obtain ⟨d, w, e', _⟩ := holds_write hn h0 hl (hist_holds h) x hxl
    rw [wrH, e', if_neg hc.1] at e
    obtain ⟨s', e2, h2⟩ := ih (adv s x) x (y :: ys) (hist_adv hl h hxl) (fun z hz => hx z (by simp [hz])) hc.2
    refine ⟨s', ?_, by simpa using h2⟩
    rw [List.map_cons, run, step, e']
    simp only [Res.ok_bind, Res.pure_eq]
    simp only at e
    rw [e]
    exact e2

/-- **C209**, where it fails: after at least `n - 1` changes the record read at the points 6 to 8 of a write is the one that was
replaced `n - 1` changes ago (the record before the writes counts as the first one). -/
theorem C209_stale_wrong (size n len : Nat) (s : List Block × Wlm) (old x : List Byte) (hn : n < 256) (h0 : 0 < len) (hl : len ≤ size)
    (h : Holds size n len s old) (xs : List (List Byte)) (hxs : ∀ x ∈ xs, x.length = len) (hc : AllChange old xs) (hk : n ≤ xs.length + 1)
    (hx : x.length = len) (hne : (old :: xs).getLast? ≠ some x) :
    ∃ (s₁ s' : List Block × Wlm) (last stale : List Byte), run (flash size) s (xs.map .write) = .ok s₁ ∧ (old :: xs)[xs.length]? = some last ∧
      (old :: xs)[xs.length + 1 - n]? = some stale ∧
      writeI (logged (flash size)) (fun _ => rdH (flash size) len) ((s₁.1, []), s₁.2) x =
        .ok ((((s'.1, List.replicate 6 (0, last) ++ List.replicate 3 (0, stale) ++ [(0, x)]), s'.2), 0)) := by
  have hh := h
  rw [holds_iff] at h
  obtain ⟨hd, hw, ha, hold⟩ := h
  have hH : Hist size n len s [old] := by
    refine ⟨hd, hw, ha, by simp, ?_⟩
    intro j hj hj'
    have : j = 0 := by simpa using hj'
    subst this
    rw [Nat.sub_zero, Nat.add_mod_right, Nat.mod_eq_of_lt ha]
    exact hold
  obtain ⟨s₁, e1, h1⟩ := hist_run hn h0 hl xs s old [] hH hxs hc
  have hrev : xs.reverse ++ [old] = (old :: xs).reverse := by simp
  rw [hrev] at h1
  have hlen : (old :: xs).reverse.length = xs.length + 1 := by simp
  obtain ⟨last, hlast⟩ : ∃ last, (old :: xs)[xs.length]? = some last := ⟨_, List.getElem?_eq_getElem (by simp)⟩
  have hrl : ∃ ys, (old :: xs).reverse = last :: ys := by
    cases hr : (old :: xs).reverse with
    | nil => simp at hr
    | cons z zs =>
      have : (old :: xs).reverse[0]? = some last := by
        rw [List.getElem?_reverse (by simp)]
        simpa using hlast
      rw [hr] at this
      simp at this
      exact ⟨zs, by rw [this]⟩
  obtain ⟨ys, hys⟩ := hrl
  have hl1 : Holds size n len s₁ last := by rw [hys] at h1; exact hist_holds h1
  have hne' : x ≠ last := by
    intro hxl
    apply hne
    rw [List.getLast?_eq_getElem?, List.length_cons, Nat.add_sub_cancel, hlast, hxl]
  obtain ⟨s', stale, r, e2, _⟩ := C209_exact size n len s₁ last x hn h0 hl hl1 hx hne'
  refine ⟨s₁, s', last, stale, e1, hlast, ?_, e2⟩
  obtain ⟨g1, g2, g3, _, g4⟩ := h1
  have := g4 (n - 1) (by omega) (by rw [hlen]; omega)
  rw [List.getElem?_reverse (by simp; omega), List.length_cons] at this
  rw [show s₁.2.last + n - (n - 1) = s₁.2.last + 1 by omega, show xs.length + 1 - 1 - (n - 1) = xs.length + 1 - n by omega] at this
  rw [← this]
  obtain ⟨z, hz⟩ := dat_some (len := len) g1 (Nat.mod_lt (s₁.2.last + 1) (show 0 < n by omega))
  rw [hz]
  have := flash_dat g1 hl hz
  rw [this] at r
  injection r with _ r
  rw [r]

/-- Three blocks and the records 1, 2, 3: while 4 is written, 1 is read for a moment. -/
example : writeI (logged (flash 1)) (fun _ => rdH (flash 1) 1) (([⟨0, [1]⟩, ⟨1, [2]⟩, ⟨2, [3]⟩], []), ⟨3, 2, 2⟩) [4] =
    .ok ((([⟨3, [4]⟩, ⟨1, [2]⟩, ⟨2, [3]⟩],
      [(0, [3]), (0, [3]), (0, [3]), (0, [3]), (0, [3]), (0, [3]), (0, [1]), (0, [1]), (0, [1]), (0, [4])]), ⟨3, 0, 3⟩), 0) := by rfl

/-- **C209** (partial). With one block a handler reads the old record or the new one. Missing: several blocks, for which it is false
(`C209_stale_wrong`). -/
theorem C209_partial (size len : Nat) (s : List Block × Wlm) (old x : List Byte) (h0 : 0 < len) (hl : len ≤ size)
    (h : Holds size 1 len s old) (hx : x.length = len) :
    ∃ (s' : List Block × Wlm) (l : List (Int × List Byte)),
      writeI (logged (flash size)) (fun _ => rdH (flash size) len) ((s.1, []), s.2) x = .ok (((s'.1, l), s'.2), 0) ∧
        ∀ r ∈ l, r = (0, old) ∨ r = (0, x) := by
  by_cases hne : x = old
  · subst hne
    refine ⟨s, _, C209_same size 1 len s x h0 hl h hx, ?_⟩
    intro r hr
    rw [List.eq_of_mem_replicate hr]
    exact Or.inl rfl
  · obtain ⟨s', stale, r, e, _⟩ := C209_exact size 1 len s old x (by omega) h0 hl h hx hne
    refine ⟨s', _, e, ?_⟩
    have hr := holds_read hl h
    rw [holds_iff] at h
    rw [Nat.mod_one] at r
    rw [read, show s.2.last = 0 by omega, r] at hr
    injection hr with _ hr
    subst hr
    intro r hr
    simp only [List.mem_append, List.mem_replicate, List.mem_singleton] at hr
    rcases hr with (⟨_, h⟩ | ⟨_, h⟩) | h
    · exact Or.inl h
    · exact Or.inl h
    · exact Or.inr h

/-! ## C210: a handler that writes -/

theorem once_ne {S : Type u} {t u : Nat} {f : S → S} (h : u ≠ t) (s : S) : onceAt t f u s = s := if_neg h

theorem once_eq {S : Type u} {t : Nat} {f : S → S} (s : S) : onceAt t f t s = f s := if_pos rfl

/-- The write from point 2 on, if the record read is another one. -/
def tailI (dev : Dev D) (H : Nat → D × Wlm → D × Wlm) (s : D × Wlm) (buffer : List Byte) : Res ((D × Wlm) × Int) := do
  let m := s.2.marker
  let s := H 3 s
  let s := H 4 (s.1, { s.2 with marker := m + 1 })
  let l ← nextBlock s.2.last s.2.n
  let s := H 5 s
  let s := H 6 (s.1, { s.2 with last := l })
  let a := s.2.last
  let s := H 7 s
  let m := s.2.marker
  let s := H 8 s
  let (res, d) := dev.writeBlock s.1 a m buffer
  pure (H 9 (d, s.2), res)

theorem writeI_other {dev : Dev D} {H : Nat → D × Wlm → D × Wlm} {s : D × Wlm} {x : List Byte} (h0 : 0 < x.length) {old : List Byte}
    (hr : dev.readBlock (H 1 (H 0 s)).1 (H 0 s).2.last x.length = (0, old)) (hne : x ≠ old) :
    writeI dev H s x = tailI dev H (H 2 (H 1 (H 0 s))) x := by
  rw [writeI, if_neg (by omega)]
  simp only [hr, ne_eq, not_true_eq_false, if_false, Ne.symm hne, not_false_eq_true, if_true]
  rfl

theorem writeI_same {dev : Dev D} {H : Nat → D × Wlm → D × Wlm} {s : D × Wlm} {x : List Byte} (h0 : 0 < x.length)
    (hr : dev.readBlock (H 1 (H 0 s)).1 (H 0 s).2.last x.length = (0, x)) : writeI dev H s x = .ok (H 2 (H 1 (H 0 s)), 0) := by
  rw [writeI, if_neg (by omega)]
  simp only [hr, ne_eq, not_true_eq_false, if_false]

/-- The end of the write when the handler has been there. -/
theorem tail_quiet {size n len : Nat} {t : Nat} {f : List Block × Wlm → List Block × Wlm} (ht : t ≤ 2) {s : List Block × Wlm}
    {old : List Byte} (hn : n < 256) (hl : len ≤ size) (h : Holds size n len s old) {x : List Byte} (hx : x.length = len) :
    tailI (flash size) (onceAt t f) s x = .ok (adv s x, 0) := by
  rw [holds_iff] at h
  obtain ⟨hd, hw, ha, _⟩ := h
  have nb : nextBlock s.2.last n = .ok (next n s.2.last) := by rw [nextBlock_eq _ _ ha hn]; rfl
  have w1 := flash_put (size := size) (show next n s.2.last < s.1.length by rw [hd.1]; exact next_lt n _ ha) (s.2.marker + 1) (x := x) (by omega)
  rw [tailI]
  simp only [once_ne (show 3 ≠ t by omega), once_ne (show 4 ≠ t by omega), once_ne (show 5 ≠ t by omega), once_ne (show 6 ≠ t by omega),
    once_ne (show 7 ≠ t by omega), once_ne (show 8 ≠ t by omega), once_ne (show 9 ≠ t by omega), nb, Res.ok_bind, w1, Res.pure_eq, adv, hw]

/-- What is left after a write of `x` over `old` with a handler that writes `y` over `old` (before point 6) or over `stale` at point `t`. -/
def Spec.mixed (old stale x y : List Byte) (d : List Block) (w : Wlm) (t : Nat) : List Block × Wlm :=
  let l1 := (w.last + 1) % w.n
  let l2 := (l1 + 1) % w.n
  let m1 := w.marker + 1
  let m2 := m1 + 1
  if (if t ≤ 5 then y = old else y = stale) then (put d l1 m1 x, { w with last := l1, marker := m1 })
  else if t = 3 then (put (put d l1 m1 y) l2 m1 x, { w with last := l2, marker := m1 })
  else if t = 4 then (put (put d l1 m2 y) l2 m2 x, { w with last := l2, marker := m2 })
  else if t = 5 then (put (put d l1 m2 y) l1 m2 x, { w with last := l1, marker := m2 })
  else if t = 6 then (put (put d l2 m2 y) l2 m2 x, { w with last := l2, marker := m2 })
  else if t = 7 then (put (put d l2 m2 y) l1 m2 x, { w with last := l2, marker := m2 })
  else (put (put d l2 m2 y) l1 m1 x, { w with last := l2, marker := m2 })

/-- **C210.** What a write of another record leaves behind if the handler writes at one of the points 3 to 8. -/
theorem C210_exact (size n len : Nat) (s : List Block × Wlm) (old stale x y : List Byte) (hn : n < 256) (h0 : 0 < len) (hl : len ≤ size)
    (h : Holds size n len s old) (hst : (flash size).readBlock s.1 ((s.2.last + 1) % n) len = (0, stale)) (hx : x.length = len)
    (hy : y.length = len) (hne : x ≠ old) (t : Nat) (ht : 3 ≤ t) (ht' : t ≤ 8) :
    writeI (flash size) (onceAt t (wrH size y)) s x = .ok (Spec.mixed old stale x y s.1 s.2 t, 0) := by
  have hh := h
  have hr := holds_read hl h
  rw [holds_iff] at h
  obtain ⟨hd, hw, ha, hold⟩ := h
  have hdl := hd.1
  have hlt := next_lt n _ ha
  have hlt2 := next_lt n _ hlt
  have hm1 := next_mod n _ ha
  have hm2 := next_mod n _ hlt
  rw [hm1] at hm2 hlt2 hlt
  rw [hm2] at hlt2
  have hm1' : next s.2.n s.2.last = (s.2.last + 1) % n := by rw [hw, hm1]
  have hm2' : next s.2.n ((s.2.last + 1) % n) = ((s.2.last + 1) % n + 1) % n := by rw [hw, hm2]
  have nb : nextBlock s.2.last n = .ok ((s.2.last + 1) % n) := by rw [nextBlock_eq _ _ ha hn, ← hm1]; rfl
  have nb2 : nextBlock ((s.2.last + 1) % n) n = .ok (((s.2.last + 1) % n + 1) % n) := by rw [nextBlock_eq _ _ hlt hn, ← hm2]; rfl
  have dst : dat len s.1 ((s.2.last + 1) % n) = some stale := by
    obtain ⟨z, hz⟩ := dat_some (len := len) hd hlt
    have := flash_dat hd hl hz
    rw [hst] at this
    injection this with _ this
    rw [hz, this]
  have W : ∀ (d : List Block) (i : Nat) (m : Byte), d.length = n → i < n → (flash size).writeBlock d i m x = (0, put d i m x) :=
    fun d i m hd' hi => flash_put (by omega) m (by omega)
  rw [writeI_other (old := old) (by omega) (by
    rw [once_ne (by omega), once_ne (by omega), hx]
    exact hr) hne, once_ne (by omega), once_ne (by omega), once_ne (by omega), tailI]
  -- the handler's write over the old record, with any marker
  have A : ∀ m, wrH size y (s.1, { s.2 with marker := m }) = if y = old then (s.1, { s.2 with marker := m })
      else (put s.1 ((s.2.last + 1) % n) (m + 1) y, { s.2 with last := (s.2.last + 1) % n, marker := m + 1 }) := by
    intro m
    rw [wrH_eq hn h0 hl (old := old) (by rw [holds_iff]; exact ⟨hd, hw, ha, hold⟩) hy]
    split_ifs
    · rfl
    · simp only [adv, hm1']
  have A' := A s.2.marker
  -- the handler's write over the stale record
  have B : wrH size y (s.1, { s.2 with last := (s.2.last + 1) % n, marker := s.2.marker + 1 }) =
      if y = stale then (s.1, { s.2 with last := (s.2.last + 1) % n, marker := s.2.marker + 1 })
      else (put s.1 (((s.2.last + 1) % n + 1) % n) (s.2.marker + 1 + 1) y,
        { s.2 with last := ((s.2.last + 1) % n + 1) % n, marker := s.2.marker + 1 + 1 }) := by
    rw [wrH_eq hn h0 hl (old := stale) (by rw [holds_iff]; exact ⟨hd, hw, hlt, dst⟩) hy]
    split_ifs
    · rfl
    · simp only [adv, hm2']
  have hs : ({ s.2 with marker := s.2.marker } : Wlm) = s.2 := rfl
  rw [hs] at A'
  have hs' : (s.1, s.2) = s := rfl
  rw [hs'] at A'
  simp only [hw] at A B
  have t6 : t = 3 ∨ t = 4 ∨ t = 5 ∨ t = 6 ∨ t = 7 ∨ t = 8 := by omega
  rcases t6 with rfl | rfl | rfl | rfl | rfl | rfl
  · rw [once_eq, A']
    by_cases he : y = old
    · simp only [he, if_true, once_ne (show 4 ≠ 3 by omega), once_ne (show 5 ≠ 3 by omega), once_ne (show 6 ≠ 3 by omega),
        once_ne (show 7 ≠ 3 by omega), once_ne (show 8 ≠ 3 by omega), once_ne (show 9 ≠ 3 by omega), nb, Res.ok_bind,
        W _ _ _ hdl hlt, Res.pure_eq, Spec.mixed, hw, show (3 : Nat) ≤ 5 by omega]
    · simp only [he, if_false, if_true, once_ne (show 4 ≠ 3 by omega), once_ne (show 5 ≠ 3 by omega), once_ne (show 6 ≠ 3 by omega),
        once_ne (show 7 ≠ 3 by omega), once_ne (show 8 ≠ 3 by omega), once_ne (show 9 ≠ 3 by omega), nb2, Res.ok_bind,
        W _ _ _ ((put_length _ _ _ _).trans hdl) hlt2, Res.pure_eq, Spec.mixed, hw, show (3 : Nat) ≤ 5 by omega]
  · simp only [once_ne (show 3 ≠ 4 by omega), once_eq, hw, A]
    by_cases he : y = old
    · simp only [he, if_true, once_ne (show 5 ≠ 4 by omega), once_ne (show 6 ≠ 4 by omega),
        once_ne (show 7 ≠ 4 by omega), once_ne (show 8 ≠ 4 by omega), once_ne (show 9 ≠ 4 by omega), nb, Res.ok_bind,
        W _ _ _ hdl hlt, Res.pure_eq, Spec.mixed, hw, show (4 : Nat) ≤ 5 by omega]
    · simp only [he, if_false, if_true, once_ne (show 5 ≠ 4 by omega), once_ne (show 6 ≠ 4 by omega),
        once_ne (show 7 ≠ 4 by omega), once_ne (show 8 ≠ 4 by omega), once_ne (show 9 ≠ 4 by omega), nb2, Res.ok_bind,
        W _ _ _ ((put_length _ _ _ _).trans hdl) hlt2, Res.pure_eq, Spec.mixed, hw, show (4 : Nat) ≤ 5 by omega, show (4 : Nat) ≠ 3 by omega]
  · simp only [once_ne (show 3 ≠ 5 by omega), once_ne (show 4 ≠ 5 by omega), hw, nb, Res.ok_bind, once_eq, A]
    by_cases he : y = old
    · simp only [he, if_true, once_ne (show 6 ≠ 5 by omega),
        once_ne (show 7 ≠ 5 by omega), once_ne (show 8 ≠ 5 by omega), once_ne (show 9 ≠ 5 by omega),
        W _ _ _ hdl hlt, Res.pure_eq, Spec.mixed, hw, show (5 : Nat) ≤ 5 by omega]
    · simp only [he, if_false, if_true, once_ne (show 6 ≠ 5 by omega),
        once_ne (show 7 ≠ 5 by omega), once_ne (show 8 ≠ 5 by omega), once_ne (show 9 ≠ 5 by omega),
        W _ _ _ ((put_length _ _ _ _).trans hdl) hlt, Res.pure_eq, Spec.mixed, hw, show (5 : Nat) ≤ 5 by omega, show (5 : Nat) ≠ 3 by omega,
        show (5 : Nat) ≠ 4 by omega]
  · simp only [once_ne (show 3 ≠ 6 by omega), once_ne (show 4 ≠ 6 by omega), hw, nb, Res.ok_bind, once_ne (show 5 ≠ 6 by omega), once_eq, B]
    by_cases he : y = stale
    · simp only [he, if_true, once_ne (show 7 ≠ 6 by omega), once_ne (show 8 ≠ 6 by omega), once_ne (show 9 ≠ 6 by omega),
        W _ _ _ hdl hlt, Res.pure_eq, Spec.mixed, hw, show ¬ (6 : Nat) ≤ 5 by omega, if_false]
    · simp only [he, if_false, if_true, once_ne (show 7 ≠ 6 by omega), once_ne (show 8 ≠ 6 by omega), once_ne (show 9 ≠ 6 by omega),
        W _ _ _ ((put_length _ _ _ _).trans hdl) hlt2, Res.pure_eq, Spec.mixed, hw, show ¬ (6 : Nat) ≤ 5 by omega, show (6 : Nat) ≠ 3 by omega,
        show (6 : Nat) ≠ 4 by omega, show (6 : Nat) ≠ 5 by omega]
  · simp only [once_ne (show 3 ≠ 7 by omega), once_ne (show 4 ≠ 7 by omega), hw, nb, Res.ok_bind, once_ne (show 5 ≠ 7 by omega), once_ne (show 6 ≠ 7 by omega), once_eq, B]
    by_cases he : y = stale
    · simp only [he, if_true, once_ne (show 8 ≠ 7 by omega), once_ne (show 9 ≠ 7 by omega),
        W _ _ _ hdl hlt, Res.pure_eq, Spec.mixed, hw, show ¬ (7 : Nat) ≤ 5 by omega, if_false]
    · simp only [he, if_false, if_true, once_ne (show 8 ≠ 7 by omega), once_ne (show 9 ≠ 7 by omega),
        W _ _ _ ((put_length _ _ _ _).trans hdl) hlt, Res.pure_eq, Spec.mixed, hw, show ¬ (7 : Nat) ≤ 5 by omega, show (7 : Nat) ≠ 3 by omega,
        show (7 : Nat) ≠ 4 by omega, show (7 : Nat) ≠ 5 by omega, show (7 : Nat) ≠ 6 by omega]
  · simp only [once_ne (show 3 ≠ 8 by omega), once_ne (show 4 ≠ 8 by omega), hw, nb, Res.ok_bind, once_ne (show 5 ≠ 8 by omega), once_ne (show 6 ≠ 8 by omega), once_ne (show 7 ≠ 8 by omega), once_eq, B]
    by_cases he : y = stale
    · simp only [he, if_true, once_ne (show 9 ≠ 8 by omega),
        W _ _ _ hdl hlt, Res.pure_eq, Spec.mixed, hw, show ¬ (8 : Nat) ≤ 5 by omega, if_false]
    · simp only [he, if_false, once_ne (show 9 ≠ 8 by omega),
        W _ _ _ ((put_length _ _ _ _).trans hdl) hlt, Res.pure_eq, Spec.mixed, hw, show ¬ (8 : Nat) ≤ 5 by omega, show (8 : Nat) ≠ 3 by omega,
        show (8 : Nat) ≠ 4 by omega, show (8 : Nat) ≠ 5 by omega, show (8 : Nat) ≠ 6 by omega, show (8 : Nat) ≠ 7 by omega]

/-- The points 0 to 2 and 9: the handler's write comes before the call, between the check and the rest, or after the call. -/
theorem once_early {size n len : Nat} {s : List Block × Wlm} {old : List Byte} (hn : n < 256) (h0 : 0 < len) (hl : len ≤ size)
    (h : Holds size n len s old) {x y : List Byte} (hx : x.length = len) (hy : y.length = len) (t : Nat) (ht : t ≤ 2 ∨ t = 9)
    (hc : x = old → t ≤ 2) :
    writeI (flash size) (onceAt t (wrH size y)) s x = .ok
      (if t = 0 ∨ (t = 1 ∧ n = 1) then wrH size x (wrH size y s)
       else if t = 9 then wrH size y (adv s x)
       else if x = old then wrH size y s else adv (wrH size y s) x, 0) := by
  have hr := holds_read hl h
  rw [read] at hr
  have hw : ∃ z, Holds size n len (wrH size y s) z := by
    rw [wrH_eq hn h0 hl h hy]
    split_ifs
    · exact ⟨old, h⟩
    · exact ⟨y, holds_adv hl h hy⟩
  obtain ⟨z, hz⟩ := hw
  have hrz := holds_read hl hz
  rw [read] at hrz
  have t4 : t = 0 ∨ t = 1 ∨ t = 2 ∨ t = 9 := by omega
  rcases t4 with rfl | rfl | rfl | rfl
  · rw [if_pos (Or.inl rfl), wrH_eq hn h0 hl hz hx]
    by_cases hxz : x = z
    · rw [writeI_same (by omega) (by rw [once_ne (by omega), once_eq, hx, hrz, hxz]), if_pos hxz, once_ne (by omega), once_ne (by omega), once_eq]
    · rw [writeI_other (old := z) (by omega) (by rw [once_ne (by omega), once_eq, hx, hrz]) hxz, if_neg hxz]
      rw [show onceAt 0 (wrH size y) 2 (onceAt 0 (wrH size y) 1 (onceAt 0 (wrH size y) 0 s)) = wrH size y s by
        rw [once_ne (by omega), once_ne (by omega), once_eq]]
      exact tail_quiet (by omega) hn hl hz hx
  · have e2 : onceAt 1 (wrH size y) 2 (onceAt 1 (wrH size y) 1 (onceAt 1 (wrH size y) 0 s)) = wrH size y s := by
      rw [once_ne (by omega), once_ne (show 0 ≠ 1 by omega), once_eq]
    have e1 : onceAt 1 (wrH size y) 1 (onceAt 1 (wrH size y) 0 s) = wrH size y s := by
      rw [once_ne (show 0 ≠ 1 by omega), once_eq]
    have e0 : onceAt 1 (wrH size y) 0 s = s := once_ne (by omega) s
    by_cases h1 : n = 1
    · rw [if_pos (Or.inr ⟨rfl, h1⟩), wrH_eq hn h0 hl hz hx]
      have hl0 : s.2.last = (wrH size y s).2.last := by
        rw [holds_iff] at h hz
        omega
      by_cases hxz : x = z
      · rw [writeI_same (by omega) (by rw [e1, e0, hl0, hx, hrz, hxz]), if_pos hxz, e2]
      · rw [writeI_other (old := z) (by omega) (by rw [e1, e0, hl0, hx, hrz]) hxz, if_neg hxz, e2]
        exact tail_quiet (by omega) hn hl hz hx
    · rw [if_neg (by omega), if_neg (by omega)]
      have hb : (flash size).readBlock (wrH size y s).1 s.2.last len = (0, old) := by
        rw [wrH_eq hn h0 hl h hy]
        split_ifs with he
        · exact hr
        · rw [holds_iff] at h
          obtain ⟨h1, h2, h3, h4⟩ := h
          have hlt := next_lt n _ h3
          have hnl : s.2.last ≠ next n s.2.last := by
            rw [next]
            split_ifs <;> omega
          refine flash_dat (fits_put h1 _ _ _ (by omega)) hl ?_
          simp only [h2]
          rw [dat_put (by rw [h1.1]; exact hlt) _ hy, if_neg hnl, h4]
      by_cases hxo : x = old
      · rw [writeI_same (by omega) (by rw [e1, e0, hx, hb, hxo]), if_pos hxo, e2]
      · rw [writeI_other (old := old) (by omega) (by rw [e1, e0, hx, hb]) hxo, if_neg hxo, e2]
        exact tail_quiet (by omega) hn hl hz hx
  · have e1 : onceAt 2 (wrH size y) 1 (onceAt 2 (wrH size y) 0 s) = s := by
      rw [once_ne (by omega), once_ne (by omega)]
    have e0 : onceAt 2 (wrH size y) 0 s = s := once_ne (by omega) s
    rw [if_neg (by omega), if_neg (by omega)]
    by_cases hxo : x = old
    · rw [writeI_same (by omega) (by rw [e1, e0, hx, hr, hxo]), if_pos hxo, e1, once_eq]
    · rw [writeI_other (old := old) (by omega) (by rw [e1, e0, hx, hr]) hxo, if_neg hxo, e1, once_eq]
      exact tail_quiet (by omega) hn hl hz hx
  · have e1 : onceAt 9 (wrH size y) 1 (onceAt 9 (wrH size y) 0 s) = s := by
      rw [once_ne (by omega), once_ne (by omega)]
    have e0 : onceAt 9 (wrH size y) 0 s = s := once_ne (by omega) s
    have hxo : x ≠ old := fun h => absurd (hc h) (by omega)
    rw [if_neg (by omega), if_pos rfl, writeI_other (old := old) (by omega) (by rw [e1, e0, hx, hr]) hxo, e1, once_ne (by omega)]
    rw [holds_iff] at h
    obtain ⟨hd, hw, ha, _⟩ := h
    have nb : nextBlock s.2.last n = .ok (next n s.2.last) := by rw [nextBlock_eq _ _ ha hn]; rfl
    have w1 := flash_put (size := size) (show next n s.2.last < s.1.length by rw [hd.1]; exact next_lt n _ ha) (s.2.marker + 1) (x := x) (by omega)
    rw [tailI]
    simp only [once_ne (show 3 ≠ 9 by omega), once_ne (show 4 ≠ 9 by omega), once_ne (show 5 ≠ 9 by omega), once_ne (show 6 ≠ 9 by omega),
      once_ne (show 7 ≠ 9 by omega), once_ne (show 8 ≠ 9 by omega), once_eq, hw, nb, Res.ok_bind, w1, Res.pure_eq, adv]

/-- After the write the active block holds one of the two records. -/
theorem once_holds {size n len : Nat} {s : List Block × Wlm} {old x y : List Byte} (hn : n < 256) (h0 : 0 < len) (hl : len ≤ size)
    (h : Holds size n len s old) (hx : x.length = len) (hy : y.length = len) {t : Nat} (ht : t ≤ 9) (hc : x = old → t ≤ 2) :
    ∃ s' r, writeI (flash size) (onceAt t (wrH size y)) s x = .ok (s', 0) ∧ Holds size n len s' r ∧ (r = x ∨ r = y) := by
  have hwr : ∀ {s : List Block × Wlm} {old x : List Byte}, Holds size n len s old → x.length = len → Holds size n len (wrH size x s) x := by
    intro s old x h hx
    rw [wrH_eq hn h0 hl h hx]
    split_ifs with he
    · rw [he]; exact h
    · exact holds_adv hl h hx
  by_cases he : t ≤ 2 ∨ t = 9
  · rw [once_early hn h0 hl h hx hy t he hc]
    have hy1 := hwr h hy
    split_ifs
    · exact ⟨_, x, rfl, hwr hy1 hx, Or.inl rfl⟩
    · exact ⟨_, y, rfl, hwr (holds_adv hl h hx) hy, Or.inr rfl⟩
    · exact ⟨_, y, rfl, hy1, Or.inr rfl⟩
    · exact ⟨_, x, rfl, holds_adv hl hy1 hx, Or.inl rfl⟩
  · have hne : x ≠ old := fun h => by have := hc h; omega
    have hh := h
    rw [holds_iff] at h
    obtain ⟨hd, hw, ha, hold⟩ := h
    have hn0 : 0 < n := by omega
    have hl1 := Nat.mod_lt (s.2.last + 1) hn0
    have hl2 := Nat.mod_lt ((s.2.last + 1) % n + 1) hn0
    obtain ⟨stale, hst⟩ := dat_some (len := len) hd hl1
    rw [C210_exact size n len s old stale x y hn h0 hl hh (flash_dat hd hl hst) hx hy hne t (by omega) (by omega)]
    simp only [holds_iff]
    have P1 : ∀ i m, i < n → dat len (put s.1 i m x) i = some x := by
      intro i m hi
      rw [dat_put (by rw [hd.1]; exact hi) _ hx, if_pos rfl]
    have P2 : ∀ i m j m', j < n → dat len (put (put s.1 i m y) j m' x) j = some x := by
      intro i m j m' hj
      rw [dat_put (by rw [put_length, hd.1]; exact hj) _ hx, if_pos rfl]
    have P3 : ∀ i m j m', i < n → j < n → ∃ r, dat len (put (put s.1 i m y) j m' x) i = some r ∧ (r = x ∨ r = y) := by
      intro i m j m' hi hj
      rw [dat_put (by rw [put_length, hd.1]; exact hj) _ hx, dat_put (by rw [hd.1]; exact hi) _ hy, if_pos rfl]
      split_ifs
      · exact ⟨x, rfl, Or.inl rfl⟩
      · exact ⟨y, rfl, Or.inr rfl⟩
    have F1 : ∀ i m, Fits size n (put s.1 i m x) := fun i m => fits_put hd _ _ _ (by omega)
    have F2 : ∀ i m j m', Fits size n (put (put s.1 i m y) j m' x) := fun i m j m' => fits_put (fits_put hd _ _ _ (by omega)) _ _ _ (by omega)
    simp only [Spec.mixed, hw]
    by_cases hq : if t ≤ 5 then y = old else y = stale
    · simp only [hq, if_true]
      exact ⟨_, x, rfl, ⟨F1 _ _, rfl, hl1, P1 _ _ hl1⟩, Or.inl rfl⟩
    simp only [hq, if_false]
    clear hq
    split_ifs
    · exact ⟨_, x, rfl, ⟨F2 _ _ _ _, rfl, hl2, P2 _ _ _ _ hl2⟩, Or.inl rfl⟩
    · exact ⟨_, x, rfl, ⟨F2 _ _ _ _, rfl, hl2, P2 _ _ _ _ hl2⟩, Or.inl rfl⟩
    · exact ⟨_, x, rfl, ⟨F2 _ _ _ _, rfl, hl1, P2 _ _ _ _ hl1⟩, Or.inl rfl⟩
    · exact ⟨_, x, rfl, ⟨F2 _ _ _ _, rfl, hl2, P2 _ _ _ _ hl2⟩, Or.inl rfl⟩
    · obtain ⟨r, hr, hr'⟩ := P3 (((s.2.last + 1) % n + 1) % n) (s.2.marker + 1 + 1) ((s.2.last + 1) % n) (s.2.marker + 1 + 1) hl2 hl1
      exact ⟨_, r, rfl, ⟨F2 _ _ _ _, rfl, hl2, hr⟩, hr'⟩
    · obtain ⟨r, hr, hr'⟩ := P3 (((s.2.last + 1) % n + 1) % n) (s.2.marker + 1 + 1) ((s.2.last + 1) % n) (s.2.marker + 1) hl2 hl1
      exact ⟨_, r, rfl, ⟨F2 _ _ _ _, rfl, hl2, hr⟩, hr'⟩

/-- **C210.** Whatever the point, both writes succeed and the memory then returns one of the two records. -/
theorem C210_running (size n len : Nat) (s : List Block × Wlm) (old x y : List Byte) (hn : n < 256) (h0 : 0 < len) (hl : len ≤ size)
    (h : Holds size n len s old) (hx : x.length = len) (hy : y.length = len) (t : Nat) (ht : t ≤ 9) (hc : x = old → t ≤ 2) :
    ∃ s' r, writeI (flash size) (onceAt t (wrH size y)) s x = .ok (s', 0) ∧ read (flash size) s'.1 s'.2 len = (0, r) ∧ (r = x ∨ r = y) := by
  obtain ⟨s', r, e, h1, h2⟩ := once_holds hn h0 hl h hx hy ht hc
  exact ⟨s', r, e, holds_read hl h1, h2⟩

/-- A block written before another one. -/
theorem put_comm {d : List Block} {i j : Nat} (hij : i ≠ j) (m m' : Byte) (x y : List Byte) :
    put (put d i m x) j m' y = put (put d j m' y) i m x := by
  have e1 : (put d i m x)[j]? = d[j]? := by
    rw [put]
    split
    · rw [List.getElem?_set_ne hij]
    · rfl
  have e2 : (put d j m' y)[i]? = d[i]? := by
    rw [put]
    split
    · rw [List.getElem?_set_ne (Ne.symm hij)]
    · rfl
  rw [put, e1, put.eq_1 (put d j m' y), e2, put, put]
  cases hi : d[i]? with
  | none => cases hj : d[j]? <;> rfl
  | some b =>
    cases hj : d[j]? with
    | none => rfl
    | some c => exact (List.set_comm _ _ hij)

/-- **C210** (partial). If the handler comes before the new marker is computed, or between the loading of the arguments and the call of
the callback, or after it, the memory is that of a history of writes with one of the two records in the end: everything proved about such
histories, as C44 about restarts, holds from then on. Missing: the points 3 to 7, for which it is false (`C210_lost_wrong`). -/
theorem C210_partial (size n len : Nat) (s : List Block × Wlm) (i : Ideal) (x y : List Byte) (hn2 : 2 ≤ n) (hn : n < 256) (h0 : 0 < len)
    (hl : len ≤ size) (h : Rel size n len s i) (hx : x.length = len) (hy : y.length = len) (t : Nat) (ht : t ≤ 2 ∨ t = 8 ∨ t = 9)
    (hc : x = i.data → t ≤ 2) :
    ∃ s' i', writeI (flash size) (onceAt t (wrH size y)) s x = .ok (s', 0) ∧ Rel size n len s' i' ∧ (i'.data = x ∨ i'.data = y) := by
  have hn0 : 0 < n := by omega
  have hwd : ∀ (i : Ideal) (x : List Byte), (i.write x).data = x := by
    intro i x
    rw [Ideal.write]
    split_ifs with he
    · exact he.symm
    · rfl
  by_cases he : t ≤ 2 ∨ t = 9
  · rw [once_early hn h0 hl h.1 hx hy t he hc]
    have hy1 := rel_wrH hn0 hn h0 hl h hy
    split_ifs
    · exact ⟨_, _, rfl, rel_wrH hn0 hn h0 hl hy1 hx, Or.inl (hwd _ _)⟩
    · exact ⟨_, _, rfl, rel_wrH hn0 hn h0 hl (rel_adv hn0 hn hl h hx) hy, Or.inr (hwd _ _)⟩
    · exact ⟨_, _, rfl, hy1, Or.inr (hwd _ _)⟩
    · exact ⟨_, _, rfl, rel_adv hn0 hn hl hy1 hx, Or.inl rfl⟩
  · have t8 : t = 8 := by omega
    subst t8
    have hne : x ≠ i.data := fun h => by have := hc h; omega
    have hh := h.1
    rw [holds_iff] at hh
    obtain ⟨hd, hw, ha, hold⟩ := hh
    have hl1 := next_lt n _ ha
    have hm1 := next_mod n _ ha
    have hm2 := next_mod n _ hl1
    obtain ⟨stale, hst⟩ := dat_some (len := len) hd hl1
    rw [C210_exact size n len s i.data stale x y hn h0 hl h.1 (by rw [← hm1]; exact flash_dat hd hl hst) hx hy hne 8 (by omega) (by omega)]
    simp only [Spec.mixed, hw, ← hm1, ← hm2]
    have r1 := rel_adv hn0 hn hl h hx
    have r2 := rel_adv hn0 hn hl r1 hy
    simp only [show ¬ (8 : Nat) ≤ 5 by omega, if_false]
    by_cases hys : y = stale
    · rw [if_pos hys]
      refine ⟨_, ⟨x, i.changes + 1⟩, rfl, ?_, Or.inl rfl⟩
      simp only [adv, hw] at r1
      exact r1
    · rw [if_neg hys]
      simp only [show (8 : Nat) ≠ 3 by omega, show (8 : Nat) ≠ 4 by omega, show (8 : Nat) ≠ 5 by omega, show (8 : Nat) ≠ 6 by omega,
        show (8 : Nat) ≠ 7 by omega, if_false]
      refine ⟨_, ⟨y, i.changes + 1 + 1⟩, rfl, ?_, Or.inr rfl⟩
      have hij : next n s.2.last ≠ next n (next n s.2.last) := by
        rw [next, next]
        split_ifs <;> omega
      rw [put_comm (Ne.symm hij)]
      simp only [adv, hw] at r2
      exact r2

/-- Initialization finds block `p` if the markers are consecutive up to it and not further. -/
theorem init_break {size n p : Nat} {d : List Block} (hd : Fits size n d) (hn : n < 256) (hp : p + 1 < n) (h1 : Consecutive d (p + 1))
    (h2 : ¬ Consecutive d (p + 2)) : ∃ w, init (flash size) d n = .ok w ∧ w.last = p ∧ w.n = n := by
  obtain ⟨q, b, w, e, q1, q2, q3, q4, _, _, q5, q6⟩ := C142_init size n d hd (by omega) hn
  have mono : ∀ {a b : Nat}, a ≤ b → Consecutive d b → Consecutive d a := fun hab h i hi => h i (by omega)
  have hq : q = p + 1 := by
    by_contra hne
    by_cases hlt : q < p + 1
    · exact q4 (by omega) (mono (by omega) h1)
    · exact h2 (mono (by omega) q3)
  refine ⟨w, e, ?_, q5⟩
  rw [q6, hq, if_neg (by omega)]
  omega

/-- Consecutive markers by the function. -/
theorem consecutive_iff {size n p : Nat} {d : List Block} (hd : Fits size n d) (hp : p ≤ n) :
    Consecutive d p ↔ ∀ i, i + 1 < p → mar d (i + 1) = (mar d i).map (· + 1) := by
  have hlen := hd.1
  constructor
  · intro h i hi
    have h1 : i < d.length := by omega
    have h2 : i + 1 < d.length := by omega
    have := h i hi _ _ (List.getElem?_eq_getElem h1) (List.getElem?_eq_getElem h2)
    rw [mar, mar, List.getElem?_eq_getElem h1, List.getElem?_eq_getElem h2]
    simp [this]
  · intro h i hi b c hb hc
    have := h i hi
    rw [mar, mar, hb, hc] at this
    simpa using this

/-- The markers of a memory after a history of writes. -/
theorem marked_mar {size n len : Nat} {s : List Block × Wlm} {b : Byte} (hh : Holds size n len s x) (h : Marked n s b) :
    (∀ j, j ≤ s.2.last → mar s.1 j = some (b + BitVec.ofNat 8 j)) ∧ ∀ j, s.2.last < j → mar s.1 j ≠ some (b + BitVec.ofNat 8 j) := by
  rw [holds_iff] at hh
  obtain ⟨hd, hw, ha, hold⟩ := hh
  have hlen := hd.1
  refine ⟨fun j hj => ?_, fun j hj hm => ?_⟩
  · have h1 : j < s.1.length := by omega
    rw [mar, List.getElem?_eq_getElem h1, Option.map_some, (h.2 j h1).2 hj]
  · by_cases h1 : j < s.1.length
    · rw [mar, List.getElem?_eq_getElem h1, Option.map_some] at hm
      injection hm with hm
      have := (h.2 j h1).1 hm
      omega
    · rw [mar, List.getElem?_eq_none (by omega)] at hm
      cases hm

/-- What a restart finds if the blocks up to the active one are as they were and the next one does not continue them. -/
theorem restart_old {size n len : Nat} {s : List Block × Wlm} {old : List Byte} {b : Byte} (hn : n < 256) (hl : len ≤ size)
    (hh : Holds size n len s old) (h : Marked n s b) (hlast : s.2.last + 1 < n) {d : List Block} (hd : Fits size n d)
    (h1 : ∀ j, j ≤ s.2.last → mar d j = mar s.1 j) (h2 : mar d (s.2.last + 1) ≠ some (s.2.marker + 1))
    (h3 : dat len d s.2.last = dat len s.1 s.2.last) :
    ∃ w, init (flash size) d n = .ok w ∧ read (flash size) d w len = (0, old) := by
  obtain ⟨g1, g2⟩ := marked_mar hh h
  have step : ∀ j, b + BitVec.ofNat 8 (j + 1) = b + BitVec.ofNat 8 j + 1 := by
    intro j
    rw [BitVec.add_assoc, BitVec.ofNat_add]
    rfl
  obtain ⟨w, e, hw, _⟩ := init_break hd hn hlast
    ((consecutive_iff hd (by omega)).2 fun j hj => by
      rw [h1 _ (by omega), h1 _ (by omega), g1 _ (by omega), g1 _ (by omega), step]
      rfl)
    (fun hc => by
      have := (consecutive_iff hd (by omega)).1 hc s.2.last (by omega)
      rw [h1 _ (Nat.le_refl _), g1 _ (Nat.le_refl _), ← h.1] at this
      exact h2 this)
  refine ⟨w, e, ?_⟩
  rw [read, hw]
  rw [holds_iff] at hh
  exact flash_dat hd hl (h3.trans hh.2.2.2)

/-- **C210**, where it fails: at the points 4 to 7 both writes succeed and the memory returns one of the records, but after a restart it
returns the record from before both of them; at point 3 it returns the handler's record, though the other one was the last. (At the points 6
and 7 if the handler's record is not the one in the next block, which it is compared with; at the others if it is not the old one.) -/
theorem C210_lost_wrong (size n len : Nat) (s : List Block × Wlm) (i : Ideal) (x y stale : List Byte) (hn : n < 256) (h0 : 0 < len)
    (hl : len ≤ size) (h : Rel size n len s i) (hx : x.length = len) (hy : y.length = len) (hne : x ≠ i.data)
    (hlast : i.changes % n + 2 < n) (hst : (flash size).readBlock s.1 ((s.2.last + 1) % n) len = (0, stale)) (t : Nat) (ht : 3 ≤ t) (ht' : t ≤ 7)
    (hyo : if t ≤ 5 then y ≠ i.data else y ≠ stale) :
    ∃ s' w, writeI (flash size) (onceAt t (wrH size y)) s x = .ok (s', 0) ∧
      read (flash size) s'.1 s'.2 len = (0, if t = 7 then y else x) ∧
      init (flash size) s'.1 n = .ok w ∧ read (flash size) s'.1 w len = (0, if t = 3 then y else i.data) := by
  obtain ⟨hh, hc, b, hm⟩ := h
  have hh' := hh
  rw [← hc] at hlast
  have ex := C210_exact size n len s i.data stale x y hn h0 hl hh hst hx hy hne t ht (by omega)
  rw [ex]
  clear ex
  rw [holds_iff] at hh'
  obtain ⟨hd, hw, ha, hold⟩ := hh'
  have hdl := hd.1
  have q1 : (s.2.last + 1) % n = s.2.last + 1 := Nat.mod_eq_of_lt (by omega)
  have q2 : (s.2.last + 1 + 1) % n = s.2.last + 2 := Nat.mod_eq_of_lt (by omega)
  have F2 : ∀ i m j m', Fits size n (put (put s.1 i m y) j m' x) := fun i m j m' => fits_put (fits_put hd _ _ _ (by omega)) _ _ _ (by omega)
  have M : ∀ i m j m' k, i < n → j < n → mar (put (put s.1 i m y) j m' x) k = if k = j then some m' else if k = i then some m else mar s.1 k := by
    intro i m j m' k hi hj
    rw [mar_put (by rw [put_length]; omega), mar_put (by omega)]
  have T : ∀ i m j m' k, i < n → j < n →
      dat len (put (put s.1 i m y) j m' x) k = if k = j then some x else if k = i then some y else dat len s.1 k := by
    intro i m j m' k hi hj
    rw [dat_put (by rw [put_length]; omega) _ hx, dat_put (by omega) _ hy]
  have m12 : s.2.marker + 1 + 1 ≠ s.2.marker + 1 := by
    intro hcon
    have := congrArg BitVec.toNat hcon
    simp at this
    omega
  obtain ⟨g1, g2⟩ := marked_mar hh hm
  have step : ∀ j, b + BitVec.ofNat 8 (j + 1) = b + BitVec.ofNat 8 j + 1 := by
    intro j
    rw [BitVec.add_assoc, BitVec.ofNat_add]
    rfl
  have t5 : t = 3 ∨ t = 4 ∨ t = 5 ∨ t = 6 ∨ t = 7 := by omega
  rcases t5 with rfl | rfl | rfl | rfl | rfl
  · simp only [show (3 : Nat) ≤ 5 by omega, if_true] at hyo
    simp only [Spec.mixed, show (3 : Nat) ≤ 5 by omega, if_true, hyo, if_false, hw, q1, q2, show (3 : Nat) ≠ 7 by omega]
    have f := F2 (s.2.last + 1) (s.2.marker + 1) (s.2.last + 2) (s.2.marker + 1)
    obtain ⟨w, e, hwl, _⟩ := init_break (p := s.2.last + 1) f hn (by omega)
      ((consecutive_iff f (by omega)).2 fun j hj => by
        rw [M _ _ _ _ _ (by omega) (by omega), M _ _ _ _ _ (by omega) (by omega), if_neg (by omega), if_neg (show j ≠ s.2.last + 2 by omega),
          if_neg (show j ≠ s.2.last + 1 by omega), g1 j (by omega)]
        split_ifs with hj'
        · rw [hm.1, show s.2.last = j by omega]; rfl
        · rw [g1 _ (by omega), step]; rfl)
      (fun hcon => by
        have := (consecutive_iff f (by omega)).1 hcon (s.2.last + 1) (by omega)
        rw [M _ _ _ _ _ (by omega) (by omega), M _ _ _ _ _ (by omega) (by omega), if_pos rfl, if_neg (by omega), if_pos rfl] at this
        injection this with this
        exact m12 this.symm)
    refine ⟨_, w, rfl, ?_, e, ?_⟩
    · exact flash_dat f hl (by rw [T _ _ _ _ _ (by omega) (by omega), if_pos rfl])
    · rw [read, hwl]
      exact flash_dat f hl (by rw [T _ _ _ _ _ (by omega) (by omega), if_neg (by omega), if_pos rfl])
  · simp only [show (4 : Nat) ≤ 5 by omega, if_true] at hyo
    simp only [Spec.mixed, show (4 : Nat) ≤ 5 by omega, if_true, hyo, if_false, hw, q1, q2, show (4 : Nat) ≠ 7 by omega, show (4 : Nat) ≠ 3 by omega]
    have f := F2 (s.2.last + 1) (s.2.marker + 1 + 1) (s.2.last + 2) (s.2.marker + 1 + 1)
    obtain ⟨w, e, hr⟩ := restart_old hn hl hh hm (by omega) f
      (fun j hj => by rw [M _ _ _ _ _ (by omega) (by omega), if_neg (by omega), if_neg (by omega)])
      (by
        rw [M _ _ _ _ _ (by omega) (by omega), if_neg (by omega), if_pos rfl]
        exact fun hcon => m12 (Option.some.inj hcon))
      (by rw [T _ _ _ _ _ (by omega) (by omega), if_neg (by omega), if_neg (by omega)])
    exact ⟨_, w, rfl, flash_dat f hl (by rw [T _ _ _ _ _ (by omega) (by omega), if_pos rfl]), e, hr⟩
  · simp only [show (5 : Nat) ≤ 5 by omega, if_true] at hyo
    simp only [Spec.mixed, show (5 : Nat) ≤ 5 by omega, if_true, hyo, if_false, hw, q1, q2, show (5 : Nat) ≠ 7 by omega, show (5 : Nat) ≠ 3 by omega,
      show (5 : Nat) ≠ 4 by omega]
    have f := F2 (s.2.last + 1) (s.2.marker + 1 + 1) (s.2.last + 1) (s.2.marker + 1 + 1)
    obtain ⟨w, e, hr⟩ := restart_old hn hl hh hm (by omega) f
      (fun j hj => by rw [M _ _ _ _ _ (by omega) (by omega), if_neg (by omega), if_neg (by omega)])
      (by
        rw [M _ _ _ _ _ (by omega) (by omega), if_pos rfl]
        exact fun hcon => m12 (Option.some.inj hcon))
      (by rw [T _ _ _ _ _ (by omega) (by omega), if_neg (by omega), if_neg (by omega)])
    exact ⟨_, w, rfl, flash_dat f hl (by rw [T _ _ _ _ _ (by omega) (by omega), if_pos rfl]), e, hr⟩
  · simp only [show ¬ (6 : Nat) ≤ 5 by omega, if_false] at hyo
    simp only [Spec.mixed, show ¬ (6 : Nat) ≤ 5 by omega, hyo, if_true, if_false, hw, q1, q2, show (6 : Nat) ≠ 7 by omega, show (6 : Nat) ≠ 3 by omega,
      show (6 : Nat) ≠ 4 by omega, show (6 : Nat) ≠ 5 by omega]
    have f := F2 (s.2.last + 2) (s.2.marker + 1 + 1) (s.2.last + 2) (s.2.marker + 1 + 1)
    obtain ⟨w, e, hr⟩ := restart_old hn hl hh hm (by omega) f
      (fun j hj => by rw [M _ _ _ _ _ (by omega) (by omega), if_neg (by omega), if_neg (by omega)])
      (by
        rw [M _ _ _ _ _ (by omega) (by omega), if_neg (by omega), if_neg (by omega), hm.1, ← step]
        exact g2 _ (by omega))
      (by rw [T _ _ _ _ _ (by omega) (by omega), if_neg (by omega), if_neg (by omega)])
    exact ⟨_, w, rfl, flash_dat f hl (by rw [T _ _ _ _ _ (by omega) (by omega), if_pos rfl]), e, hr⟩
  · simp only [show ¬ (7 : Nat) ≤ 5 by omega, if_false] at hyo
    simp only [Spec.mixed, show ¬ (7 : Nat) ≤ 5 by omega, hyo, if_true, if_false, hw, q1, q2, show (7 : Nat) ≠ 3 by omega,
      show (7 : Nat) ≠ 4 by omega, show (7 : Nat) ≠ 5 by omega, show (7 : Nat) ≠ 6 by omega]
    have f := F2 (s.2.last + 2) (s.2.marker + 1 + 1) (s.2.last + 1) (s.2.marker + 1 + 1)
    obtain ⟨w, e, hr⟩ := restart_old hn hl hh hm (by omega) f
      (fun j hj => by rw [M _ _ _ _ _ (by omega) (by omega), if_neg (by omega), if_neg (by omega)])
      (by
        rw [M _ _ _ _ _ (by omega) (by omega), if_pos rfl]
        exact fun hcon => m12 (Option.some.inj hcon))
      (by rw [T _ _ _ _ _ (by omega) (by omega), if_neg (by omega), if_neg (by omega)])
    exact ⟨_, w, rfl, flash_dat f hl (by rw [T _ _ _ _ _ (by omega) (by omega), if_neg (show s.2.last + 2 ≠ s.2.last + 1 by omega), if_pos rfl]), e, hr⟩

/-- **C210.** With one block a restart changes nothing, whatever the point. -/
theorem C210_one (size len : Nat) (s : List Block × Wlm) (old x y : List Byte) (h0 : 0 < len) (hl : len ≤ size) (h : Holds size 1 len s old)
    (hx : x.length = len) (hy : y.length = len) (t : Nat) (ht : t ≤ 9) (hc : x = old → t ≤ 2) :
    ∃ s' w r, writeI (flash size) (onceAt t (wrH size y)) s x = .ok (s', 0) ∧ init (flash size) s'.1 1 = .ok w ∧
      read (flash size) s'.1 s'.2 len = (0, r) ∧ read (flash size) s'.1 w len = (0, r) ∧ (r = x ∨ r = y) := by
  obtain ⟨s', r, e, h1, h2⟩ := once_holds (by omega) h0 hl h hx hy ht hc
  have hr := holds_read hl h1
  obtain ⟨p, b, w, e', p1, p2, _, _, _, _, _, p3⟩ := C142_init size 1 s'.1 h1.1 (by omega) (by omega)
  have hs := (holds_iff.1 h1).2.2.1
  refine ⟨s', w, r, e, e', hr, ?_, h2⟩
  rw [read, show w.last = s'.2.last by rw [p3, if_pos (by omega)]; omega]
  exact hr

/-- Four blocks of which the first holds 1; the record 2 is written, and at the different points the handler writes 3: what is read
before and after a restart. -/
example : ((List.range 10).map fun t =>
    match writeI (flash 1) (onceAt t (wrH 1 [3])) ([⟨7, [1]⟩, ⟨0, [0]⟩, ⟨0, [0]⟩, ⟨0, [0]⟩], ⟨4, 0, 7⟩) [2] with
    | .ok (s, _) =>
      match init (flash 1) s.1 4 with
      | .ok w => some (read (flash 1) s.1 s.2 1, read (flash 1) s.1 w 1)
      | _ => none
    | _ => none) =
    [some ((0, [2]), (0, [2])), some ((0, [2]), (0, [2])), some ((0, [2]), (0, [2])), some ((0, [2]), (0, [3])), some ((0, [2]), (0, [1])),
      some ((0, [2]), (0, [1])), some ((0, [2]), (0, [1])), some ((0, [3]), (0, [1])), some ((0, [3]), (0, [3])),
      some ((0, [3]), (0, [3]))] := by decide

end Gel.Wear
