import Verif.Debounce.IsrFilter

/-!
# Debounce: levels set by an interrupt handler (C238)

`debounce_filter_single` as a sequence of accesses (`singleI`), with a handler at one of its points that calls `debounce_filter_set`; and
`debounce_filter_set` with a handler between its two stores that samples an input.
-/
namespace Gel.Debounce

variable {w : Nat}

/-- One input after its level was set. -/
def Bit.setTo (s : Bit w) (u : Bool) : Bit w := ⟨u, u, s.cnt⟩

/-- The sampled input, with `u` set at the point `k` of the call: its part of the filter and whether a change is reported. -/
def Bit.own (s : Bit w) (b : Bool) (d : BitVec w) (u : Bool) (k : Nat) : Bit w × Bool :=
  if k = 0 then ((s.setTo u).next b d, (s.setTo u).flips b d)
  else if s.flips b d then (if k ≤ (if s.cnt = 0 then 5 else 6) then ⟨b, b, 0⟩ else ⟨b, u, 0⟩, true)
  else ((s.next b d).setTo u, false)

/-- Another input, with `u` set at the point `k` of the call; `s` is the sampled one. -/
def Bit.other (s : Bit w) (b : Bool) (d : BitVec w) (k : Nat) (s' : Bit w) (u : Bool) : Bit w :=
  if s.flips b d ∧ k = (if s.cnt = 0 then 5 else 6) then { s'.setTo u with buf := s'.buf }
  else if s.flips b d ∧ k = (if s.cnt = 0 then 7 else 8) then { s'.setTo u with old := s'.old }
  else s'.setTo u

theorem bit_set (f : Filter w) (v : BitVec w) (j : Nat) : bit (set f v) j = (bit f j).setTo (v.getLsbD j) := rfl

/-- **C238**, exact: `debounce_filter_single` for input `i` with a `debounce_filter_set` at any of its points. -/
theorem C238_exact {i : Nat} (hi : i < w) (f : Filter w) (hl : f.count.length = w) (v x d : BitVec w) (b : Bool)
    (hb : bool x = if b then 1 else 0) (k : Nat) (hk : k < points (bit f i) b d) :
    ∃ r c, singleI (onceAt k (set · v)) f x i d = .ok (r, c) ∧ r.count.length = w ∧
      bit r i = ((bit f i).own b d (v.getLsbD i) k).1 ∧
      (∀ j < w, j ≠ i → bit r j = (bit f i).other b d k (bit f j) (v.getLsbD j)) ∧
      ∀ j < w, c.getLsbD j = (decide (j = i) && ((bit f i).own b d (v.getLsbD i) k).2) := by
  have hw := Nat.zero_lt_of_lt hi
  by_cases h0 : k = 0
  · subst h0
    have e : singleI (onceAt 0 (set · v)) f x i d = singleI (fun _ f => f) (set f v) x i d := by
      simp only [singleI, changeI, onceAt]
      rfl
    rw [e, C215_quiet (set f v) x i d hi hl]
    obtain ⟨r, c, e, l, p, q⟩ := filterSingle_eq true (set f v) x i d b hb hi hl (Or.inl rfl)
    refine ⟨r, c, e, l, ?_, ?_, ?_⟩
    · rw [p i hi, if_pos rfl, bit_set]; simp [Bit.own]
    · intro j hj hji
      rw [p j hj, if_neg hji, bit_set, Bit.other, if_neg, if_neg]
      · rintro ⟨-, h⟩; split at h <;> cases h
      · rintro ⟨-, h⟩; split at h <;> cases h
    · intro j hj
      rw [q j hj, bit_set]; simp [Bit.own]
  have hil : i < f.count.length := by omega
  choose put h1 h2 using fun y => setNth_eq true y i x b hb hi (Or.inl rfl)
  obtain ⟨one, h3, h4⟩ := setNth_eq true (0 : BitVec w) i 1 true (by simpa using bool_ite (w := w) true) hi (Or.inl rfl)
  have hrd : ∀ y, rd (f.count.set i y) i = .ok y := by
    intro y
    rw [rd_getD _ _ (by simpa using hil), getD_set _ _ _ _ hil, if_pos rfl]
  have hcnt : f.count.getD i 0 = (bit f i).cnt := rfl
  have hold : f.oldInput.getLsbD i = (bit f i).old := rfl
  generalize bit f i = s at *
  by_cases ho : b = s.old
  · have hf : s.flips b d = false := by simp [Bit.flips, ho]
    rw [points, if_pos ho] at hk
    have : k = 1 := by omega
    subst this
    refine ⟨{ set f v with count := f.count.set i 0 }, 0, ?_, by simpa [set] using hl, ?_, ?_, ?_⟩
    · simp [singleI, onceAt, nth_eq _ _ hi, hb, ite_inj hw, hold, ho, wr, hil, set]
    · simp only [Bit.own, hf]
      simp [Bit.next, ho, Bit.setTo, bit, set, hil]
    · intro j hj hji
      simp only [Bit.other, hf, Bit.setTo, bit, set]
      rw [getD_set _ _ _ _ hil, if_neg hji]
      simp
    · intro j hj
      simp [Bit.own, hf]
  · rw [points, if_neg ho] at hk
    have hne : ¬ ((if b = true then 1#w else 0#w) = if s.old = true then 1#w else 0#w) := fun h => ho ((ite_inj hw _ _).1 h)
    have h3' : setNth true 0#w i 1#w = .ok one := h3
    have hrdi : rd f.count i = .ok s.cnt := by rw [rd_getD _ _ hil, hcnt]
    generalize hs : (if s.cnt = 0 then d else s.cnt - 1) = c at *
    have hf : s.flips b d = (c == 0) := by rw [Bit.flips, hs]; simp [ho]
    have hnx : s.next b d = if c = 0 then ⟨b, b, 0⟩ else { s with cnt := c } := by
      rw [Bit.next, if_neg ho, hs]
    -- the result, from that of the accesses
    have fin : ∀ (o p : BitVec w), (∀ j < w, j ≠ i → (⟨o.getLsbD j, p.getLsbD j, (bit f j).cnt⟩ : Bit w) = s.other b d k (bit f j) (v.getLsbD j)) →
        (⟨o.getLsbD i, p.getLsbD i, c⟩ : Bit w) = (s.own b d (v.getLsbD i) k).1 →
        singleI (onceAt k (set · v)) f x i d = .ok (⟨o, p, f.count.set i c⟩, if c = 0 then one else 0) →
        ∃ r c, singleI (onceAt k (set · v)) f x i d = .ok (r, c) ∧ r.count.length = w ∧
          bit r i = (s.own b d (v.getLsbD i) k).1 ∧
          (∀ j < w, j ≠ i → bit r j = s.other b d k (bit f j) (v.getLsbD j)) ∧
          ∀ j < w, c.getLsbD j = (decide (j = i) && (s.own b d (v.getLsbD i) k).2) := by
      intro o p a1 a2 a3
      refine ⟨_, _, a3, by simpa using hl, ?_, ?_, ?_⟩
      · rw [← a2, bit]
        simp only
        rw [getD_set _ _ _ _ hil, if_pos rfl]
      · intro j hj hji
        rw [← a1 j hj hji, bit]
        simp only
        rw [getD_set _ _ _ _ hil, if_neg hji]
        rfl
      · intro j hj
        simp only [Bit.own, if_neg h0, hf]
        by_cases hc : c = 0#w
        · simp [hc, h4 j hj]
        · simp [hc]
    by_cases hz : s.cnt = 0#w
    · rw [if_pos (show s.cnt = 0 from hz)] at hk hs
      subst hs
      by_cases hc : d = 0#w
      · have hf : s.flips b d = true := by rw [hf, hc]; rfl
        have hk' : (k = 1 ∨ k = 2 ∨ k = 3 ∨ k = 4) ∨ k = 5 ∨ k = 6 ∨ k = 7 := by simp [hf] at hk; omega
        rcases hk' with hk' | rfl | rfl | rfl
        · refine fin (put v) (put v) ?_ ?_ ?_
          · intro j hj hji
            rcases hk' with rfl | rfl | rfl | rfl <;> simp [Bit.other, hf, hz, Bit.setTo, h2 _ j hj, hji]
          · rcases hk' with rfl | rfl | rfl | rfl <;> (simp only [Bit.own, hf]; simp [hz, h2 _ i hi, hc])
          · rcases hk' with rfl | rfl | rfl | rfl <;>
              simp [singleI, changeI, onceAt, nth_eq _ _ hi, hb, hold, hne, wr, hil, set, hrdi, hz, hrd, hc, h1, h3']
        · refine fin (put v) (put f.buffered) ?_ ?_ ?_
          · intro j hj hji
            simp [Bit.other, hf, hz, Bit.setTo, h2 _ j hj, hji, bit]
          · (simp only [Bit.own, hf]; simp [hz, h2 _ i hi, hc])
          · simp [singleI, changeI, onceAt, nth_eq _ _ hi, hb, hold, hne, wr, hil, set, hrdi, hz, hrd, hc, h1, h3']
        · refine fin (put v) v ?_ ?_ ?_
          · intro j hj hji
            simp [Bit.other, hf, hz, Bit.setTo, h2 _ j hj, hji]
          · (simp only [Bit.own, hf]; simp [hz, h2 _ i hi, hc])
          · simp [singleI, changeI, onceAt, nth_eq _ _ hi, hb, hold, hne, wr, hil, set, hrdi, hz, hrd, hc, h1, h3']
        · refine fin (put f.oldInput) v ?_ ?_ ?_
          · intro j hj hji
            simp [Bit.other, hf, hz, Bit.setTo, h2 _ j hj, hji, bit]
          · (simp only [Bit.own, hf]; simp [hz, h2 _ i hi, hc])
          · simp [singleI, changeI, onceAt, nth_eq _ _ hi, hb, hold, hne, wr, hil, set, hrdi, hz, hrd, hc, h1, h3']
      · have hk' : k = 1 ∨ k = 2 ∨ k = 3 := by simp [hf, hc] at hk; omega
        refine fin v v ?_ ?_ ?_
        · intro j hj hji
          simp [Bit.other, hf, hc, Bit.setTo]
        · (simp only [Bit.own, hf, hnx]; simp [h0, hc, Bit.setTo])
        · rcases hk' with rfl | rfl | rfl <;>
            simp [singleI, changeI, onceAt, nth_eq _ _ hi, hb, hold, hne, wr, hil, set, hrdi, hz, hrd, hc, h1, h3']
    · rw [if_neg (show ¬ s.cnt = 0 from hz)] at hk hs
      have hs : s.cnt - 1#w = c := hs
      have hp : 0#w < s.cnt := (BitVec.pos_iff_ne_zero _).2 hz
      by_cases hc : c = 0#w
      · have hf : s.flips b d = true := by rw [hf, hc]; rfl
        have hk' : (k = 1 ∨ k = 2 ∨ k = 3 ∨ k = 4 ∨ k = 5) ∨ k = 6 ∨ k = 7 ∨ k = 8 := by simp [hf] at hk; omega
        rcases hk' with hk' | rfl | rfl | rfl
        · refine fin (put v) (put v) ?_ ?_ ?_
          · intro j hj hji
            rcases hk' with rfl | rfl | rfl | rfl | rfl <;> simp [Bit.other, hf, hz, Bit.setTo, h2 _ j hj, hji]
          · rcases hk' with rfl | rfl | rfl | rfl | rfl <;> (simp only [Bit.own, hf]; simp [hz, h2 _ i hi, hc])
          · rcases hk' with rfl | rfl | rfl | rfl | rfl <;>
              simp [singleI, changeI, onceAt, nth_eq _ _ hi, hb, hold, hne, wr, hil, set, hrdi, hz, hp, hs, hrd, hc, h1, h3']
        · refine fin (put v) (put f.buffered) ?_ ?_ ?_
          · intro j hj hji
            simp [Bit.other, hf, hz, Bit.setTo, h2 _ j hj, hji, bit]
          · (simp only [Bit.own, hf]; simp [hz, h2 _ i hi, hc])
          · simp [singleI, changeI, onceAt, nth_eq _ _ hi, hb, hold, hne, wr, hil, set, hrdi, hz, hp, hs, hrd, hc, h1, h3']
        · refine fin (put v) v ?_ ?_ ?_
          · intro j hj hji
            simp [Bit.other, hf, hz, Bit.setTo, h2 _ j hj, hji]
          · (simp only [Bit.own, hf]; simp [hz, h2 _ i hi, hc])
          · simp [singleI, changeI, onceAt, nth_eq _ _ hi, hb, hold, hne, wr, hil, set, hrdi, hz, hp, hs, hrd, hc, h1, h3']
        · refine fin (put f.oldInput) v ?_ ?_ ?_
          · intro j hj hji
            simp [Bit.other, hf, hz, Bit.setTo, h2 _ j hj, hji, bit]
          · (simp only [Bit.own, hf]; simp [hz, h2 _ i hi, hc])
          · simp [singleI, changeI, onceAt, nth_eq _ _ hi, hb, hold, hne, wr, hil, set, hrdi, hz, hp, hs, hrd, hc, h1, h3']
      · have hk' : k = 1 ∨ k = 2 ∨ k = 3 ∨ k = 4 := by simp [hf, hc] at hk; omega
        refine fin v v ?_ ?_ ?_
        · intro j hj hji
          simp [Bit.other, hf, hc, Bit.setTo]
        · (simp only [Bit.own, hf, hnx]; simp [h0, hc, Bit.setTo])
        · rcases hk' with rfl | rfl | rfl | rfl <;>
            simp [singleI, changeI, onceAt, nth_eq _ _ hi, hb, hold, hne, wr, hil, set, hrdi, hz, hp, hs, hrd, hc, h1, h3']

/-- The points from the load of the reported levels to the store of the stored levels, if the level changes. -/
def crossed (s : Bit w) (b : Bool) (d : BitVec w) : List Nat :=
  if s.flips b d then (if s.cnt = 0 then [5, 6, 7] else [6, 7, 8]) else []

theorem next_flips {s : Bit w} {b : Bool} {d : BitVec w} (h : s.flips b d = true) : s.next b d = ⟨b, b, 0⟩ ∧ b ≠ s.old := by
  have ho : b ≠ s.old := by intro e; simp [Bit.flips, e] at h
  rw [Bit.flips, Bool.and_eq_true, beq_iff_eq] at h
  refine ⟨?_, ho⟩
  rw [Bit.next, if_neg ho]
  simp only
  rw [if_pos h.2]

/-- Setting the level it has. -/
theorem setTo_old {s : Bit w} {b : Bool} {d : BitVec w} (h : s.flips b d = true) :
    (s.setTo s.old).next b d = ⟨b, b, 0⟩ ∧ (s.setTo s.old).flips b d = true := by
  have : (s.setTo s.old).flips b d = true := h
  exact ⟨(next_flips this).1, this⟩

theorem eq_of_bits {r g : Filter w} {c c' : BitVec w} (lr : r.count.length = w) (lg : g.count.length = w)
    (h : ∀ j < w, bit r j = bit g j) (hc : ∀ j < w, c.getLsbD j = c'.getLsbD j) : (r, c) = (g, c') := by
  rw [ext_bits lr lg h]
  congr 1
  ext l hl
  rw [← BitVec.getLsbD_eq_getElem, ← BitVec.getLsbD_eq_getElem, hc l hl]

/-- **C238**, proved part: a `debounce_filter_single` in the midst of which a handler calls `debounce_filter_set` has the effect and the
result of the two calls one after the other, in one of both orders, unless the level changes and the handler comes from the load of the
reported levels to the store of the stored ones. Missing: these three points, for which it is false. -/
theorem C238_partial {i : Nat} (hi : i < w) (f : Filter w) (hl : f.count.length = w) (v x d : BitVec w) (b : Bool)
    (hb : bool x = if b then 1 else 0) (k : Nat) (hk : k < points (bit f i) b d) (hn : k ∉ crossed (bit f i) b d) :
    singleI (onceAt k (set · v)) f x i d = filterSingle true (set f v) x i d ∨
    singleI (onceAt k (set · v)) f x i d = (do
      let r ← filterSingle true f x i d
      pure (set r.1 v, r.2)) := by
  obtain ⟨r, c, e, lr, p1, p2, p3⟩ := C238_exact hi f hl v x d b hb k hk
  obtain ⟨g, c1, e1, l1, q1, q2⟩ := filterSingle_eq true (set f v) x i d b hb hi hl (Or.inl rfl)
  obtain ⟨g', c1', e1', l1', q1', q2'⟩ := filterSingle_eq true f x i d b hb hi hl (Or.inl rfl)
  have hoth : ∀ j < w, j ≠ i → bit r j = (bit f j).setTo (v.getLsbD j) := by
    intro j hj hji
    rw [p2 j hj hji, Bit.other, if_neg, if_neg]
    · rintro ⟨h1, h2⟩
      refine hn ?_
      rw [crossed, if_pos h1]
      split_ifs at h2 ⊢ <;> simp [h2]
    · rintro ⟨h1, h2⟩
      refine hn ?_
      rw [crossed, if_pos h1]
      split_ifs at h2 ⊢ <;> simp [h2]
  rw [e, e1, e1']
  -- both orders, from what becomes of the sampled input
  have first : ((bit f i).own b d (v.getLsbD i) k) = (((bit f i).setTo (v.getLsbD i)).next b d, ((bit f i).setTo (v.getLsbD i)).flips b d) →
      Res.ok (r, c) = Res.ok (g, c1) := by
    intro h
    rw [h] at p1 p3
    congr 1
    refine eq_of_bits lr l1 (fun j hj => ?_) (fun j hj => ?_)
    · rw [q1 j hj]
      by_cases hji : j = i
      · subst hji; rw [if_pos rfl, p1]; rfl
      · rw [if_neg hji, hoth j hj hji]; rfl
    · rw [p3 j hj, q2 j hj]; rfl
  have second : ((bit f i).own b d (v.getLsbD i) k) = (((bit f i).next b d).setTo (v.getLsbD i), (bit f i).flips b d) →
      Res.ok (r, c) = Res.ok (set g' v, c1') := by
    intro h
    rw [h] at p1 p3
    congr 1
    refine eq_of_bits lr l1' (fun j hj => ?_) (fun j hj => ?_)
    · rw [bit_set, q1' j hj]
      by_cases hji : j = i
      · subst hji; rw [if_pos rfl, p1]
      · rw [if_neg hji, hoth j hj hji]
    · rw [p3 j hj, q2' j hj]
  by_cases h0 : k = 0
  · exact Or.inl (first (by rw [Bit.own, if_pos h0]))
  · cases hf : (bit f i).flips b d with
    | false => exact Or.inr (second (by rw [Bit.own, if_neg h0, hf]; rfl))
    | true =>
      obtain ⟨hnx, ho⟩ := next_flips hf
      have hle : k ≤ (if (bit f i).cnt = 0 then 5 else 6) := by
        rw [crossed, if_pos hf] at hn
        rw [points, if_neg ho, if_pos hf] at hk
        split_ifs at hn hk ⊢ <;> simp at hn <;> omega
      have hown : (bit f i).own b d (v.getLsbD i) k = (⟨b, b, 0⟩, true) := by
        rw [Bit.own, if_neg h0, if_pos hf, if_pos hle]
      by_cases hv : v.getLsbD i = b
      · exact Or.inr (second (by rw [hown, hnx, hv, hf]; rfl))
      · have hu : v.getLsbD i = (bit f i).old := by
          cases h1 : v.getLsbD i <;> cases h2 : (bit f i).old <;> cases b <;> simp_all
        exact Or.inl (first (by rw [hown, hu, (setTo_old hf).1, (setTo_old hf).2]))

theorem read_eq {j : Nat} (hj : j < w) (x : Filter w) {y : Bool} (h : (bit x j).buf = y) : read x j = .ok (if y then 1 else 0) := by
  rw [read, if_neg (by omega), nth_eq _ _ hj, show x.buffered.getLsbD j = y from h]
  cases y
  · simp
  · simp only [if_true, Res.ok_bind, Res.pure_eq, one_toNat (Nat.zero_lt_of_lt hj)]; rfl

/-- **C238**, where it fails: set between the load and the store of the reported levels, another input `j` that was reported with the
other level goes on being reported with it, for any number of samples with the level that was set. -/
theorem C238_stuck_wrong {i j : Nat} (hi : i < w) (hj : j < w) (hij : j ≠ i) (f : Filter w) (hl : f.count.length = w) (v x d : BitVec w)
    (b : Bool) (hb : bool x = if b then 1 else 0) (hf : (bit f i).flips b d = true) (hv : v.getLsbD j ≠ (bit f j).buf)
    (l : List (BitVec w × BitVec w)) (hs : ∀ y ∈ l, y.1.getLsbD j = v.getLsbD j) :
    ∃ r c g, singleI (onceAt (if (bit f i).cnt = 0 then 5 else 6) (set · v)) f x i d = .ok (r, c) ∧ samples r l = .ok g ∧
      read (set f v) j = .ok (if v.getLsbD j then 1 else 0) ∧ read g j = .ok (if v.getLsbD j then 0 else 1) := by
  have hk : (if (bit f i).cnt = 0 then 5 else 6) < points (bit f i) b d := by
    rw [points, if_neg (next_flips hf).2, if_pos hf]; split <;> decide
  obtain ⟨r, c, e, lr, p1, p2, p3⟩ := C238_exact hi f hl v x d b hb _ hk
  have hr : bit r j = { (bit f j).setTo (v.getLsbD j) with buf := (bit f j).buf } := by
    rw [p2 j hj hij, Bit.other, if_pos ⟨hf, rfl⟩]
  obtain ⟨g, e2, g1, g2⟩ := samples_keep j hj (v.getLsbD j) l r lr (by rw [hr]; rfl) hs
  refine ⟨r, c, g, e, e2, read_eq hj _ rfl, ?_⟩
  rw [read_eq hj g (y := !v.getLsbD j) (by
    rw [g2, hr]
    cases h1 : v.getLsbD j <;> cases h2 : (bit f j).buf <;> simp_all)]
  cases v.getLsbD j <;> rfl

/-- **C238**, where it fails: the sampled input, set to its old level after the store of the reported levels. The call reports the change to
`b`, `debounce_read` returns the level that was set, for any number of samples with `b`. -/
theorem C238_own_wrong {i : Nat} (hi : i < w) (f : Filter w) (hl : f.count.length = w) (v x d : BitVec w)
    (b : Bool) (hb : bool x = if b then 1 else 0) (hf : (bit f i).flips b d = true) (hv : v.getLsbD i = !b)
    (l : List (BitVec w × BitVec w)) (hs : ∀ y ∈ l, y.1.getLsbD i = b) (k : Nat)
    (hk : k = (if (bit f i).cnt = 0 then 6 else 7) ∨ k = (if (bit f i).cnt = 0 then 7 else 8)) :
    ∃ r c g, singleI (onceAt k (set · v)) f x i d = .ok (r, c) ∧ samples r l = .ok g ∧
      c.getLsbD i = true ∧ read g i = .ok (if b then 0 else 1) := by
  have hk' : k < points (bit f i) b d ∧ k ≠ 0 ∧ ¬ k ≤ (if (bit f i).cnt = 0 then 5 else 6) := by
    rw [points, if_neg (next_flips hf).2, if_pos hf]; split at hk <;> split <;> simp_all <;> omega
  obtain ⟨r, c, e, lr, p1, p2, p3⟩ := C238_exact hi f hl v x d b hb _ hk'.1
  have hown : (bit f i).own b d (v.getLsbD i) k = (⟨b, !b, 0⟩, true) := by
    rw [Bit.own, if_neg hk'.2.1, if_pos hf, if_neg hk'.2.2, hv]
  rw [hown] at p1 p3
  obtain ⟨g, e2, g1, g2⟩ := samples_keep i hi b l r lr (by rw [p1]) hs
  refine ⟨r, c, g, e, e2, by rw [p3 i hi]; simp, ?_⟩
  rw [read_eq hi g (y := !b) (by rw [g2, p1])]
  cases b <;> rfl

/-- **C238**, where it fails: set between the load and the store of the stored levels, another input `j` with the other stored level has the
level that was set, which the next sample reports as a change. -/
theorem C238_twice_wrong {i j : Nat} (hi : i < w) (hj : j < w) (hij : j ≠ i) (f : Filter w) (hl : f.count.length = w) (v x d : BitVec w)
    (b : Bool) (hb : bool x = if b then 1 else 0) (hf : (bit f i).flips b d = true) (hv : v.getLsbD j = !(bit f j).old)
    (hc : (bit f j).cnt = 0) (y : BitVec w) (hy : bool y = if v.getLsbD j then 1 else 0) :
    ∃ r c g c', singleI (onceAt (if (bit f i).cnt = 0 then 7 else 8) (set · v)) f x i d = .ok (r, c) ∧
      read r j = .ok (if v.getLsbD j then 1 else 0) ∧ filterSingle true r y j 0 = .ok (g, c') ∧ c'.getLsbD j = true ∧
      read g j = .ok (if v.getLsbD j then 1 else 0) := by
  have hk : (if (bit f i).cnt = 0 then 7 else 8) < points (bit f i) b d := by
    rw [points, if_neg (next_flips hf).2, if_pos hf]; split <;> decide
  obtain ⟨r, c, e, lr, p1, p2, p3⟩ := C238_exact hi f hl v x d b hb _ hk
  have hr : bit r j = ⟨(bit f j).old, v.getLsbD j, 0⟩ := by
    rw [p2 j hj hij, Bit.other, if_neg (by rintro ⟨-, h⟩; split at h <;> cases h), if_pos ⟨hf, rfl⟩, Bit.setTo, hc]
  obtain ⟨g, c', e2, -, q1, q2⟩ := filterSingle_eq true r y j 0 (v.getLsbD j) hy hj lr (Or.inl rfl)
  have hfl : (bit r j).flips (v.getLsbD j) 0 = true := by
    rw [hr, Bit.flips, hv]; cases (bit f j).old <;> simp
  refine ⟨r, c, g, c', e, read_eq hj r (by rw [hr]), e2, by rw [q2 j hj, hfl]; simp, read_eq hj g ?_⟩
  rw [q1 j hj, if_pos rfl, (next_flips hfl).1]

/-! ## The call that sets the levels interrupted -/

/-- `debounce_filter_set`, debounce.c:16-19, with a handler before each store. -/
def setI (H : Nat → Filter w → Filter w) (f : Filter w) (v : BitVec w) : Filter w :=
  let f := H 1 { H 0 f with oldInput := v }
  { f with buffered := v }

theorem C238_set_quiet (f : Filter w) (v : BitVec w) : setI (fun _ f => f) f v = set f v := rfl

/-- **C238**, exact: `debounce_filter_set` with a handler between its two stores that samples input `i`: this is the sample after the set but
for the reported level of the input, which is the one that was set. -/
theorem C238_set_exact {i : Nat} (hi : i < w) (f : Filter w) (hl : f.count.length = w) (v x d : BitVec w) (b : Bool)
    (hb : bool x = if b then 1 else 0) :
    setI (onceAt 0 (sampler i x d)) f v = set (sampler i x d f) v ∧
    ∀ j < w, bit (setI (onceAt 1 (sampler i x d)) f v) j =
      { bit (sampler i x d (set f v)) j with buf := v.getLsbD j } := by
  refine ⟨rfl, fun j hj => ?_⟩
  obtain ⟨g, c, e, lg, p, -⟩ := filterSingle_eq true { f with oldInput := v } x i d b hb hi hl (Or.inl rfl)
  obtain ⟨g', c', e', lg', p', -⟩ := filterSingle_eq true (set f v) x i d b hb hi hl (Or.inl rfl)
  have h1 : sampler i x d { f with oldInput := v } = g := by rw [sampler, e]
  have h2 : sampler i x d (set f v) = g' := by rw [sampler, e']
  have h3 : setI (onceAt 1 (sampler i x d)) f v = { g with buffered := v } := by rw [← h1]; rfl
  rw [h3, h2]
  have : bit { g with buffered := v } j = { bit g j with buf := v.getLsbD j } := rfl
  rw [this, p j hj, p' j hj]
  by_cases hji : j = i
  · subst hji
    have key : ∀ (s : Bit w) (u u' : Bool), { ({ s with buf := u' } : Bit w).next b d with buf := u } = { s.next b d with buf := u } := by
      intro s u u'
      simp only [Bit.next]
      by_cases h1 : b = s.old
      · simp [h1]
      · rw [if_neg h1, if_neg h1]
        by_cases h2 : (if s.cnt = 0 then d else s.cnt - 1) = 0
        · rw [if_pos h2, if_pos h2]
        · rw [if_neg h2, if_neg h2]
    rw [if_pos rfl, if_pos rfl]
    exact (key (bit { f with oldInput := v } j) (v.getLsbD j) (v.getLsbD j)).symm
  · rw [if_neg hji, if_neg hji]; rfl

/-- **C238**, where it fails: if that sample is reported as a change, `debounce_read` does not show it, for any number of samples with the
same level. -/
theorem C238_set_wrong {i : Nat} (hi : i < w) (f : Filter w) (hl : f.count.length = w) (v x d : BitVec w) (b : Bool)
    (hb : bool x = if b then 1 else 0) (hf : ((bit f i).setTo (v.getLsbD i)).flips b d = true)
    (l : List (BitVec w × BitVec w)) (hs : ∀ y ∈ l, y.1.getLsbD i = b) :
    (∃ c, filterSingle true { f with oldInput := v } x i d = .ok (sampler i x d { f with oldInput := v }, c) ∧ c.getLsbD i = true) ∧
    ∃ g, samples (setI (onceAt 1 (sampler i x d)) f v) l = .ok g ∧ read g i = .ok (if b then 0 else 1) := by
  obtain ⟨g, c, e, lg, p, q⟩ := filterSingle_eq true { f with oldInput := v } x i d b hb hi hl (Or.inl rfl)
  have h1 : sampler i x d { f with oldInput := v } = g := by rw [sampler, e]
  have hfl : (bit { f with oldInput := v } i).flips b d = true := hf
  refine ⟨⟨c, by rw [h1, e], by rw [q i hi, hfl]; simp⟩, ?_⟩
  have hr : setI (onceAt 1 (sampler i x d)) f v = { g with buffered := v } := by rw [← h1]; rfl
  have hg : bit g i = ⟨b, b, 0⟩ := by rw [p i hi, if_pos rfl, (next_flips hfl).1]
  obtain ⟨g2, e2, -, g2b⟩ := samples_keep i hi b l { g with buffered := v } lg (congrArg Bit.old hg) hs
  rw [hr]
  refine ⟨g2, e2, ?_⟩
  rw [read_eq hi g2 (y := !b) (by
    rw [g2b]
    have := (next_flips hf).2
    show v.getLsbD i = !b
    simp only [Bit.setTo] at this
    cases h1 : v.getLsbD i <;> cases b <;> simp_all)]
  cases b <;> rfl

/-- Eight inputs, all low; input 0 goes high, and the handler sets inputs 1 and 3. At point 5 `debounce_value` does not show them, at point 6
it does not show input 0, at point 7 inputs 1 and 3 change once more. -/
example : let f : Filter 8 := ⟨0, 0, List.replicate 8 0⟩
    crossed (bit f 0) true 0 = [5, 6, 7] ∧
    singleI (onceAt 4 (set · 10)) f 1 0 0 = filterSingle true (set f 10) 1 0 0 ∧
    singleI (onceAt 5 (set · 10)) f 1 0 0 = .ok (⟨11, 1, List.replicate 8 0⟩, 1) ∧
    singleI (onceAt 6 (set · 10)) f 1 0 0 = .ok (⟨11, 10, List.replicate 8 0⟩, 1) ∧
    singleI (onceAt 7 (set · 10)) f 1 0 0 = .ok (⟨1, 10, List.replicate 8 0⟩, 1) ∧
    samples (⟨11, 1, List.replicate 8 0⟩ : Filter 8) [(11, 0), (11, 0)] = .ok ⟨11, 1, List.replicate 8 0⟩ :=
  ⟨by decide, by decide, by decide, by decide, by decide, by decide⟩

example : setI (onceAt 1 (sampler 0 1 0)) (⟨0, 0, List.replicate 8 0⟩ : Filter 8) 6 = ⟨7, 6, List.replicate 8 0⟩ := by decide

end Gel.Debounce
