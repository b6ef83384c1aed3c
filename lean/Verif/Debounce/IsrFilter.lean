import Verif.Debounce.Isr

/-!
# Debounce: inputs of one filter sampled by the main program and by an interrupt handler (C215)

`debounce_filter_single` as a sequence of accesses to the filter, with an interrupt handler before each access that runs to its end:
it does `H t` at the `t`-th point of the call. A member is loaded or stored in one access. The members are not `volatile`; every
access of the source is one of the program, in the order of the source.
-/
namespace Gel.Debounce

variable {w : Nat}

/-- debounce.c:42-46 of `debounce_filter_single`, from the point `t`: the levels are loaded, changed and stored one after the
other. -/
def changeI (H : Nat → Filter w → Filter w) (t : Nat) (f : Filter w) (input : BitVec w) (i : Nat) : Res (Filter w × BitVec w) := do
  let f := H t f
  let c ← rd f.count i
  if c = 0 then
    let f := H (t + 1) f
    let b := f.buffered
    let f := H (t + 2) f
    let buffered ← setNth true b i input
    let f := H (t + 3) { f with buffered := buffered }
    let o := f.oldInput
    let f := H (t + 4) f
    let oldInput ← setNth true o i input
    let change ← setNth true 0 i 1
    pure ({ f with oldInput := oldInput }, change)
  else pure (f, 0)

/-- `debounce_filter_single`, debounce.c:31-50. Line 38 loads the counter and stores it. -/
def singleI (H : Nat → Filter w → Filter w) (f : Filter w) (input : BitVec w) (i : Nat) (d : BitVec w) :
    Res (Filter w × BitVec w) := do
  let f := H 0 f
  let o ← nth f.oldInput i
  let f := H 1 f
  if bool input = o then
    let count ← wr f.count i 0
    pure ({ f with count := count }, 0)
  else
    let c ← rd f.count i
    let f := H 2 f
    if 0 < c then
      let c ← rd f.count i
      let f := H 3 f
      let count ← wr f.count i (c - 1)
      changeI H 4 { f with count := count } input i
    else
      let count ← wr f.count i d
      changeI H 3 { f with count := count } input i

/-- **C215**: without a handler the call does what the first model says. -/
theorem C215_quiet (f : Filter w) (input : BitVec w) (i : Nat) (d : BitVec w) (hi : i < w) (hl : f.count.length = w) :
    singleI (fun _ f => f) f input i d = filterSingle true f input i d := by
  rw [singleI, filterSingle, nth_eq _ _ hi]
  simp only [Res.ok_bind]
  by_cases h : bool input = if f.oldInput.getLsbD i then 1 else 0
  · simp only [if_pos h]
  · simp only [if_neg h]
    rw [rd_getD _ _ (by omega)]
    simp only [Res.ok_bind]
    by_cases hc : 0 < f.count.getD i 0
    · simp only [if_pos hc, changeI, wr, if_pos (show i < f.count.length by omega), Res.ok_bind]
    · simp only [if_neg hc, changeI, wr, if_pos (show i < f.count.length by omega), Res.ok_bind]

/-- Handlers that leave input `i` alone: the part of the filter that belongs to input `j` becomes, at the point `t`, what `G t j`
says. -/
structure Beside (i : Nat) (H : Nat → Filter w → Filter w) (G : Nat → Nat → Bit w → Bit w) : Prop where
  length : ∀ t f, f.count.length = w → (H t f).count.length = w
  bits : ∀ t f, f.count.length = w → ∀ j < w, bit (H t f) j = G t j (bit f j)
  same : ∀ t s, G t i s = s

/-- The part of another input after the call: `same` says that the sample was the stored level, `down` that the counter was not 0,
`flip` that the level changed. Between the load and the store of the reported levels, and between those of the stored levels, the
handler's change to it is lost. -/
def Bit.beside (G : Nat → Bit w → Bit w) (same down flip : Bool) (s : Bit w) : Bit w :=
  if same then G 1 (G 0 s)
  else
    let t := if down then 4 else 3
    let s := if down then G 3 (G 2 (G 1 (G 0 s))) else G 2 (G 1 (G 0 s))
    let s := G t s
    if flip then
      let s1 := G (t + 1) s
      let s2 := { G (t + 2) s1 with buf := s1.buf }
      let s3 := G (t + 3) s2
      { G (t + 4) s3 with old := s3.old }
    else s

theorem Beside.own {i : Nat} {H : Nat → Filter w → Filter w} {G : Nat → Nat → Bit w → Bit w} (h : Beside i H G) (t : Nat)
    {f : Filter w} (hl : f.count.length = w) (hi : i < w) : bit (H t f) i = bit f i := by
  rw [h.bits t f hl i hi, h.same]

theorem changeI_eq {i : Nat} {H : Nat → Filter w → Filter w} {G : Nat → Nat → Bit w → Bit w} (h : Beside i H G) (t : Nat)
    (f : Filter w) (input : BitVec w) (b : Bool) (hb : bool input = if b then 1 else 0) (hi : i < w) (hl : f.count.length = w) :
    ∃ r c, changeI H t f input i = .ok (r, c) ∧ r.count.length = w ∧
      bit r i = (if (bit f i).cnt = 0 then ⟨b, b, 0⟩ else bit f i) ∧
      (∀ j < w, j ≠ i → bit r j = (
        let s := G t j (bit f j)
        if (bit f i).cnt = 0 then
          let s1 := G (t + 1) j s
          let s2 := { G (t + 2) j s1 with buf := s1.buf }
          let s3 := G (t + 3) j s2
          { G (t + 4) j s3 with old := s3.old }
        else s)) ∧
      ∀ j < w, c.getLsbD j = (decide (j = i) && (bit f i).cnt == 0) := by
  have l0 := h.length t f hl
  have o0 := h.own t hl hi
  have b0 := h.bits t f hl
  have c0 : (bit f i).cnt = (H t f).count.getD i 0 := by rw [← o0]; rfl
  rw [changeI]
  simp only
  rw [rd_getD _ _ (by omega), Res.ok_bind]
  by_cases hc : (bit f i).cnt = 0
  · rw [if_pos (by rw [← c0]; exact hc)]
    generalize H t f = f0 at l0 o0 b0 c0
    have l1 := h.length (t + 1) f0 l0
    have o1 := h.own (t + 1) l0 hi
    have b1 := h.bits (t + 1) f0 l0
    generalize H (t + 1) f0 = f1 at l1 o1 b1
    have l2 := h.length (t + 2) f1 l1
    have o2 := h.own (t + 2) l1 hi
    have b2 := h.bits (t + 2) f1 l1
    generalize H (t + 2) f1 = f2 at l2 o2 b2
    obtain ⟨y1, e1, p1⟩ := setNth_eq true f1.buffered i input b hb hi (Or.inl rfl)
    rw [e1, Res.ok_bind]
    have l3 := h.length (t + 3) { f2 with buffered := y1 } l2
    have o3 := h.own (t + 3) (f := { f2 with buffered := y1 }) l2 hi
    have b3 := h.bits (t + 3) { f2 with buffered := y1 } l2
    generalize H (t + 3) { f2 with buffered := y1 } = f3 at l3 o3 b3
    have l4 := h.length (t + 4) f3 l3
    have o4 := h.own (t + 4) l3 hi
    have b4 := h.bits (t + 4) f3 l3
    generalize H (t + 4) f3 = f4 at l4 o4 b4
    obtain ⟨y2, e2, p2⟩ := setNth_eq true f3.oldInput i input b hb hi (Or.inl rfl)
    obtain ⟨y3, e3, p3⟩ := setNth_eq true (0 : BitVec w) i 1 true (by simpa using bool_ite (w := w) true) hi (Or.inl rfl)
    rw [e2, e3]
    refine ⟨_, _, rfl, l4, ?_, ?_, ?_⟩
    · rw [if_pos hc]
      have hb4 : f4.buffered.getLsbD i = b := by
        have : (bit f4 i).buf = _ := congrArg Bit.buf (o4.trans o3)
        rw [show f4.buffered.getLsbD i = (bit f4 i).buf from rfl, this]
        show y1.getLsbD i = b
        rw [p1 i hi, if_pos rfl]
      have hc4 : f4.count.getD i 0 = 0 := by
        have : (bit f4 i).cnt = _ := congrArg Bit.cnt (o4.trans o3)
        rw [show f4.count.getD i 0 = (bit f4 i).cnt from rfl, this]
        show (bit f2 i).cnt = 0
        rw [o2, o1, o0, hc]
      rw [bit]
      simp only [hb4, hc4, p2 i hi, if_true]
    · intro j hj hji
      simp only [if_pos hc]
      have e : bit { f2 with buffered := y1 } j = { bit f2 j with buf := (bit f1 j).buf } := by
        simp only [bit, p1 j hj, if_neg hji]
      rw [← b0 j hj, ← b1 j hj, ← b2 j hj, ← e, ← b3 j hj, ← b4 j hj]
      simp only [bit, p2 j hj, if_neg hji]
    · intro j hj
      rw [p3 j hj, hc]
      by_cases hji : j = i <;> simp [hji]
  · rw [if_neg (by rw [← c0]; exact hc)]
    refine ⟨_, _, rfl, l0, ?_, ?_, ?_⟩
    · rw [if_neg hc, o0]
    · intro j hj _
      simp only [if_neg hc]
      exact b0 j hj
    · intro j _
      rw [beq_eq_false_iff_ne.2 hc, Bool.and_false]
      simp

/-- **C215**, exact: `debounce_filter_single` for input `i`, with handlers at any points that leave this input alone. The input itself
and the result are as without them; what becomes of the other inputs is `Bit.beside`. -/
theorem C215_exact {i : Nat} {H : Nat → Filter w → Filter w} {G : Nat → Nat → Bit w → Bit w} (h : Beside i H G)
    (f : Filter w) (input d : BitVec w) (b : Bool) (hb : bool input = if b then 1 else 0) (hi : i < w) (hl : f.count.length = w) :
    ∃ r c, singleI H f input i d = .ok (r, c) ∧ r.count.length = w ∧ bit r i = (bit f i).next b d ∧
      (∀ j < w, j ≠ i → bit r j =
        (bit f j).beside (G · j) (b == (bit f i).old) ((bit f i).cnt != 0) ((bit f i).flips b d)) ∧
      ∀ j < w, c.getLsbD j = (decide (j = i) && (bit f i).flips b d) := by
  have l0 := h.length 0 f hl
  have o0 := h.own 0 hl hi
  have b0 := h.bits 0 f hl
  have q0 : (bit f i).old = (H 0 f).oldInput.getLsbD i := by rw [← o0]; rfl
  rw [singleI]
  simp only
  rw [nth_eq _ _ hi, Res.ok_bind, hb]
  generalize H 0 f = f0 at l0 o0 b0 q0
  have l1 := h.length 1 f0 l0
  have o1 := h.own 1 l0 hi
  have b1 := h.bits 1 f0 l0
  generalize H 1 f0 = f1 at l1 o1 b1
  simp only [ite_inj (Nat.zero_lt_of_lt hi), ← q0]
  by_cases h1 : b = (bit f i).old
  · rw [if_pos h1, wr, if_pos (by omega), Res.ok_bind]
    refine ⟨_, _, rfl, by simpa using l1, ?_, ?_, ?_⟩
    · rw [bit, getD_set _ _ _ _ (by omega), if_pos rfl, Bit.next, if_pos h1, ← o0, ← o1]
      rfl
    · intro j hj hji
      rw [bit, getD_set _ _ _ _ (by omega), if_neg hji, Bit.beside, if_pos (by simpa using h1), ← b0 j hj, ← b1 j hj]
      rfl
    · intro j _
      simp [Bit.flips, h1]
  · have hs : (b == (bit f i).old) = false := by simpa using h1
    rw [if_neg h1, rd_getD _ _ (by omega), Res.ok_bind]
    have c1 : f1.count.getD i 0 = (bit f i).cnt := by rw [← o0, ← o1]; rfl
    rw [c1]
    have l2 := h.length 2 f1 l1
    have o2 := h.own 2 l1 hi
    have b2 := h.bits 2 f1 l1
    generalize H 2 f1 = f2 at l2 o2 b2
    have c2 : f2.count.getD i 0 = (bit f i).cnt := by rw [← o0, ← o1, ← o2]; rfl
    by_cases h0 : (bit f i).cnt = 0
    · rw [if_neg (by rw [h0]; simp), wr, if_pos (by omega), Res.ok_bind]
      have hn : ∀ j, bit { f2 with count := f2.count.set i d } j = if j = i then { bit f i with cnt := d } else bit f2 j := by
        intro j
        rw [bit, getD_set _ _ _ _ (by omega)]
        by_cases hji : j = i
        · subst hji
          rw [if_pos rfl, if_pos rfl, ← o0, ← o1, ← o2]
          rfl
        · rw [if_neg hji, if_neg hji]
          rfl
      obtain ⟨r, c, e, lr, pr, pj, pc⟩ := changeI_eq h 3 { f2 with count := f2.count.set i d } input b hb hi (by simpa using l2)
      have hfl : (bit f i).flips b d = (d == 0) := by
        simp [Bit.flips, h0, h1]
      refine ⟨r, c, e, lr, ?_, ?_, ?_⟩
      · rw [pr, hn i, if_pos rfl, Bit.next, if_neg h1]
        simp only [h0, if_true]
      · intro j hj hji
        rw [pj j hj hji, hn j, if_neg hji, hn i, if_pos rfl, b2 j hj, b1 j hj, b0 j hj, Bit.beside, hs, hfl, h0]
        by_cases hd : d = 0#w <;> simp [hd]
      · intro j hj
        rw [pc j hj, hn i, if_pos rfl, hfl]
    · rw [if_pos (show 0 < (bit f i).cnt from (BitVec.pos_iff_ne_zero _).2 h0), rd_getD _ _ (by omega), Res.ok_bind, c2]
      have l3 := h.length 3 f2 l2
      have o3 := h.own 3 l2 hi
      have b3 := h.bits 3 f2 l2
      generalize H 3 f2 = f3 at l3 o3 b3
      rw [wr, if_pos (by omega), Res.ok_bind]
      have hn : ∀ j, bit { f3 with count := f3.count.set i ((bit f i).cnt - 1) } j =
          if j = i then { bit f i with cnt := (bit f i).cnt - 1 } else bit f3 j := by
        intro j
        rw [bit, getD_set _ _ _ _ (by omega)]
        by_cases hji : j = i
        · subst hji
          rw [if_pos rfl, if_pos rfl]
          have := o3.trans (o2.trans (o1.trans o0))
          rw [Bit.mk.injEq]
          exact ⟨congrArg Bit.old this, congrArg Bit.buf this, rfl⟩
        · rw [if_neg hji, if_neg hji]
          rfl
      obtain ⟨r, c, e, lr, pr, pj, pc⟩ := changeI_eq h 4 { f3 with count := f3.count.set i ((bit f i).cnt - 1) } input b hb hi
        (by simpa using l3)
      have hfl : (bit f i).flips b d = ((bit f i).cnt - 1 == 0) := by
        rw [Bit.flips, if_neg h0, show (b != (bit f i).old) = true by simpa using h1, Bool.true_and]
      refine ⟨r, c, e, lr, ?_, ?_, ?_⟩
      · rw [pr, hn i, if_pos rfl, Bit.next, if_neg h1]
        simp only [if_neg h0]
      · intro j hj hji
        have hd : ((bit f i).cnt != 0) = true := by simpa using h0
        rw [pj j hj hji, hn j, if_neg hji, hn i, if_pos rfl, b3 j hj, b2 j hj, b1 j hj, b0 j hj, Bit.beside, hs, hfl, hd]
        by_cases hd : (bit f i).cnt - 1 = 0#w <;> simp [hd]
      · intro j hj
        rw [pc j hj, hn i, if_pos rfl, hfl]

/-! ## One call by a handler for another input -/

/-- A handler that interrupts once, at the point `k`. -/
def onceAt (k : Nat) (g : Filter w → Filter w) (t : Nat) (f : Filter w) : Filter w := if t = k then g f else f

/-- A handler that calls `debounce_filter_single` for input `j`. -/
def sampler (j : Nat) (v d : BitVec w) (f : Filter w) : Filter w :=
  match filterSingle true f v j d with
  | .ok (g, _) => g
  | _ => f

theorem sampler_beside {i j : Nat} (hj : j < w) (hij : i ≠ j) (k : Nat) (v d : BitVec w) (b : Bool)
    (hb : bool v = if b then 1 else 0) :
    Beside i (onceAt k (sampler j v d)) fun t l s => if t = k ∧ l = j then s.next b d else s := by
  have key : ∀ f : Filter w, f.count.length = w → (sampler j v d f).count.length = w ∧
      ∀ l < w, bit (sampler j v d f) l = if l = j then (bit f l).next b d else bit f l := by
    intro f hl
    obtain ⟨g, c, e, lg, p, -⟩ := filterSingle_eq true f v j d b hb hj hl (Or.inl rfl)
    have he : sampler j v d f = g := by rw [sampler, e]
    rw [he]
    refine ⟨lg, fun l h => ?_⟩
    rw [p l h]
    by_cases hlj : l = j
    · subst hlj; rfl
    · rw [if_neg hlj, if_neg hlj]
  refine ⟨fun t f hl => ?_, fun t f hl l h => ?_, fun t s => if_neg (by rintro ⟨-, h⟩; exact hij h)⟩
  · rw [onceAt]
    split
    · exact (key f hl).1
    · exact hl
  · rw [onceAt]
    by_cases ht : t = k
    · rw [if_pos ht, (key f hl).2 l h]
      simp only [ht, true_and]
    · rw [if_neg ht, if_neg (by rintro ⟨h, -⟩; exact ht h)]

/-- The number of accesses of a call, without handlers. -/
def points (s : Bit w) (b : Bool) (d : BitVec w) : Nat :=
  if b = s.old then 2 else (if s.cnt = 0 then 4 else 5) + if s.flips b d then 4 else 0

/-- The points between a load and a store of the levels of all inputs: those of the reported levels and those of the stored levels. -/
def loses (s : Bit w) (b : Bool) (d : BitVec w) : List Nat :=
  if s.flips b d then (if s.cnt = 0 then [5, 7] else [6, 8]) else []

/-- What becomes of the other input. -/
theorem beside_once (s s' : Bit w) (b b' : Bool) (d d' : BitVec w) (k j : Nat) (hk : k < points s b d) :
    s'.beside (fun t => (fun t l (x : Bit w) => if t = k ∧ l = j then x.next b' d' else x) t j) (b == s.old) (s.cnt != 0) (s.flips b d) =
      if s.flips b d ∧ k = (if s.cnt = 0 then 5 else 6) then { s'.next b' d' with buf := s'.buf }
      else if s.flips b d ∧ k = (if s.cnt = 0 then 7 else 8) then { s'.next b' d' with old := s'.old }
      else s'.next b' d' := by
  by_cases ho : b = s.old
  · have hf : s.flips b d = false := by simp [Bit.flips, ho]
    rw [points, if_pos ho] at hk
    have hc : k = 0 ∨ k = 1 := by omega
    rw [hf, Bit.beside, if_pos (by simpa using ho)]
    rcases hc with rfl | rfl <;> simp
  · have hb : (b == s.old) = false := by simpa using ho
    rw [points, if_neg ho] at hk
    rw [hb, Bit.beside]
    by_cases h0 : s.cnt = 0
    · rw [if_pos h0] at hk
      rw [show (s.cnt != 0) = false by simpa using h0, if_pos h0, if_pos h0]
      cases hf : s.flips b d
      · rw [hf] at hk
        have hc : k = 0 ∨ k = 1 ∨ k = 2 ∨ k = 3 := by simp at hk; omega
        rcases hc with rfl | rfl | rfl | rfl <;> simp
      · rw [hf] at hk
        have hc : k = 0 ∨ k = 1 ∨ k = 2 ∨ k = 3 ∨ k = 4 ∨ k = 5 ∨ k = 6 ∨ k = 7 := by simp at hk; omega
        rcases hc with rfl | rfl | rfl | rfl | rfl | rfl | rfl | rfl <;> simp
    · rw [if_neg h0] at hk
      rw [show (s.cnt != 0) = true by simpa using h0, if_neg h0, if_neg h0]
      cases hf : s.flips b d
      · rw [hf] at hk
        have hc : k = 0 ∨ k = 1 ∨ k = 2 ∨ k = 3 ∨ k = 4 := by simp at hk; omega
        rcases hc with rfl | rfl | rfl | rfl | rfl <;> simp
      · rw [hf] at hk
        have hc : k = 0 ∨ k = 1 ∨ k = 2 ∨ k = 3 ∨ k = 4 ∨ k = 5 ∨ k = 6 ∨ k = 7 ∨ k = 8 := by simp at hk; omega
        rcases hc with rfl | rfl | rfl | rfl | rfl | rfl | rfl | rfl | rfl <;> simp

theorem once_bits {i j : Nat} (hi : i < w) (hj : j < w) (hij : i ≠ j) (f : Filter w) (hl : f.count.length = w)
    (v v' d d' : BitVec w) (b b' : Bool) (hb : bool v = if b then 1 else 0) (hb' : bool v' = if b' then 1 else 0) (k : Nat)
    (hk : k < points (bit f i) b d) :
    ∃ r c, singleI (onceAt k (sampler j v' d')) f v i d = .ok (r, c) ∧ r.count.length = w ∧ bit r i = (bit f i).next b d ∧
      (bit r j = if (bit f i).flips b d ∧ k = (if (bit f i).cnt = 0 then 5 else 6) then
          { (bit f j).next b' d' with buf := (bit f j).buf }
        else if (bit f i).flips b d ∧ k = (if (bit f i).cnt = 0 then 7 else 8) then
          { (bit f j).next b' d' with old := (bit f j).old }
        else (bit f j).next b' d') ∧
      (∀ l < w, l ≠ i → l ≠ j → bit r l = bit f l) ∧
      ∀ l < w, c.getLsbD l = (decide (l = i) && (bit f i).flips b d) := by
  obtain ⟨r, c, e, lr, p1, p2, p3⟩ := C215_exact (sampler_beside hj hij k v' d' b' hb') f v d b hb hi hl
  refine ⟨r, c, e, lr, p1, ?_, ?_, p3⟩
  · rw [p2 j hj (Ne.symm hij)]
    exact beside_once _ _ b b' d d' k j hk
  · intro l h1 h2 h3
    rw [p2 l h1 h2, Bit.beside]
    simp [h3]

/-- **C215**, proved part: `debounce_filter_single` for input `i`, in the midst of which a handler calls it for another input `j`, has
the same effect and result as if the handler's call came before it, unless that call comes between a load and a store of the levels of
all inputs. Missing: these points, for which it is false. -/
theorem C215_partial {i j : Nat} (hi : i < w) (hj : j < w) (hij : i ≠ j) (f : Filter w) (hl : f.count.length = w)
    (v v' d d' : BitVec w) (k : Nat) (b : Bool) (hb : bool v = if b then 1 else 0) (hk : k < points (bit f i) b d)
    (hn : k ∉ loses (bit f i) b d) :
    singleI (onceAt k (sampler j v' d')) f v i d = filterSingle true (sampler j v' d' f) v i d := by
  obtain ⟨b', hb'⟩ : ∃ b' : Bool, bool v' = if b' then 1 else 0 := ⟨_, bool_cases v'⟩
  obtain ⟨r, c, e, lr, p1, p2, p3, p4⟩ := once_bits hi hj hij f hl v v' d d' b b' hb hb' k hk
  obtain ⟨g, c1, e1, l1, q1, -⟩ := filterSingle_eq true f v' j d' b' hb' hj hl (Or.inl rfl)
  have hg : sampler j v' d' f = g := by rw [sampler, e1]
  obtain ⟨g2, c2, e2, l2, q2, q3⟩ := filterSingle_eq true g v i d b hb hi l1 (Or.inl rfl)
  have hgi : bit g i = bit f i := by rw [q1 i hi, if_neg hij]
  rw [e, hg, e2]
  have hj' : bit r j = (bit f j).next b' d' := by
    rw [p2, if_neg, if_neg]
    · rintro ⟨h1, h2⟩
      refine hn ?_
      rw [loses, if_pos h1]
      split_ifs at h2 ⊢ <;> simp [h2]
    · rintro ⟨h1, h2⟩
      refine hn ?_
      rw [loses, if_pos h1]
      split_ifs at h2 ⊢ <;> simp [h2]
  have hr : r = g2 := by
    refine ext_bits lr l2 fun l h => ?_
    rw [q2 l h, hgi]
    by_cases hli : l = i
    · subst hli
      rw [if_pos rfl, p1]
    · rw [if_neg hli, q1 l h]
      by_cases hlj : l = j
      · subst hlj
        rw [if_pos rfl, hj']
      · rw [if_neg hlj, p3 l h hli hlj]
  have hc : c = c2 := by
    ext l h
    rw [← BitVec.getLsbD_eq_getElem, ← BitVec.getLsbD_eq_getElem, p4 l h, q3 l h, hgi]
  rw [hr, hc]

/-- Calls of `debounce_filter`. -/
def samples (f : Filter w) : List (BitVec w × BitVec w) → Res (Filter w)
  | [] => .ok f
  | (v, d) :: l => do
    let (f, _) ← filter true f v d
    samples f l

/-- An input whose samples are the stored level keeps the reported level. -/
theorem samples_keep (j : Nat) (hj : j < w) (b : Bool) : ∀ (l : List (BitVec w × BitVec w)) (f : Filter w), f.count.length = w →
    (bit f j).old = b → (∀ x ∈ l, x.1.getLsbD j = b) →
    ∃ g, samples f l = .ok g ∧ (bit g j).old = b ∧ (bit g j).buf = (bit f j).buf := by
  intro l
  induction l with
  | nil => intro f _ ho _; exact ⟨f, rfl, ho, rfl⟩
  | cons x l ih =>
    intro f hl ho hs
    obtain ⟨g, c, e, lg, p, -⟩ := filter_eq true f x.1 x.2 hl (Or.inl rfl)
    have hx := hs x (by simp)
    have hg : bit g j = { bit f j with cnt := 0 } := by rw [p j hj, hx, Bit.next, if_pos ho.symm]
    obtain ⟨r, e2, h1, h2⟩ := ih g lg (by rw [hg]; exact ho) fun y hy => hs y (by simp [hy])
    refine ⟨r, ?_, h1, ?_⟩
    · rw [samples, e]
      exact e2
    · rw [h2, hg]

/-- **C215**, where it fails: the handler comes between the load and the store of the reported levels and changes the level of input
`j`, which its call reports. `debounce_read` goes on returning the level from before, and does so for any number of later samples,
until the input goes back. -/
theorem C215_stuck_wrong {i j : Nat} (hi : i < w) (hj : j < w) (hij : i ≠ j) (f : Filter w) (hl : f.count.length = w)
    (hr : f.buffered = f.oldInput) (v v' d d' : BitVec w) (b b' : Bool) (hb : bool v = if b then 1 else 0)
    (hb' : bool v' = if b' then 1 else 0) (h1 : (bit f i).flips b d = true) (h2 : (bit f j).flips b' d' = true)
    (l : List (BitVec w × BitVec w)) (hs : ∀ x ∈ l, x.1.getLsbD j = b') :
    ∃ r c g, singleI (onceAt (if (bit f i).cnt = 0 then 5 else 6) (sampler j v' d')) f v i d = .ok (r, c) ∧ samples r l = .ok g ∧
      (∃ c', filterSingle true f v' j d' = .ok (sampler j v' d' f, c') ∧ c'.getLsbD j = true) ∧
      read (sampler j v' d' f) j = .ok (if b' then 1 else 0) ∧ read g j = .ok (if b' then 0 else 1) := by
  have hk : (if (bit f i).cnt = 0 then 5 else 6) < points (bit f i) b d := by
    have ho : b ≠ (bit f i).old := by
      intro h; simp [Bit.flips, h] at h1
    rw [points, if_neg ho, h1, if_pos rfl]
    split <;> decide
  obtain ⟨r, c, e, lr, p1, p2, p3, p4⟩ := once_bits hi hj hij f hl v v' d d' b b' hb hb' _ hk
  rw [if_pos ⟨h1, rfl⟩] at p2
  have ho : b' ≠ (bit f j).old := by
    intro h; simp [Bit.flips, h] at h2
  have hz : (if (bit f j).cnt = 0 then d' else (bit f j).cnt - 1) = 0 := by
    rw [Bit.flips, Bool.and_eq_true, beq_iff_eq] at h2
    exact h2.2
  have hnx : (bit f j).next b' d' = ⟨b', b', 0⟩ := by
    rw [Bit.next, if_neg ho]
    simp only
    rw [if_pos hz]
  rw [hnx] at p2
  have hbuf : (bit f j).buf = !b' := by
    have : (bit f j).buf = (bit f j).old := by simp only [bit, hr]
    rw [this]
    cases hbb : (bit f j).old <;> rw [hbb] at ho <;> cases b' <;> simp at ho ⊢
  obtain ⟨g, e2, g1, g2⟩ := samples_keep j hj b' l r lr (by rw [p2]) hs
  obtain ⟨g', c', e3, l3, q1, q2⟩ := filterSingle_eq true f v' j d' b' hb' hj hl (Or.inl rfl)
  have hg : sampler j v' d' f = g' := by rw [sampler, e3]
  have hrd : ∀ (x : Filter w) (y : Bool), (bit x j).buf = y → read x j = .ok (if y then 1 else 0) := by
    intro x y hxy
    rw [read, if_neg (by omega), nth_eq _ _ hj, show x.buffered.getLsbD j = y from hxy]
    cases y
    · simp
    · simp only [if_true, Res.ok_bind, Res.pure_eq, one_toNat (Nat.zero_lt_of_lt hj)]; rfl
  refine ⟨r, c, g, e, e2, ⟨c', by rw [hg]; exact e3, ?_⟩, ?_, ?_⟩
  · rw [q2 j hj, h2]; simp
  · rw [hg]
    exact hrd g' b' (by rw [q1 j hj, if_pos rfl, hnx])
  · rw [hrd g (!b') (by rw [g2, p2, ← hbuf])]
    cases b' <;> rfl

/-- **C215**, where it fails: the handler comes between the load and the store of the stored levels and changes the level of input
`j`, which its call reports. The stored level is then the one from before: if the input keeps its new level, the same change is
reported a second time. -/
theorem C215_twice_wrong {i j : Nat} (hi : i < w) (hj : j < w) (hij : i ≠ j) (f : Filter w) (hl : f.count.length = w)
    (v v' d d' : BitVec w) (b b' : Bool) (hb : bool v = if b then 1 else 0)
    (hb' : bool v' = if b' then 1 else 0) (h1 : (bit f i).flips b d = true) (h2 : (bit f j).flips b' d' = true) :
    ∃ r c, singleI (onceAt (if (bit f i).cnt = 0 then 7 else 8) (sampler j v' d')) f v i d = .ok (r, c) ∧
      (∃ c', filterSingle true f v' j d' = .ok (sampler j v' d' f, c') ∧ c'.getLsbD j = true) ∧
      bit (sampler j v' d' f) j = ⟨b', b', 0⟩ ∧ bit r j = ⟨!b', b', 0⟩ ∧
      ∃ g c'', filterSingle true r v' j 0 = .ok (g, c'') ∧ c''.getLsbD j = true := by
  have hk : (if (bit f i).cnt = 0 then 7 else 8) < points (bit f i) b d := by
    have ho : b ≠ (bit f i).old := by
      intro h; simp [Bit.flips, h] at h1
    rw [points, if_neg ho, h1, if_pos rfl]
    split <;> decide
  obtain ⟨r, c, e, lr, p1, p2, p3, p4⟩ := once_bits hi hj hij f hl v v' d d' b b' hb hb' _ hk
  rw [if_neg (by rintro ⟨-, h⟩; split at h <;> cases h), if_pos ⟨h1, rfl⟩] at p2
  have ho : b' ≠ (bit f j).old := by
    intro h; simp [Bit.flips, h] at h2
  have hz : (if (bit f j).cnt = 0 then d' else (bit f j).cnt - 1) = 0 := by
    rw [Bit.flips, Bool.and_eq_true, beq_iff_eq] at h2
    exact h2.2
  have hnx : (bit f j).next b' d' = ⟨b', b', 0⟩ := by
    rw [Bit.next, if_neg ho]
    simp only
    rw [if_pos hz]
  have hold : (bit f j).old = !b' := by
    cases hbb : (bit f j).old <;> rw [hbb] at ho <;> cases b' <;> simp at ho ⊢
  rw [hnx, hold] at p2
  obtain ⟨g', c', e3, l3, q1, q2⟩ := filterSingle_eq true f v' j d' b' hb' hj hl (Or.inl rfl)
  have hg : sampler j v' d' f = g' := by rw [sampler, e3]
  obtain ⟨g2, c2, e4, -, -, q4⟩ := filterSingle_eq true r v' j 0 b' hb' hj lr (Or.inl rfl)
  refine ⟨r, c, e, ⟨c', by rw [hg]; exact e3, ?_⟩, by rw [hg, q1 j hj, if_pos rfl, hnx], p2, g2, c2, e4, ?_⟩
  · rw [q2 j hj, h2]; simp
  · rw [q4 j hj, p2]
    cases b' <;> simp [Bit.flips]

/-- Eight inputs, all low. Input 0 goes high in the main program and input 3 in the handler. Both calls report it, but
`debounce_value` shows only one of them, and still does after two more calls with both high. -/
example : let f : Filter 8 := ⟨0, 0, List.replicate 8 0⟩
    (bit f 0).flips true 0 = true ∧ loses (bit f 0) true 0 = [5, 7] ∧ points (bit f 0) true 0 = 8 ∧
    singleI (onceAt 4 (sampler 3 1 0)) f 1 0 0 = .ok (⟨9, 9, List.replicate 8 0⟩, 1) ∧
    singleI (onceAt 5 (sampler 3 1 0)) f 1 0 0 = .ok (⟨9, 1, List.replicate 8 0⟩, 1) ∧
    singleI (onceAt 7 (sampler 3 1 0)) f 1 0 0 = .ok (⟨1, 9, List.replicate 8 0⟩, 1) ∧
    samples (⟨9, 1, List.replicate 8 0⟩ : Filter 8) [(9, 0), (9, 0)] = .ok ⟨9, 1, List.replicate 8 0⟩ :=
  ⟨by decide, by decide, by decide, by decide, by decide, by decide, by decide⟩

end Gel.Debounce
