import Verif.Param.More

/-!
# Parameter: clones in place, clones in byte buffers, and how often callbacks run

`Param/Model.lean` has `parameter_clone` for a destination that is not the source, and takes every pointer to be aligned.
Here the two handles are elements of one list, so that they may be the same one, and the accesses through a pointer to the
type of the parameter ask for an aligned address.
-/
namespace Gel.Param
open Spec

/-! ## C171 -/

/-- `parameter_clone(&ps[d], &ps[s], pointer)`, parameter.c:91-140, statement by statement: `*dest = *src`,
`dest->pointer = pointer`, then the value is read through `src`. -/
def cloneIn (ps : List Handle) (m : Mem) (d s : Nat) (pointer : Option Nat) : Res (List Handle × Mem) :=
  match pointer with
  | some p => do
    let src ← rd ps s
    let ps ← wr ps d src
    let dest ← rd ps d
    let ps ← wr ps d { dest with pointer := p }
    let src ← rd ps s
    let dest ← rd ps d
    pure (ps, wrv m dest.pointer src.type (rdv m src.pointer src.type))
  | none => pure (ps, m)

/-- **C171** (partial). A clone whose destination is another handle than the source: the destination becomes the source with the new
variable, which gets the source's value; no other handle changes, and no other byte. Missing: a handle cloned to itself
(`C171_wrong`). -/
theorem C171_partial (ps : List Handle) (m : Mem) (d s p : Nat) (src : Handle) (hs : ps[s]? = some src) (hd : d < ps.length)
    (hne : d ≠ s) :
    ∃ m', cloneIn ps m d s (some p) = .ok (ps.set d { src with pointer := p }, m') ∧
      rdv m' p src.type = rdv m src.pointer src.type ∧ (∀ b, b < p ∨ p + src.type.size ≤ b → m' b = m b) ∧
      clone m true (some src) (some p) = (m', some { src with pointer := p }) := by
  refine ⟨wrv m p src.type (rdv m src.pointer src.type), ?_, ?_, fun b hb => wrv_frame _ _ _ _ _ hb, rfl⟩
  · simp [cloneIn, rd, wr, hs, hd, hne, Res.ok_bind]
  · rw [rdv_wrv, wrap_of_range _ _ (rdv_range _ _ _)]

theorem store_load (m : Mem) (a n : Nat) : ∀ b, a ≤ b → b < a + n →
    BitVec.ofNat 8 (load m a n / 256 ^ (b - a)) = m b := by
  induction n generalizing a with
  | zero => intro b h1 h2; omega
  | succ n ih =>
    intro b h1 h2
    rw [load]
    by_cases hb : b = a
    · subst hb
      rw [Nat.sub_self, Nat.pow_zero, Nat.div_one]
      apply BitVec.eq_of_toNat_eq
      have := (m b).isLt
      rw [BitVec.toNat_ofNat]; omega
    · rw [show b - a = (b - (a + 1)) + 1 by omega, Nat.pow_succ', ← Nat.div_div_eq_div_mul,
        show ((m a).toNat + 256 * load m (a + 1) n) / 256 = load m (a + 1) n by have := (m a).isLt; omega]
      exact ih (a + 1) b (by omega) (by omega)

theorem wrapU_wrap (t : Ty) (x : Int) (h0 : 0 ≤ x) (h1 : x < 2 ^ (8 * t.size)) : wrapU (8 * t.size) (t.wrap x) = x := by
  cases t <;> simp only [Ty.wrap, Ty.signed, Ty.size, wrapS, wrapU, BitVec.toInt_ofInt, Int.bmod, if_true,
    Bool.false_eq_true, if_false] at * <;> (try split_ifs) <;> omega

/-- Storing what is there changes nothing. -/
theorem wrv_rdv (m : Mem) (a : Nat) (t : Ty) : wrv m a t (rdv m a t) = m := by
  funext b
  rw [wrv, store]
  split_ifs with h
  · have hl := load_lt m a t.size
    have hpow : (256 : Nat) ^ t.size = 2 ^ (8 * t.size) := by rw [Nat.pow_mul]
    rw [hpow] at hl
    rw [rdv, wrapU_wrap _ _ (by omega) (by exact_mod_cast hl), Int.toNat_natCast]
    exact store_load m a t.size b h.1 h.2
  · rfl

/-- **C171**, where it fails: a handle cloned to itself, to give it another variable, is moved there but the value stays behind: the
new variable keeps what it had, since `src->pointer` already is the new address when the value is read. -/
theorem C171_wrong (ps : List Handle) (m : Mem) (s p : Nat) (src : Handle) (hs : ps[s]? = some src) :
    cloneIn ps m s s (some p) = .ok (ps.set s { src with pointer := p }, m) := by
  obtain ⟨h1, h2⟩ := List.getElem?_eq_some_iff.1 hs
  subst h2
  simp [cloneIn, rd, wr, h1, Res.ok_bind, wrv_rdv]

/-- A parameter with the value 42 in the byte 100 is moved to the byte 200: afterwards it reads what was there. -/
example : (do let (ps, m) ← cloneIn [hnd .u8 0 99 1] (mem 42) 0 0 (some 200)
              let h ← rd ps 0
              pure (h.pointer, rdv m h.pointer .u8)) = .ok (200, 5) ∧
    (do let (ps, m) ← cloneIn [hnd .u8 0 99 1, hnd .u8 0 0 0] (mem 42) 1 0 (some 200)
        let h ← rd ps 1
        pure (h.pointer, rdv m h.pointer .u8)) = .ok (200, 42) := by decide

/-! ## C172 -/

/-- The address is good for an access with the type: types are aligned to their size (so they are on the usual 32-bit and
64-bit platforms); anything else is undefined (C11 6.3.2.3p7). -/
def aligned (a : Nat) (t : Ty) : Res Unit := if a % t.size = 0 then .ok () else .ub

/-- The same for the optional limits, `p.pmin ? *(TYPE *)p.pmin : …`, parameter.c:19-20, 47-48. -/
def alignedLimit (a : Option Nat) (t : Ty) : Res Unit :=
  match a with
  | some a => aligned a t
  | none => .ok ()

/-- `parameter_operator`, parameter.c:298-347, with the accesses of the macro (44-57) to the variable and the limits. -/
def operatorA (F : Fl) (m : Mem) (h : Handle) (mod : Int) : Res (Mem × Int) := do
  aligned h.pointer h.type
  alignedLimit h.pmin h.type
  alignedLimit h.pmax h.type
  operator F m (some h) mod

/-- `parameter_to_long`, parameter.c:144-183; floating point types have no case and no access. -/
def toLongA (lw : Nat) (m : Mem) (h : Handle) : Res Int := do
  if h.type.isInt then aligned h.pointer h.type
  pure (toLong lw m (some h))

/-- The body of the loop of `parameter_check_ranges`, parameter.c:410-488, whose macro (30-41) reads variable and limits. -/
def checkBodyA (F : Fl) (h : Handle) (s : Mem × Int) : Res (Mem × Int) := do
  alignedLimit h.pmin h.type
  alignedLimit h.pmax h.type
  aligned h.pointer h.type
  checkBody F h s

/-- The limits of the handle can be read. -/
def LimitsAligned (h : Handle) : Prop := ∀ a, h.pmin = some a ∨ h.pmax = some a → a % h.type.size = 0

theorem alignedLimit_ok (a : Option Nat) (t : Ty) (h : ∀ x, a = some x → x % t.size = 0) : alignedLimit a t = .ok () := by
  cases a with
  | none => rfl
  | some x => simp only [alignedLimit, aligned]; rw [if_pos (h x rfl)]

/-- **C172** (partial). A clone in a buffer whose address is a multiple of the size of the type (any address, for one byte) can be
used as any parameter: no operation meets a misaligned access. Missing: other buffers (`C172_wrong`). -/
theorem C172_partial (F : Fl) (lw : Nat) (m : Mem) (s : Handle) (b : Nat) (hl : LimitsAligned s)
    (hb : b % s.type.size = 0) (ha : Apart b s.type.size s.pointer s.type.size) :
    ∃ m' c, cloneWithBuffer m s b = .ok (m', c) ∧ (∀ m'' mod, operatorA F m'' c mod = operator F m'' (some c) mod) ∧
      (∀ m'', toLongA lw m'' c = .ok (toLong lw m'' (some c))) ∧ (∀ x, checkBodyA F c x = checkBody F c x) ∧
      toLongA lw m' c = .ok (toLong lw m (some s)) := by
  obtain ⟨m', e, h1, h2⟩ := ((C42_copies F m s).2.2.2 b ha).2.1
  have hmin : alignedLimit s.pmin s.type = .ok () := alignedLimit_ok _ _ fun x hx => hl x (Or.inl hx)
  have hmax : alignedLimit s.pmax s.type = .ok () := alignedLimit_ok _ _ fun x hx => hl x (Or.inr hx)
  have hp : aligned b s.type = .ok () := by rw [aligned, if_pos hb]
  have hlong : ∀ m'', toLongA lw m'' { s with pointer := b } = .ok (toLong lw m'' (some { s with pointer := b })) := by
    intro m''
    simp only [toLongA, hp]
    split_ifs <;> rfl
  refine ⟨m', _, e, ?_, hlong, ?_, ?_⟩
  · intro m'' mod
    simp only [operatorA, hp, hmin, hmax, Res.ok_bind]
  · intro x
    simp only [checkBodyA, hp, hmin, hmax, Res.ok_bind]
  · rw [hlong]
    have hu : ∀ u : Ty, u.size = s.type.size → rdv m' b u = rdv m s.pointer u := by
      intro u hu
      have hload : load m' b s.type.size = load m s.pointer s.type.size := by
        have h3 := congrArg (wrapU (8 * s.type.size)) h1
        have e1 := load_lt m' b s.type.size
        have e2 := load_lt m s.pointer s.type.size
        have hpow : (256 : Nat) ^ s.type.size = 2 ^ (8 * s.type.size) := by rw [Nat.pow_mul]
        rw [hpow] at e1 e2
        rw [rdv, rdv, wrapU_wrap _ _ (by omega) (by exact_mod_cast e1), wrapU_wrap _ _ (by omega) (by exact_mod_cast e2)] at h3
        exact_mod_cast h3
      rw [rdv, rdv, hu, hload]
    simp only [toLong]
    cases ht : s.type with
    | flt => rfl
    | dbl => rfl
    | u8 => simp only []; rw [hu .u8 (by rw [ht])]
    | i8 => simp only []; rw [hu .u8 (by rw [ht]; rfl)]
    | u16 => simp only []; rw [hu .u16 (by rw [ht])]
    | i16 => simp only []; rw [hu .i16 (by rw [ht])]
    | u32 => simp only []; rw [hu .u32 (by rw [ht])]
    | i32 => simp only []; rw [hu .i32 (by rw [ht])]
    | u64 => simp only []; rw [hu .u64 (by rw [ht])]
    | i64 => simp only []; rw [hu .i64 (by rw [ht])]

/-- **C172**, where it fails: if the address of the buffer is no multiple of the size, the clone is made (by `memcpy`) but the first
access to it is undefined, although the source is fine. A `uint8_t` array need not have any alignment. -/
theorem C172_wrong (F : Fl) (lw : Nat) (m : Mem) (s : Handle) (b : Nat) (hl : LimitsAligned s)
    (hb : b % s.type.size ≠ 0) (ha : Apart b s.type.size s.pointer s.type.size) :
    ∃ m' c, cloneWithBuffer m s b = .ok (m', c) ∧ (∀ m'' mod, operatorA F m'' c mod = .ub) ∧
      (s.type.isInt = true → ∀ m'', toLongA lw m'' c = .ub) ∧ (∀ x, checkBodyA F c x = .ub) := by
  obtain ⟨m', e, h1, h2⟩ := ((C42_copies F m s).2.2.2 b ha).2.1
  have hmin : alignedLimit s.pmin s.type = .ok () := alignedLimit_ok _ _ fun x hx => hl x (Or.inl hx)
  have hmax : alignedLimit s.pmax s.type = .ok () := alignedLimit_ok _ _ fun x hx => hl x (Or.inr hx)
  have hp : aligned b s.type = .ub := by rw [aligned, if_neg hb]
  refine ⟨m', _, e, ?_, ?_, ?_⟩
  · intro m'' mod
    simp only [operatorA, hp, Res.ub_bind]
  · intro ht m''
    simp only [toLongA, hp, ht, if_true, Res.ub_bind]
  · intro x
    simp only [checkBodyA, hp, hmin, hmax, Res.ok_bind, Res.ub_bind]

example : (do let (m, c) ← cloneWithBuffer (mem 42) (hnd .u16 0 999 1) 204
              toLongA 32 m c) = .ok 0xEE2A ∧
    (do let (m, c) ← cloneWithBuffer (mem 42) (hnd .u16 0 999 1) 205
        toLongA 32 m c) = .ub := by decide

/-! ## C173 -/

/-- **C173.** How often the callbacks run, for callbacks that change their own handle: `parameter_get_count` runs each once,
the lookup runs those up to the handle it returns once (all of them if there is none), but `parameter_reset_to_defaults` and
`parameter_check_ranges` run the one of handle `j` once for every handle from `j` on: the first one as often as the list is
long. -/
theorem C173_calls (env : Env) (g : Nat → Handle → Handle) (hl : Local env g) (ps : List Handle) (m : Mem) :
    (∀ al, ∃ ps' c, getCount env (ps, m) al = .ok ((ps', m), c) ∧ ps' = ps.map (upd g)) ∧
    (∀ num al, num < ps.length → ∃ ps' r, getHandle env (ps, m) num al = .ok ((ps', m), r) ∧
      ps' = match r with
        | some k => (ps.take (k + 1)).map (upd g) ++ ps.drop (k + 1)
        | none => ps.map (upd g)) ∧
    (∀ ps' m', resetToDefaults env (ps, m) = .ok (ps', m') →
      ps' = ps.mapIdx fun j h => (upd g)^[ps.length - j] h) ∧
    (∀ F ps' m' c, checkRanges env F (ps, m) = .ok ((ps', m'), c) →
      ps' = ps.mapIdx fun j h => (upd g)^[ps.length - j] h) := by
  have hidx : ∀ ps' : List Handle, ps'.length = ps.length →
      (∀ j, j < ps.length → ps'[j]? = (ps[j]?).map (updN g (if 0 ≤ j then ps.length - j else ps.length))) →
      ps' = ps.mapIdx fun j h => (upd g)^[ps.length - j] h := by
    intro ps' l p
    apply List.ext_getElem?
    intro j
    by_cases hj : j < ps.length
    · rw [p j hj, if_pos (Nat.zero_le _), List.getElem?_mapIdx]; rfl
    · rw [List.getElem?_eq_none (by omega), List.getElem?_eq_none (by simp; omega)]
  refine ⟨?_, ?_, ?_, ?_⟩
  · intro al
    obtain ⟨ps', e, p⟩ := countLoop_eq hl al ps.length 0 0 ps m (by omega)
    refine ⟨ps', _, e, ?_⟩
    apply List.ext_getElem?
    intro j
    rw [p j, if_pos (Nat.zero_le _), List.getElem?_map]
  · intro num al hn
    obtain ⟨ps', r, e, l, p, q, -⟩ := getLoop_eq hl al ps.length 0 num ps m (by omega)
    refine ⟨ps', r, ?_, ?_⟩
    · rw [getHandle, cassert, if_pos (by simpa using hn)]; exact e
    · apply List.ext_getElem?
      intro j
      rw [p j]
      cases r with
      | none => rw [if_pos ⟨Nat.zero_le _, by simp⟩]; simp
      | some k =>
        have hk := (q k rfl).2.1
        by_cases hj : j ≤ k
        · rw [if_pos ⟨Nat.zero_le _, fun k' hk' => by injection hk'; omega⟩]
          rw [List.getElem?_append_left (by simp; omega), List.getElem?_map, List.getElem?_take, if_pos (by omega)]
        · rw [if_neg (fun h => hj (h.2 k rfl))]
          rw [List.getElem?_append_right (by simp; omega), List.getElem?_drop]
          congr 1
          simp; omega
  · intro ps' m' hr
    obtain ⟨ps1, e, l, p⟩ := eachLoop_eq hl resetBody ps.length 0 ps m 0 (by omega)
    rw [resetToDefaults, e] at hr
    cases he : each resetBody ((ps.drop 0).map (upd g)) (m, 0) with
    | ok s =>
      rw [he] at hr
      simp only [Res.ok_bind, Res.pure_eq] at hr
      injection hr with hr
      injection hr with h1 h2
      rw [← h1]; exact hidx ps1 l p
    | ub => rw [he] at hr; cases hr
    | abort => rw [he] at hr; cases hr
    | diverge => rw [he] at hr; cases hr
  · intro F ps' m' c hr
    obtain ⟨ps1, e, l, p⟩ := eachLoop_eq hl (checkBody F) ps.length 0 ps m 0 (by omega)
    rw [checkRanges, e] at hr
    cases he : each (checkBody F) ((ps.drop 0).map (upd g)) (m, 0) with
    | ok s =>
      rw [he] at hr
      simp only [Res.ok_bind, Res.pure_eq] at hr
      injection hr with hr
      injection hr with h1 h2
      injection h1 with h1 h3
      rw [← h1]; exact hidx ps1 l p
    | ub => rw [he] at hr; cases hr
    | abort => rw [he] at hr; cases hr
    | diverge => rw [he] at hr; cases hr

/-- Callbacks that count their calls in `arg`. -/
def counting : Env := fun _ i s => (s.1.modify i fun h => { h with arg := h.arg + 1 }, s.2)

theorem counting_local : Local counting fun _ h => { h with arg := h.arg + 1 } := by
  intro f i ps m h hi
  obtain ⟨h1, h2⟩ := List.getElem?_eq_some_iff.1 hi
  subst h2
  simp [counting, List.modify_eq_set_getElem?, h1]

/-- With three handles, one reset calls the first callback three times, the second one twice; one count calls each once. -/
example : let h := { hnd .u8 0 99 1 with runtime := some 0, arg := 0 }
    (do let (ps, _) ← resetToDefaults counting ([h, h, h], mem 42)
        pure (ps.map Handle.arg)) = .ok [3, 2, 1] ∧
    (do let ((ps, _), _) ← getCount counting ([h, h, h], mem 42) 1
        pure (ps.map Handle.arg)) = .ok [1, 1, 1] := by decide

end Gel.Param
