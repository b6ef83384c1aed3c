import Verif.Param.Props
import Mathlib.Data.List.Range
import Mathlib.Data.List.Perm.Basic
import Mathlib.Tactic.SplitIfs

/-!
# Parameter: a handler between the bytes of a store (C226)

On a machine that stores one byte at a time the stores `*var = …` of parameter.c:50-55 are several steps, in an order that the compiler
chooses. An interrupt handler between two of them reads the variable with some bytes new and some old.
-/
namespace Gel.Param
open Spec

/-- Byte `i` of `x` is stored at `a + i`. -/
def storeByte (a x : Nat) (m : Mem) (i : Nat) : Mem := fun b => if b = a + i then BitVec.ofNat 8 (x / 256 ^ i) else m b

/-- The bytes `is` of `x` are stored, one after the other. -/
def storeBytes (m : Mem) (a x : Nat) (is : List Nat) : Mem := is.foldl (storeByte a x) m

/-- `*(TYPE *)a = x`, of which only the bytes `is` have been stored so far. -/
def wrvBytes (m : Mem) (a : Nat) (t : Ty) (x : Int) (is : List Nat) : Mem := storeBytes m a (wrapU (8 * t.size) x).toNat is

/-- `APPLY_OPERATOR`, parameter.c:44-57, as far as the bytes `is` of the store at its end. -/
def applyOperatorB (F : Fl) (m : Mem) (h : Handle) (mod : Int) (is : List Nat) : Res Mem := do
  let v := rdv m h.pointer h.type
  let min := lo m h
  let max := hi m h
  let newv ← newValue F h.type v (member h.type h.step) mod
  let res := checkRangeAgainst F m h newv
  if res ≠ 0 ∧ mod > 0 then pure (wrvBytes m h.pointer h.type min is)
  else if res ≠ 0 ∧ mod < 0 then pure (wrvBytes m h.pointer h.type max is)
  else pure (wrvBytes m h.pointer h.type newv is)

/-- An order in which all bytes of the variable are stored. -/
def Order (t : Ty) (is : List Nat) : Prop := is.Perm (List.range t.size)

theorem storeBytes_at (a x : Nat) : ∀ (is : List Nat) (m : Mem) (b : Nat),
    storeBytes m a x is b = if a ≤ b ∧ b - a ∈ is then BitVec.ofNat 8 (x / 256 ^ (b - a)) else m b
  | [], m, b => by simp [storeBytes]
  | i :: is, m, b => by
    have e : storeBytes m a x (i :: is) = storeBytes (storeByte a x m i) a x is := rfl
    rw [e, storeBytes_at a x is, storeByte]
    by_cases h : a ≤ b
    · by_cases hi : b - a ∈ is
      · simp [h, hi]
      · by_cases hb : b = a + i
        · subst hb; simp [hi]
        · have : b - a ≠ i := by omega
          simp [h, hi, hb, this]
    · have : b ≠ a + i := by omega
      simp [h, this]

/-- When all bytes are stored, in any order, the store is that of the first model. -/
theorem wrvBytes_all (m : Mem) (a : Nat) {t : Ty} (x : Int) {is : List Nat} (ho : Order t is) : wrvBytes m a t x is = wrv m a t x := by
  funext b
  have hm : b - a ∈ is ↔ b - a < t.size := ho.mem_iff.trans List.mem_range
  rw [wrvBytes, storeBytes_at, wrv, store]
  simp only [hm]
  by_cases h : a ≤ b
  · by_cases h' : b < a + t.size
    · rw [if_pos ⟨h, by omega⟩, if_pos ⟨h, h'⟩]
    · rw [if_neg (by omega), if_neg (by omega)]
  · rw [if_neg (by omega), if_neg (by omega)]

/-- **C226.** Without a handler the order of the bytes does not matter: the call is that of the first model. -/
theorem C226_quiet (F : Fl) (m : Mem) (h : Handle) (mod : Int) {is : List Nat} (ho : Order h.type is) :
    applyOperatorB F m h mod is = applyOperator F m h mod := by
  simp only [applyOperatorB, applyOperator, wrvBytes_all _ _ _ ho]

/-- The call, as far as the bytes `is`, in terms of the whole call. -/
theorem applyOperatorB_of {F : Fl} {m m' : Mem} {h : Handle} {mod : Int} (e : applyOperator F m h mod = .ok m') :
    ∃ v, m' = wrv m h.pointer h.type v ∧ ∀ is, applyOperatorB F m h mod is = .ok (wrvBytes m h.pointer h.type v is) := by
  simp only [applyOperator] at e
  simp only [applyOperatorB]
  cases hn : newValue F h.type (rdv m h.pointer h.type) (member h.type h.step) mod with
  | ok v =>
    rw [hn] at e
    simp only [Res.ok_bind, Res.pure_eq] at e ⊢
    split_ifs at e with c1 c2
    · cases e; exact ⟨_, rfl, fun is => by rw [if_pos c1]⟩
    · cases e; exact ⟨_, rfl, fun is => by rw [if_neg c1, if_pos c2]⟩
    · cases e; exact ⟨_, rfl, fun is => by rw [if_neg c1, if_neg c2]⟩
  | ub => rw [hn] at e; simp at e
  | abort => rw [hn] at e; cases e
  | diverge => rw [hn] at e; cases e

/-- **C226.** What a handler finds after the first `k` bytes: each byte of the variable is the one afterwards if it is among the first `k`
of the order, the one before otherwise, and no other byte is changed. -/
theorem C226_exact {F : Fl} {m m' : Mem} {h : Handle} {mod : Int} {is : List Nat} (ho : Order h.type is) (e : applyOperator F m h mod = .ok m')
    (k : Nat) : ∃ s, applyOperatorB F m h mod (is.take k) = .ok s ∧
      (∀ i, i < h.type.size → s (h.pointer + i) = if i ∈ is.take k then m' (h.pointer + i) else m (h.pointer + i)) ∧
      ∀ b, (b < h.pointer ∨ h.pointer + h.type.size ≤ b) → s b = m b := by
  obtain ⟨v, rfl, ha⟩ := applyOperatorB_of e
  refine ⟨_, ha _, fun i hi => ?_, fun b hb => ?_⟩
  · rw [wrvBytes, storeBytes_at]
    simp only [Nat.le_add_right, true_and, Nat.add_sub_cancel_left]
    by_cases c : i ∈ is.take k
    · rw [if_pos c, if_pos c, wrv, store, if_pos ⟨by omega, by omega⟩, Nat.add_sub_cancel_left]
    · rw [if_neg c, if_neg c]
  · rw [wrvBytes, storeBytes_at, if_neg]
    rintro ⟨h1, h2⟩
    have := ho.mem_iff.1 (List.mem_of_mem_take h2)
    rw [List.mem_range] at this
    omega

/-- The first `k` bytes in ascending order: the low ones. -/
theorem load_mixed (m : Mem) (x : Nat) : ∀ (n k a : Nat), k ≤ n → x < 256 ^ n →
    load (fun b => if a ≤ b ∧ b - a < k then BitVec.ofNat 8 (x / 256 ^ (b - a)) else m b) a n =
      x % 256 ^ k + 256 ^ k * (load m a n / 256 ^ k)
  | 0, k, a, hk, hx => by
    obtain rfl : k = 0 := by omega
    simp [load]
    omega
  | n + 1, 0, a, hk, hx => by
    simp [Nat.mod_one]
  | n + 1, k + 1, a, hk, hx => by
    have ih := load_mixed m (x / 256) n k (a + 1) (by omega) (by rw [pow_succ] at hx; omega)
    rw [load]
    have e : load (fun b => if a ≤ b ∧ b - a < k + 1 then BitVec.ofNat 8 (x / 256 ^ (b - a)) else m b) (a + 1) n =
        load (fun b => if a + 1 ≤ b ∧ b - (a + 1) < k then BitVec.ofNat 8 (x / 256 / 256 ^ (b - (a + 1))) else m b) (a + 1) n := by
      apply load_congr
      intro b h1 h2
      obtain ⟨j, rfl⟩ : ∃ j, b = a + 1 + j := ⟨b - (a + 1), by omega⟩
      have e1 : a + 1 + j - a = j + 1 := by omega
      have e2 : a + 1 + j - (a + 1) = j := by omega
      simp only [e1, e2, Nat.div_div_eq_div_mul, ← pow_succ']
      by_cases c : j < k
      · rw [if_pos ⟨by omega, by omega⟩, if_pos ⟨by omega, c⟩]
      · rw [if_neg (by omega), if_neg (by omega)]
    rw [e, ih]
    simp only [le_refl, Nat.sub_self, Nat.succ_pos, true_and, if_true, pow_zero, Nat.div_one, BitVec.toNat_ofNat]
    have hm := (m a).isLt
    have e3 : load m a (n + 1) / 256 ^ (k + 1) = load m (a + 1) n / 256 ^ k := by
      rw [load, pow_succ', ← Nat.div_div_eq_div_mul]
      congr 1
      omega
    rw [e3, pow_succ' 256 k, Nat.mod_mul (x := x) (a := 256) (b := 256 ^ k)]
    norm_num
    ring

/-- **C226.** If the bytes are stored from the lowest, the handler after `k` bytes reads the low `k` bytes of the new value with the high
ones of the old. -/
theorem C226_ascending {F : Fl} {m m' : Mem} {h : Handle} {mod : Int} (e : applyOperator F m h mod = .ok m') {k : Nat} (hk : k ≤ h.type.size) :
    ∃ s, applyOperatorB F m h mod ((List.range h.type.size).take k) = .ok s ∧
      rdv s h.pointer h.type = h.type.wrap
        ((load m' h.pointer h.type.size % 256 ^ k + 256 ^ k * (load m h.pointer h.type.size / 256 ^ k) : Nat) : Int) := by
  obtain ⟨v, rfl, ha⟩ := applyOperatorB_of e
  refine ⟨_, ha _, ?_⟩
  have hx : (wrapU (8 * h.type.size) v).toNat < 256 ^ h.type.size := by
    have h1 : wrapU (8 * h.type.size) v < 2 ^ (8 * h.type.size) := by
      rw [wrapU]; exact Int.emod_lt_of_pos _ (by positivity)
    have h0 : 0 ≤ wrapU (8 * h.type.size) v := by
      rw [wrapU]; exact Int.emod_nonneg _ (by positivity)
    have e2 : (256 : Nat) ^ h.type.size = 2 ^ (8 * h.type.size) := by rw [pow_mul]; norm_num
    rw [e2]
    zify
    rw [Int.toNat_of_nonneg h0]
    exact h1
  rw [rdv, wrv, load_store, Nat.mod_eq_of_lt hx, ← load_mixed m _ _ _ _ hk hx]
  congr 2
  apply load_congr
  intro b h1 h2
  rw [wrvBytes, storeBytes_at]
  simp only [List.take_range, List.mem_range, Nat.min_eq_left hk]

/-- **C226** (partial). If at most one byte of the variable changes, in particular if it has only one, the handler finds the variable as it
is before the call or as it is afterwards, whatever the order. Missing: two bytes that change, for which it is false (`C226_wrong`). -/
theorem C226_partial {F : Fl} {m m' : Mem} {h : Handle} {mod : Int} {is : List Nat} (ho : Order h.type is) (e : applyOperator F m h mod = .ok m')
    {j : Nat} (hj : ∀ i, i < h.type.size → i ≠ j → m' (h.pointer + i) = m (h.pointer + i)) (k : Nat) :
    ∃ s, applyOperatorB F m h mod (is.take k) = .ok s ∧ (s = m ∨ s = m') := by
  obtain ⟨s, hs, h1, h2⟩ := C226_exact ho e k
  refine ⟨s, hs, ?_⟩
  have hf : ∀ b, (b < h.pointer ∨ h.pointer + h.type.size ≤ b) → m' b = m b := by
    obtain ⟨v, rfl, -⟩ := applyOperatorB_of e
    exact fun b hb => wrv_frame _ _ _ _ _ hb
  by_cases c : j ∈ is.take k
  · right
    funext b
    by_cases hb : b < h.pointer ∨ h.pointer + h.type.size ≤ b
    · rw [h2 b hb, hf b hb]
    · obtain ⟨i, rfl⟩ : ∃ i, b = h.pointer + i := ⟨b - h.pointer, by omega⟩
      rw [h1 i (by omega)]
      by_cases hij : i = j
      · subst hij; rw [if_pos c]
      · rw [hj i (by omega) hij, ite_self]
  · left
    funext b
    by_cases hb : b < h.pointer ∨ h.pointer + h.type.size ≤ b
    · rw [h2 b hb]
    · obtain ⟨i, rfl⟩ : ∃ i, b = h.pointer + i := ⟨b - h.pointer, by omega⟩
      rw [h1 i (by omega)]
      by_cases hij : i = j
      · subst hij; rw [if_neg c]
      · rw [hj i (by omega) hij, ite_self]

/-- **C226** (partial). A variable of one byte is found whole. -/
theorem C226_byte_partial {F : Fl} {m m' : Mem} {h : Handle} {mod : Int} {is : List Nat} (ho : Order h.type is) (e : applyOperator F m h mod = .ok m')
    (h1 : h.type.size = 1) (k : Nat) : ∃ s, applyOperatorB F m h mod (is.take k) = .ok s ∧ (s = m ∨ s = m') :=
  C226_partial (j := 0) ho e (fun i hi hn => absurd hi (by omega)) k

/-! ## Where it fails -/

theorem wrap_inj (t : Ty) {x y : Nat} (hx : x < 256 ^ t.size) (hy : y < 256 ^ t.size) (e : t.wrap x = t.wrap y) : x = y := by
  cases t <;> simp only [Ty.wrap, Ty.signed, Ty.size, wrapS, wrapU, BitVec.toInt_ofInt, Int.bmod, if_true, Bool.false_eq_true, if_false] at e hx hy <;>
    (try split_ifs at e) <;> omega

theorem load_inj {m m' : Mem} : ∀ {n a : Nat}, load m a n = load m' a n → ∀ i, i < n → m (a + i) = m' (a + i)
  | 0, _, _, i, hi => absurd hi (by omega)
  | n + 1, a, e, i, hi => by
    rw [load, load] at e
    have h1 := (m a).isLt
    have h2 := (m' a).isLt
    cases i with
    | zero => apply BitVec.eq_of_toNat_eq; simp only [Nat.add_zero]; omega
    | succ i =>
      have := load_inj (m := m) (m' := m') (n := n) (a := a + 1) (by omega) i (by omega)
      rwa [show a + (i + 1) = a + 1 + i by omega]

theorem rdv_inj {m m' : Mem} {a : Nat} {t : Ty} (e : rdv m a t = rdv m' a t) : ∀ i, i < t.size → m (a + i) = m' (a + i) :=
  load_inj (wrap_inj t (load_lt _ _ _) (load_lt _ _ _) e)

/-- At some time one of two bytes has been stored and the other has not. -/
theorem oneStored {i j : Nat} (hn : i ≠ j) : ∀ {is : List Nat}, i ∈ is → j ∈ is →
    ∃ k, (i ∈ is.take k ∧ j ∉ is.take k) ∨ (j ∈ is.take k ∧ i ∉ is.take k)
  | [], h, _ => absurd h (by simp)
  | x :: is, h1, h2 => by
    by_cases e1 : x = i
    · subst e1; exact ⟨1, .inl ⟨by simp, by simpa using fun e => hn e.symm⟩⟩
    · by_cases e2 : x = j
      · subst e2; exact ⟨1, .inr ⟨by simp, by simpa using hn⟩⟩
      · rw [List.mem_cons] at h1 h2
        obtain ⟨k, hk⟩ := oneStored hn (h1.resolve_left (fun e => e1 e.symm)) (h2.resolve_left (fun e => e2 e.symm))
        refine ⟨k + 1, ?_⟩
        simpa [List.take_succ_cons, Ne.symm e1, Ne.symm e2] using hk

/-- **C226**, where it fails: whenever two bytes change, in every order there is a time at which the handler reads a value that is neither
the one before nor the one afterwards. -/
theorem C226_mixed_wrong {F : Fl} {m m' : Mem} {h : Handle} {mod : Int} {is : List Nat} (ho : Order h.type is) (e : applyOperator F m h mod = .ok m')
    {i j : Nat} (hn : i ≠ j) (hi : i < h.type.size) (hj : j < h.type.size) (ei : m' (h.pointer + i) ≠ m (h.pointer + i))
    (ej : m' (h.pointer + j) ≠ m (h.pointer + j)) :
    ∃ k s, applyOperatorB F m h mod (is.take k) = .ok s ∧ rdv s h.pointer h.type ≠ rdv m h.pointer h.type ∧
      rdv s h.pointer h.type ≠ rdv m' h.pointer h.type := by
  have mi : i ∈ is := ho.mem_iff.2 (List.mem_range.2 hi)
  have mj : j ∈ is := ho.mem_iff.2 (List.mem_range.2 hj)
  obtain ⟨k, hk⟩ := oneStored hn mi mj
  obtain ⟨s, hs, h1, -⟩ := C226_exact ho e k
  refine ⟨k, s, hs, fun c => ?_, fun c => ?_⟩
  · have ci := rdv_inj c i hi
    have cj := rdv_inj c j hj
    rw [h1 i hi] at ci
    rw [h1 j hj] at cj
    rcases hk with ⟨k1, k2⟩ | ⟨k1, k2⟩
    · rw [if_pos k1] at ci; exact ei ci
    · rw [if_pos k1] at cj; exact ej cj
  · have ci := rdv_inj c i hi
    have cj := rdv_inj c j hj
    rw [h1 i hi] at ci
    rw [h1 j hj] at cj
    rcases hk with ⟨k1, k2⟩ | ⟨k1, k2⟩
    · rw [if_neg k2] at cj; exact ej cj.symm
    · rw [if_neg k2] at ci; exact ei ci.symm

/-- **C226**, where it fails: a step from 255 to 256 with those limits, of any integer type of two bytes or more. In every order there is a
time at which the handler reads a value outside the limits, 0 or 511. -/
theorem C226_limits_wrong (F : Fl) {m : Mem} {h : Handle} {is : List Nat} (ho : Order h.type is) (ht : h.type.isInt = true) (h2 : 2 ≤ h.type.size)
    (hn : h.pmin = none) (hx : h.pmax = none) (hlo : member h.type h.min = 255) (hhi : member h.type h.max = 256) (hst : member h.type h.step = 1)
    (hv : rdv m h.pointer h.type = 255) :
    (∃ m', applyOperator F m h 1 = .ok m' ∧ rdv m' h.pointer h.type = 256) ∧
    ∃ k s, applyOperatorB F m h 1 (is.take k) = .ok s ∧ (rdv s h.pointer h.type = 0 ∨ rdv s h.pointer h.type = 511) ∧ checkRange F s h ≠ 0 := by
  have hl : ∀ m, lo m h = 255 := fun m => by rw [lo, hn]; exact hlo
  have hh : ∀ m, hi m h = 256 := fun m => by rw [hi, hx]; exact hhi
  have hty : ∀ t : Ty, t.isInt = true → 2 ≤ t.size → newValue F t 255 1 1 = .ok 256 ∧ (wrapU (8 * t.size) 256).toNat = 256 ∧
      ∀ x : Nat, x = 0 ∨ x = 255 ∨ x = 256 ∨ x = 511 → t.wrap x = x ∧ x < 256 ^ t.size := by
    intro t h1 h2
    cases t
    case u8 => exact absurd h2 (by decide)
    case i8 => exact absurd h2 (by decide)
    case flt => exact absurd h1 (by decide)
    case dbl => exact absurd h1 (by decide)
    all_goals
      refine ⟨rfl, by decide, ?_⟩
      rintro x (rfl | rfl | rfl | rfl) <;> decide
  obtain ⟨hnv, hu, w⟩ := hty h.type ht h2
  have hop : ∀ is, applyOperatorB F m h 1 is = .ok (wrvBytes m h.pointer h.type 256 is) := fun is => by
    simp only [applyOperatorB, hv, hst, hnv, Res.ok_bind, checkRangeAgainst, hl, hh, gt, lt, ht]
    simp
  have e : applyOperator F m h 1 = .ok (wrv m h.pointer h.type 256) := by
    rw [← C226_quiet F m h 1 ho, hop, wrvBytes_all _ _ _ ho]
  refine ⟨⟨_, e, by rw [rdv_wrv]; exact (w 256 (by simp)).1⟩, ?_⟩
  -- the bytes before
  have lm : load m h.pointer h.type.size = 255 := by
    apply wrap_inj h.type (load_lt _ _ _) (w 255 (by simp)).2
    rw [(w 255 (by simp)).1]; exact hv
  have z : ∀ {m : Mem} {n a : Nat}, load m a n = 0 → ∀ i, i < n → m (a + i) = 0 := by
    intro m n a hz i hi
    have e0 : load (fun _ => 0) a n = 0 := by
      clear hz hi
      induction n generalizing a with
      | zero => rfl
      | succ n ih => rw [load, ih]; rfl
    exact load_inj (hz.trans e0.symm) i hi
  obtain ⟨n, hs⟩ : ∃ n, h.type.size = n + 2 := ⟨h.type.size - 2, by omega⟩
  rw [hs, load, load] at lm
  have b0 := (m h.pointer).isLt
  have b1 := (m (h.pointer + 1)).isLt
  have m0 : (m h.pointer).toNat = 255 := by omega
  have m1 : (m (h.pointer + 1)).toNat = 0 := by omega
  have m2 : load m (h.pointer + 1 + 1) n = 0 := by omega
  obtain ⟨k, hk⟩ := oneStored (i := 0) (j := 1) (by decide) (ho.mem_iff.2 (List.mem_range.2 (by omega))) (ho.mem_iff.2 (List.mem_range.2 (by omega)))
  refine ⟨k, _, hop _, ?_⟩
  have sa : ∀ i, wrvBytes m h.pointer h.type 256 (is.take k) (h.pointer + i) =
      if i ∈ is.take k then BitVec.ofNat 8 (256 / 256 ^ i) else m (h.pointer + i) := fun i => by
    rw [wrvBytes, storeBytes_at, hu]
    simp only [Nat.le_add_right, true_and, Nat.add_sub_cancel_left]
  have s2 : load (wrvBytes m h.pointer h.type 256 (is.take k)) (h.pointer + 1 + 1) n = 0 := by
    rw [← m2]
    apply load_congr
    intro b h1 h3
    obtain ⟨i, rfl⟩ : ∃ i, b = h.pointer + 1 + 1 + i := ⟨b - (h.pointer + 1 + 1), by omega⟩
    rw [z m2 i (by omega), show h.pointer + 1 + 1 + i = h.pointer + (i + 2) by omega, sa]
    have : 256 / 256 ^ (i + 2) = 0 := Nat.div_eq_of_lt (by
      calc 256 < 256 ^ 2 := by norm_num
        _ ≤ 256 ^ (i + 2) := Nat.pow_le_pow_right (by norm_num) (by omega))
    rw [this, show h.pointer + (i + 2) = h.pointer + 1 + 1 + i by omega, z m2 i (by omega)]
    split_ifs <;> rfl
  have s0 := sa 0
  have s1 := sa 1
  rw [Nat.add_zero] at s0
  have key : load (wrvBytes m h.pointer h.type 256 (is.take k)) h.pointer h.type.size = 0 ∨
      load (wrvBytes m h.pointer h.type 256 (is.take k)) h.pointer h.type.size = 511 := by
    rw [hs, load, load, s2, s0, s1]
    rcases hk with ⟨k1, k2⟩ | ⟨k1, k2⟩
    · left; rw [if_pos k1, if_neg k2, m1]; rfl
    · right; rw [if_neg k2, if_pos k1, m0]; rfl
  have r : rdv (wrvBytes m h.pointer h.type 256 (is.take k)) h.pointer h.type = 0 ∨
      rdv (wrvBytes m h.pointer h.type 256 (is.take k)) h.pointer h.type = 511 := by
    rw [rdv]
    rcases key with c | c
    · left; rw [c]; exact (w 0 (by simp)).1
    · right; rw [c]; exact (w 511 (by simp)).1
  refine ⟨r, ?_⟩
  simp only [checkRange, hl, hh, gt, lt, ht, if_true, decide_eq_true_eq]
  rcases r with c | c <;> rw [c] <;> decide

/-! ## Example: a `uint16_t` at 0 with limits 255 and 256 -/

def exT : Handle := ⟨.u16, 0, none, none, 255, 256, 255, 1, 0, 0, none, 0⟩
def exTM (v : Nat) : Mem := store (fun _ => 0) 0 2 v
def seenT (v : Nat) (mod : Int) (is : List Nat) : Res (Int × Int) :=
  (applyOperatorB ⟨fun _ _ _ => false, fun _ _ _ => false, fun _ _ _ _ => 0, fun _ _ _ => .ub⟩ (exTM v) exT mod is).bind
    fun m => .ok (rdv m 0 .u16, checkRange ⟨fun _ _ _ => false, fun _ _ _ => false, fun _ _ _ _ => 0, fun _ _ _ => .ub⟩ m exT)

example : [[], [0], [0, 1]].map (seenT 255 1) = [.ok (255, 0), .ok (0, -1), .ok (256, 0)] := by decide
example : [[], [1], [1, 0]].map (seenT 255 1) = [.ok (255, 0), .ok (511, 1), .ok (256, 0)] := by decide
-- back from 256: over 511 or 0 too
example : [[], [0], [0, 1]].map (seenT 256 (-1)) = [.ok (256, 0), .ok (511, 1), .ok (255, 0)] := by decide
example : Order exT.type [1, 0] := by unfold Order; decide

end Gel.Param
