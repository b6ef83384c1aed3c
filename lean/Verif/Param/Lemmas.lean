import Verif.Param.Model
import Verif.Param.Spec
import Mathlib.Tactic.Ring
import Mathlib.Tactic.Positivity
import Mathlib.Tactic.SplitIfs

/-!
# Parameter: lemmas about memory, types and loops
-/
namespace Gel.Param

open Spec

/-! ## Memory -/

theorem load_lt (m : Mem) (a n : Nat) : load m a n < 256 ^ n := by
  induction n generalizing a with
  | zero => simp [load]
  | succ n ih =>
    rw [load, pow_succ]
    have := ih (a + 1)
    have := (m a).isLt
    omega

theorem load_congr (m m' : Mem) (a n : Nat) (h : ∀ b, a ≤ b → b < a + n → m b = m' b) : load m a n = load m' a n := by
  induction n generalizing a with
  | zero => rfl
  | succ n ih =>
    rw [load, load, h a (Nat.le_refl _) (by omega), ih (a + 1) (fun b h1 h2 => h b (by omega) (by omega))]

theorem load_store_aux (m : Mem) (a N x : Nat) (j : Nat) : ∀ k, k + j ≤ N →
    load (store m a N x) (a + k) j = x / 256 ^ k % 256 ^ j := by
  induction j with
  | zero => intro k _; simp [load, Nat.mod_one]
  | succ j ih =>
    intro k hk
    rw [load, show a + k + 1 = a + (k + 1) by omega, ih (k + 1) (by omega)]
    rw [show store m a N x (a + k) = BitVec.ofNat 8 (x / 256 ^ k) by
      rw [store, if_pos (by omega), Nat.add_sub_cancel_left]]
    rw [BitVec.toNat_ofNat, show (2 : Nat) ^ 8 = 256 by rfl, pow_succ, ← Nat.div_div_eq_div_mul, pow_succ,
      Nat.mul_comm (256 ^ j), Nat.mod_mul]

theorem load_store (m : Mem) (a n x : Nat) : load (store m a n x) a n = x % 256 ^ n := by
  have := load_store_aux m a n x n 0 (by omega)
  simpa using this

theorem store_frame (m : Mem) (a n x b : Nat) (h : b < a ∨ a + n ≤ b) : store m a n x b = m b := by
  rw [store, if_neg (by omega)]

theorem load_store_apart (m : Mem) (a n x b k : Nat) (h : Apart a n b k) : load (store m a n x) b k = load m b k :=
  load_congr _ _ _ _ fun c h1 h2 => store_frame _ _ _ _ _ (by rcases h with h | h <;> omega)

/-! ## Types -/

theorem wrap_range (t : Ty) (x : Int) : InRange t.signed (8 * t.size) (t.wrap x) := by
  cases t <;> simp only [Ty.wrap, Ty.signed, Ty.size, InRange, wrapS, wrapU, BitVec.toInt_ofInt, Int.bmod, if_true,
    Bool.false_eq_true, if_false] <;> (try split_ifs) <;> omega

theorem wrap_of_range (t : Ty) (x : Int) (h : InRange t.signed (8 * t.size) x) : t.wrap x = x := by
  cases t <;> simp only [Ty.wrap, Ty.signed, Ty.size, InRange, wrapS, wrapU, BitVec.toInt_ofInt, Int.bmod, if_true,
    Bool.false_eq_true, if_false] at h ⊢ <;> (try split_ifs) <;> omega

theorem wrap_wrapU (t : Ty) (x : Int) : t.wrap (wrapU (8 * t.size) x) = t.wrap x := by
  cases t <;> simp only [Ty.wrap, Ty.signed, Ty.size, wrapS, wrapU, BitVec.toInt_ofInt, Int.bmod, if_true,
    Bool.false_eq_true, if_false] <;> (try split_ifs) <;> omega

theorem wrap_emod (t : Ty) (x : Int) : t.wrap (x % 2 ^ (8 * t.size)) = t.wrap x := wrap_wrapU t x

theorem rdv_range (m : Mem) (a : Nat) (t : Ty) : InRange t.signed (8 * t.size) (rdv m a t) := wrap_range _ _

theorem member_range (t : Ty) (u : BitVec 64) : InRange t.signed (8 * t.size) (member t u) := wrap_range _ _

theorem rdv_wrv (m : Mem) (a : Nat) (t : Ty) (x : Int) : rdv (wrv m a t x) a t = t.wrap x := by
  rw [rdv, wrv, load_store]
  have h0 : 0 ≤ wrapU (8 * t.size) x := Int.emod_nonneg _ (by positivity)
  have h1 : wrapU (8 * t.size) x < 2 ^ (8 * t.size) := Int.emod_lt_of_pos _ (by positivity)
  have h2 : (256 : Nat) ^ t.size = 2 ^ (8 * t.size) := by rw [pow_mul, show (2 : Nat) ^ 8 = 256 by rfl]
  rw [Nat.mod_eq_of_lt (by
    rw [h2]; apply Int.ofNat_lt.1; rw [Int.toNat_of_nonneg h0]; push_cast; exact h1), Int.toNat_of_nonneg h0]
  exact wrap_wrapU t x

theorem wrv_frame (m : Mem) (a : Nat) (t : Ty) (x : Int) (b : Nat) (h : b < a ∨ a + t.size ≤ b) :
    wrv m a t x b = m b := store_frame _ _ _ _ _ h

theorem rdv_congr (m m' : Mem) (a : Nat) (t : Ty) (h : ∀ b, a ≤ b → b < a + t.size → m b = m' b) :
    rdv m a t = rdv m' a t := by rw [rdv, rdv, load_congr m m' a t.size h]

theorem rdv_wrv_apart (m : Mem) (a : Nat) (t : Ty) (x : Int) (b : Nat) (u : Ty) (h : Apart a t.size b u.size) :
    rdv (wrv m a t x) b u = rdv m b u := by
  rw [rdv, rdv, wrv, load_store_apart _ _ _ _ _ _ h]

theorem lo_range (m : Mem) (h : Handle) : InRange h.type.signed (8 * h.type.size) (lo m h) := by
  rw [lo]; split <;> [exact rdv_range _ _ _; exact member_range _ _]

theorem hi_range (m : Mem) (h : Handle) : InRange h.type.signed (8 * h.type.size) (hi m h) := by
  rw [hi]; split <;> [exact rdv_range _ _ _; exact member_range _ _]

/-! ## Loops -/

/-- The callbacks change at most the handle they are called with, as `g` does. -/
def Local (env : Env) (g : Nat → Handle → Handle) : Prop :=
  ∀ f i ps m h, ps[i]? = some h → env f i (ps, m) = (ps.set i (g f h), m)

/-- A handle after its own callback. -/
def upd (g : Nat → Handle → Handle) (h : Handle) : Handle :=
  match h.runtime with
  | some f => g f h
  | none => h

/-- One iteration's callback. -/
theorem callback {env : Env} {g} (hl : Local env g) (ps : List Handle) (m : Mem) (i : Nat) (h : Handle)
    (hi : ps[i]? = some h) :
    callRuntime env h i (ps, m) = (ps.set i (upd g h), m) := by
  unfold upd callRuntime
  cases h.runtime with
  | some f => exact hl f i ps m h hi
  | none =>
    obtain ⟨h1, h2⟩ := List.getElem?_eq_some_iff.1 hi
    have : ps.set i h = ps := by rw [← h2]; exact List.set_getElem_self h1
    simp [this]

/-- Accessible in the sense of `parameter_get_handle`. -/
def open' (al : BitVec 32) (h : Handle) : Bool := h.level = 0 ∨ h.level &&& al > 0

/-- The loop of `parameter_get_handle`: pointwise result. -/
theorem getLoop_eq {env : Env} {g} (hl : Local env g) (al : BitVec 32) (n : Nat) :
    ∀ (i num : Nat) (ps : List Handle) (m : Mem), i + n = ps.length →
    ∃ ps' r, getLoop env al n i num (ps, m) = .ok ((ps', m), r) ∧ ps'.length = ps.length ∧
      (∀ j, ps'[j]? = if i ≤ j ∧ (∀ k, r = some k → j ≤ k) then (ps[j]?).map (upd g) else ps[j]?) ∧
      (∀ k, r = some k → i ≤ k ∧ k < ps.length ∧ (∃ h, ps[k]? = some h ∧ open' al (upd g h) = true) ∧
        (((ps.drop i).take (k - i)).map (upd g)).countP (open' al) = num) ∧
      (r = none → ((ps.drop i).map (upd g)).countP (open' al) ≤ num) := by
  induction n with
  | zero =>
    intro i num ps m h
    refine ⟨ps, none, rfl, rfl, ?_, by simp, ?_⟩
    · intro j
      split_ifs with hj
      · rw [List.getElem?_eq_none (by omega)]; rfl
      · rfl
    · intro _; rw [List.drop_eq_nil_of_le (by omega)]; simp
  | succ n ih =>
    intro i num ps m h
    have hi : i < ps.length := by omega
    have hg : ps[i]? = some ps[i] := List.getElem?_eq_getElem hi
    have hdrop : ps.drop i = ps[i] :: ps.drop (i + 1) := List.drop_eq_getElem_cons hi
    have hset : (ps.set i (upd g ps[i]))[i]? = some (upd g ps[i]) := by simp [hi]
    have hdrop' : (ps.set i (upd g ps[i])).drop (i + 1) = ps.drop (i + 1) := by
      rw [List.drop_set, if_pos (by omega)]
    rw [getLoop]
    simp only [rd, hg, Res.ok_bind, callback hl ps m i _ hg, hset]
    -- the rest of the loop, if it goes on with `num'`
    have go : ∀ num', (open' al (upd g ps[i]) = true → num = num' + 1) → (open' al (upd g ps[i]) = false → num = num') →
        ∃ ps' r, getLoop env al n (i + 1) num' (ps.set i (upd g ps[i]), m) = .ok ((ps', m), r) ∧ ps'.length = ps.length ∧
        (∀ j, ps'[j]? = if i ≤ j ∧ (∀ k, r = some k → j ≤ k) then (ps[j]?).map (upd g) else ps[j]?) ∧
        (∀ k, r = some k → i ≤ k ∧ k < ps.length ∧ (∃ h, ps[k]? = some h ∧ open' al (upd g h) = true) ∧
          (((ps.drop i).take (k - i)).map (upd g)).countP (open' al) = num) ∧
        (r = none → ((ps.drop i).map (upd g)).countP (open' al) ≤ num) := by
      intro num' h1 h2
      obtain ⟨ps', r, e, l, p, q, w⟩ := ih (i + 1) num' (ps.set i (upd g ps[i])) m (by simp; omega)
      refine ⟨ps', r, e, by simpa using l, ?_, ?_, ?_⟩
      · intro j
        rw [p j]
        by_cases hj : j = i
        · subst hj
          rw [if_neg (by omega), if_pos ⟨Nat.le_refl _, fun k hk => by have := (q k hk).1; omega⟩, hset, hg]; rfl
        · have hne : (ps.set i (upd g ps[i]))[j]? = ps[j]? := List.getElem?_set_ne (by omega)
          rw [hne]
          by_cases hc : i + 1 ≤ j ∧ ∀ k, r = some k → j ≤ k
          · rw [if_pos hc, if_pos ⟨by omega, hc.2⟩]
          · rw [if_neg hc, if_neg (fun hc' => hc ⟨by omega, hc'.2⟩)]
      · intro k hk
        obtain ⟨q1, q2, q3, q4⟩ := q k hk
        refine ⟨by omega, by simpa using q2, ?_, ?_⟩
        · rwa [List.getElem?_set_ne (by omega)] at q3
        · rw [hdrop, show k - i = (k - (i + 1)) + 1 by omega, List.take_succ_cons, List.map_cons, List.countP_cons,
            ← hdrop', q4]
          cases ho : open' al (upd g ps[i]) with
          | true => rw [h1 ho]; simp
          | false => rw [h2 ho]; simp
      · intro hr
        have := w hr
        rw [hdrop, List.map_cons, List.countP_cons, ← hdrop']
        cases ho : open' al (upd g ps[i]) with
        | true => rw [h1 ho]; simpa using this
        | false => rw [h2 ho]; simpa using this
    by_cases ho : open' al (upd g ps[i]) = true
    · have hc : (upd g ps[i]).level = 0 ∨ (upd g ps[i]).level &&& al > 0 := by simpa [open'] using ho
      rw [if_pos hc]
      cases num with
      | zero =>
        refine ⟨ps.set i (upd g ps[i]), some i, rfl, by simp, ?_, ?_, by simp⟩
        · intro j
          by_cases hj : j = i
          · subst hj; rw [if_pos ⟨Nat.le_refl _, fun k hk => by injection hk; omega⟩, hset, hg]; rfl
          · rw [List.getElem?_set_ne (by omega), if_neg]
            rintro ⟨h1, h2⟩
            have := h2 i rfl
            omega
        · intro k hk
          injection hk with hk
          subst hk
          exact ⟨Nat.le_refl _, hi, ⟨_, hg, ho⟩, by simp⟩
      | succ num =>
        exact go num (fun _ => rfl) (fun h => by rw [ho] at h; cases h)
    · have hc : ¬ ((upd g ps[i]).level = 0 ∨ (upd g ps[i]).level &&& al > 0) := by simpa [open'] using ho
      rw [if_neg hc]
      exact go num (fun h => absurd h ho) (fun _ => rfl)

theorem countLoop_eq {env : Env} {g} (hl : Local env g) (al : BitVec 32) (n : Nat) :
    ∀ (i c : Nat) (ps : List Handle) (m : Mem), i + n = ps.length →
    ∃ ps', countLoop env al n i c (ps, m) =
      .ok ((ps', m), c + ((ps.drop i).map (upd g)).countP (fun h => h.level &&& al > 0)) ∧
      (∀ j, ps'[j]? = if i ≤ j then (ps[j]?).map (upd g) else ps[j]?) := by
  induction n with
  | zero =>
    intro i c ps m h
    refine ⟨ps, ?_, ?_⟩
    · rw [List.drop_eq_nil_of_le (by omega)]; simp [countLoop]
    · intro j
      split_ifs with hj
      · rw [List.getElem?_eq_none (by omega)]; rfl
      · rfl
  | succ n ih =>
    intro i c ps m h
    have hi : i < ps.length := by omega
    have hg : ps[i]? = some ps[i] := List.getElem?_eq_getElem hi
    have hdrop : ps.drop i = ps[i] :: ps.drop (i + 1) := List.drop_eq_getElem_cons hi
    have hset : (ps.set i (upd g ps[i]))[i]? = some (upd g ps[i]) := by simp [hi]
    have hdrop' : (ps.set i (upd g ps[i])).drop (i + 1) = ps.drop (i + 1) := by
      rw [List.drop_set, if_pos (by omega)]
    rw [countLoop]
    simp only [rd, hg, Res.ok_bind, callback hl ps m i _ hg, hset]
    obtain ⟨ps', e, p⟩ := ih (i + 1) (if (upd g ps[i]).level &&& al > 0 then c + 1 else c) (ps.set i (upd g ps[i])) m
      (by simp; omega)
    refine ⟨ps', ?_, ?_⟩
    · rw [e, hdrop', hdrop, List.map_cons, List.countP_cons]
      congr 2
      by_cases hc : (upd g ps[i]).level &&& al > 0
      · simp only [hc, if_true, decide_true]; omega
      · simp only [hc, if_false, decide_false, Bool.false_eq_true]; omega
    · intro j
      rw [p j]
      by_cases hj : j = i
      · subst hj; rw [if_neg (by omega), if_pos (Nat.le_refl _), hset, hg]; rfl
      · rw [List.getElem?_set_ne (by omega)]
        by_cases hc : i ≤ j
        · rw [if_pos (by omega), if_pos hc]
        · rw [if_neg (by omega), if_neg hc]

/-- Doing the body with every handle of a list in turn. -/
def each (body : Handle → Mem × Int → Res (Mem × Int)) : List Handle → Mem × Int → Res (Mem × Int)
  | [], s => .ok s
  | h :: hs, s => do
    let s ← body h s
    each body hs s

theorem open_all (h : Handle) : open' 0xFFFFFFFF h = true := by
  rw [open', decide_eq_true_iff, show (0xFFFFFFFF : BitVec 32) = BitVec.allOnes 32 by rfl, BitVec.and_allOnes]
  by_cases h0 : h.level = 0
  · exact Or.inl h0
  · right
    rw [gt_iff_lt, BitVec.lt_def]
    have : h.level.toNat ≠ 0 := fun hh => h0 (BitVec.eq_of_toNat_eq (by simpa using hh))
    simp; omega

/-- The `i`-th lookup with all access levels is the `i`-th handle. -/
theorem getHandle_all {env : Env} {g} (hl : Local env g) (i : Nat) (ps : List Handle) (m : Mem) (hi : i < ps.length) :
    ∃ ps', getHandle env (ps, m) i 0xFFFFFFFF = .ok ((ps', m), some i) ∧ ps'.length = ps.length ∧
      ∀ j, ps'[j]? = if j ≤ i then (ps[j]?).map (upd g) else ps[j]? := by
  obtain ⟨ps', r, e, l, p, q, w⟩ := getLoop_eq hl 0xFFFFFFFF ps.length 0 i ps m (by omega)
  have hall : ∀ l : List Handle, l.countP (open' 0xFFFFFFFF) = l.length := fun l =>
    List.countP_eq_length.2 fun h _ => open_all h
  cases r with
  | none =>
    have := w rfl
    rw [hall] at this
    simp at this; omega
  | some k =>
    obtain ⟨q1, q2, q3, q4⟩ := q k rfl
    rw [hall] at q4
    simp at q4
    have : k = i := by omega
    subst this
    refine ⟨ps', ?_, l, ?_⟩
    · rw [getHandle, cassert, if_pos (by simpa using hi)]; exact e
    · intro j; rw [p j]; simp

/-- `upd` iterated. -/
def updN (g : Nat → Handle → Handle) (n : Nat) (h : Handle) : Handle := (upd g)^[n] h

theorem eachLoop_eq {env : Env} {g} (hl : Local env g) (body : Handle → Mem × Int → Res (Mem × Int)) (n : Nat) :
    ∀ (i : Nat) (ps : List Handle) (m : Mem) (c : Int), i + n = ps.length →
    ∃ ps', eachLoop env body n i (ps, m) c = (do
        let s ← each body ((ps.drop i).map (upd g)) (m, c)
        pure ((ps', s.1), s.2)) ∧ ps'.length = ps.length ∧
      ∀ j, j < ps.length → ps'[j]? = (ps[j]?).map (updN g (if i ≤ j then ps.length - j else n)) := by
  induction n with
  | zero =>
    intro i ps m c h
    refine ⟨ps, ?_, rfl, ?_⟩
    · rw [List.drop_eq_nil_of_le (by omega)]; rfl
    · intro j hj; rw [if_neg (by omega), show updN g 0 = id from rfl, Option.map_id]; rfl
  | succ n ih =>
    intro i ps m c h
    have hi : i < ps.length := by omega
    obtain ⟨ps1, e1, l1, p1⟩ := getHandle_all hl i ps m hi
    obtain ⟨ps', e2, l2, p2⟩ : ∃ ps', (∀ m c, eachLoop env body n (i + 1) (ps1, m) c = (do
        let s ← each body ((ps1.drop (i + 1)).map (upd g)) (m, c)
        pure ((ps', s.1), s.2))) ∧ ps'.length = ps1.length ∧
      ∀ j, j < ps1.length → ps'[j]? = (ps1[j]?).map (updN g (if i + 1 ≤ j then ps1.length - j else n)) := by
      have key : ∀ m c, ∃ ps', eachLoop env body n (i + 1) (ps1, m) c = (do
          let s ← each body ((ps1.drop (i + 1)).map (upd g)) (m, c)
          pure ((ps', s.1), s.2)) ∧ ps'.length = ps1.length ∧
          ∀ j, j < ps1.length → ps'[j]? = (ps1[j]?).map (updN g (if i + 1 ≤ j then ps1.length - j else n)) :=
        fun m c => ih (i + 1) ps1 m c (by omega)
      obtain ⟨ps', _, a, b⟩ := key m c
      refine ⟨ps', ?_, a, b⟩
      intro m' c'
      obtain ⟨ps'', e, a', b'⟩ := key m' c'
      have : ps'' = ps' := by
        apply List.ext_getElem?
        intro j
        by_cases hj : j < ps1.length
        · rw [b j hj, b' j hj]
        · rw [List.getElem?_eq_none (by omega), List.getElem?_eq_none (by omega)]
      rw [e, this]
    have hdrop : ps1.drop (i + 1) = ps.drop (i + 1) := by
      apply List.ext_getElem?
      intro j
      rw [List.getElem?_drop, List.getElem?_drop, p1, if_neg (by omega)]
    refine ⟨ps', ?_, by omega, ?_⟩
    · rw [eachLoop, e1, Res.ok_bind]
      have hg : ps1[i]? = some (upd g ps[i]) := by
        rw [p1, if_pos (Nat.le_refl _), List.getElem?_eq_getElem hi]; rfl
      simp only [rd, hg, Res.ok_bind]
      rw [List.drop_eq_getElem_cons hi, List.map_cons, each]
      cases body (upd g ps[i]) (m, c) with
      | ok s => show eachLoop env body n (i + 1) (ps1, s.1) s.2 = _; rw [e2, hdrop]; rfl
      | ub => rfl
      | abort => rfl
      | diverge => rfl
    · intro j hj
      rw [p2 j (by omega), p1 j, l1]
      by_cases h1 : i + 1 ≤ j
      · rw [if_pos h1, if_neg (by omega), if_pos (by omega)]
      · rw [if_neg h1, if_pos (by omega)]
        by_cases h2 : i ≤ j
        · rw [if_pos h2, show ps.length - j = n + 1 by omega, Option.map_map]
          congr 1
        · rw [if_neg h2, Option.map_map]
          congr 1

end Gel.Param
