import Verif.Scheduler.Lemmas
import Verif.Serial.Props
import Mathlib.Tactic.ByContra

/-!
# Scheduler: theorems (C78-C86)
-/
namespace Gel.Scheduler
open Spec

/-! ## C80, C81: when an entry is active -/

/-- An entry that ends within the day is active exactly from `start` to `stop` on its days. -/
theorem C80_active (e : Entry) (tm : Tm) (h : Valid tm) (hs : e.stop.toNat ≤ 86400) :
    (isActive e tm = true ↔ on e tm.wday ∧ e.start.toNat ≤ second tm ∧ second tm < e.stop.toNat) ∧
    (isActive e tm = true ↔ active e tm.wday (second tm)) := by
  rw [isActive_iff h, if_neg (by omega)]
  refine ⟨Iff.rfl, ?_⟩
  rw [active]
  constructor
  · exact Or.inl
  · rintro (h | ⟨-, -, h⟩)
    · exact h
    · omega

/-- An entry that ends on the next day: when the code agrees with the meaning of the entry. At times before its end in the
morning, it looks at the day itself instead of the day before. -/
theorem C81_exact (e : Entry) (tm : Tm) (h : Valid tm) (hs : 86400 < e.stop.toNat) (hst : e.start.toNat < 86400) :
    (isActive e tm = true ↔ active e tm.wday (second tm)) ↔
      (second tm < e.stop.toNat - 86400 → if e.start.toNat ≤ second tm then (on e (prev tm.wday) → on e tm.wday)
        else (on e (prev tm.wday) ↔ on e tm.wday)) := by
  have hlt := second_lt h
  rw [isActive_iff h, if_pos hs, active]
  by_cases h1 : second tm < e.stop.toNat - 86400
  · have h2 : second tm + 86400 < e.stop.toNat := by omega
    have h3 : e.start.toNat ≤ second tm + 86400 := by omega
    have h4 : second tm < e.stop.toNat := by omega
    by_cases h5 : e.start.toNat ≤ second tm
    · simp only [h1, h2, h3, h4, h5, true_or, and_true, if_true, true_implies]
      by_cases hp : on e (prev tm.wday) <;> by_cases hq : on e tm.wday <;> simp [hp, hq]
    · simp only [h1, h2, h3, h5, true_or, and_true, and_false, false_and, false_or, if_false, true_implies]
      by_cases hp : on e (prev tm.wday) <;> by_cases hq : on e tm.wday <;> simp [hp, hq]
  · have h2 : ¬ second tm + 86400 < e.stop.toNat := by omega
    have h4 : second tm < e.stop.toNat := by omega
    simp only [h1, h2, h4, false_or, and_true, and_false, or_false, false_implies]

/-- In particular, it is right for entries of all days, and in the evening for all entries. -/
theorem C81_partial (e : Entry) (tm : Tm) (h : Valid tm) (hs : 86400 < e.stop.toNat) (hst : e.start.toNat < 86400)
    (hc : (∀ d < 7, on e d) ∨ e.stop.toNat - 86400 ≤ second tm) :
    isActive e tm = true ↔ active e tm.wday (second tm) := by
  rw [C81_exact e tm h hs hst]
  intro hlt
  rcases hc with hc | hc
  · have h1 := hc tm.wday h.wday
    have h2 := hc (prev tm.wday) (Nat.mod_lt _ (by omega))
    split
    · exact fun _ => h1
    · exact ⟨fun _ => h1, fun _ => h2⟩
  · omega

/-- It is wrong in the morning, before the end, both after a day that is selected (if the day itself is not) and on a day
that is selected (if the day before is not). -/
theorem C81_wrong (e : Entry) (tm : Tm) (h : Valid tm) (hs : second tm + 86400 < e.stop.toNat)
    (hst : second tm < e.start.toNat) (h8 : e.start.toNat < 86400) :
    (on e (prev tm.wday) → ¬ on e tm.wday → isActive e tm = false ∧ active e tm.wday (second tm)) ∧
    (¬ on e (prev tm.wday) → on e tm.wday → isActive e tm = true ∧ ¬ active e tm.wday (second tm)) := by
  constructor
  · intro h1 h2
    refine ⟨?_, Or.inr ⟨h1, by omega, by omega⟩⟩
    rw [Bool.eq_false_iff, Ne, isActive_iff h]
    exact fun h => h2 h.1
  · intro h1 h2
    refine ⟨?_, ?_⟩
    · rw [isActive_iff h, if_pos (by omega)]
      exact ⟨h2, Or.inl (by omega)⟩
    · rintro (⟨-, h3, -⟩ | ⟨h3, -⟩)
      · omega
      · exact h1 h3

/-! ## C78, C79: the active entry -/

/-- Enabled and active. -/
def Cand (tm : Tm) (e : Entry) : Prop := e.enabled ≠ 0 ∧ isActive e tm = true

/-- Entry `i` comes before entry `j`: smaller span, then greater value, then the order in the table. -/
def Before (a : Entry) (i : Nat) (b : Entry) (j : Nat) : Prop :=
  span a < span b ∨ (span a = span b ∧ (b.value.toInt < a.value.toInt ∨ (b.value.toInt = a.value.toInt ∧ i ≤ j)))

/-- What the loop has found after `k` entries of `s`. -/
def Good (tm : Tm) (s : Sched) (k : Nat) (f : Found) : Prop :=
  (f.found = false ∧ f.id = -1 ∧ ∀ (i : Nat) (e : Entry), i < k → s[i]? = some e → ¬ Cand tm e) ∨
  ∃ (j : Nat) (a : Entry), f.found = true ∧ f.id = (j : Int) ∧ j < k ∧ s[j]? = some a ∧ Cand tm a ∧ f.total = span a ∧
    f.value = a.value.setWidth 8 ∧ ∀ (i : Nat) (e : Entry), i < k → s[i]? = some e → Cand tm e → Before a j e i

theorem setWidth8 (v : BitVec 32) (h1 : 0 ≤ v.toInt) (h2 : v.toInt < 256) : ((v.setWidth 8).toNat : Int) = v.toInt := by
  rw [BitVec.toNat_setWidth]
  have hlt := v.isLt
  have := BitVec.toInt_eq_toNat_cond v
  split at this <;> omega

/-- Any two different entries that are enabled, active and of the same span have values from 0 to 255. -/
def Ties (tm : Tm) (s : Sched) : Prop :=
  ∀ (i j : Nat) (a b : Entry), i ≠ j → s[i]? = some a → s[j]? = some b → Cand tm a → Cand tm b → span a = span b →
    0 ≤ a.value.toInt ∧ a.value.toInt < 256

theorem good_step {L : Nat} {tm : Tm} {s : Sched} {k : Nat} {f : Found} {e : Entry} (he : s[k]? = some e)
    (hspan : ∀ e ∈ s, span e < 2 ^ L)
    (hval : Ties tm s)
    (h : Good tm s k f) : Good tm s (k + 1) (consider L tm f e k) := by
  have hmem : e ∈ s := List.mem_of_getElem? he
  have hext : ∀ (P : Nat → Entry → Prop), (∀ i x, i < k → s[i]? = some x → P i x) → P k e →
      ∀ i x, i < k + 1 → s[i]? = some x → P i x := by
    intro P h1 h2 i x hi hx
    by_cases hik : i = k
    · subst hik
      rw [he] at hx
      cases hx
      exact h2
    · exact h1 i x (by omega) hx
  unfold consider
  by_cases h0 : e.enabled = 0
  · rw [if_pos h0]
    have hn : ¬ Cand tm e := fun h => h.1 h0
    rcases h with ⟨h1, h2, h3⟩ | ⟨j, a, h1, h2, h3, h4, h5, h6, h7, h8⟩
    · exact Or.inl ⟨h1, h2, hext _ h3 hn⟩
    · exact Or.inr ⟨j, a, h1, h2, by omega, h4, h5, h6, h7, hext _ h8 (fun h => absurd h hn)⟩
  · rw [if_neg h0]
    by_cases ha : isActive e tm = true
    · rw [if_pos ha, weekSpan_eq (hspan e hmem)]
      have hc : Cand tm e := ⟨h0, ha⟩
      rcases h with ⟨h1, h2, h3⟩ | ⟨j, a, h1, h2, h3, h4, h5, h6, h7, h8⟩
      · rw [h1]
        simp only [Bool.not_false, Bool.true_or, if_true]
        refine Or.inr ⟨k, e, rfl, rfl, by omega, he, hc, rfl, rfl, ?_⟩
        exact hext _ (fun i x hi hx hcx => absurd hcx (h3 i x hi hx)) (fun _ => Or.inr ⟨rfl, Or.inr ⟨rfl, Nat.le_refl _⟩⟩)
      · have hma : a ∈ s := List.mem_of_getElem? h4
        rw [h1, h6, h7]
        simp only [Bool.not_true, Bool.false_or]
        by_cases hnew : (decide (span e < span a) || (decide (span e = span a) &&
            decide (((a.value.setWidth 8).toNat : Int) < e.value.toInt))) = true
        · rw [if_pos hnew]
          have hlt : span e < span a ∨ (span e = span a ∧ a.value.toInt < e.value.toInt) := by
            simp only [Bool.or_eq_true, Bool.and_eq_true, decide_eq_true_eq] at hnew
            rcases hnew with h | ⟨h, h'⟩
            · exact Or.inl h
            · refine Or.inr ⟨h, ?_⟩
              obtain ⟨v1, v2⟩ := hval j k a e (by omega) h4 he h5 hc h.symm
              rwa [setWidth8 _ v1 v2] at h'
          refine Or.inr ⟨k, e, rfl, rfl, by omega, he, hc, rfl, rfl, ?_⟩
          refine hext _ (fun i x hi hx hcx => ?_) (fun _ => Or.inr ⟨rfl, Or.inr ⟨rfl, Nat.le_refl _⟩⟩)
          have hb := h8 i x hi hx hcx
          unfold Before at hb ⊢
          rcases hlt with hlt | ⟨hlt, hlt'⟩ <;> rcases hb with hb | ⟨hb, hb' | ⟨hb', hb''⟩⟩ <;> omega
        · rw [if_neg hnew]
          refine Or.inr ⟨j, a, h1, h2, by omega, h4, h5, h6, h7, ?_⟩
          refine hext _ h8 (fun _ => ?_)
          simp only [Bool.or_eq_true, Bool.and_eq_true, decide_eq_true_eq, not_or, not_and] at hnew
          obtain ⟨n1, n2⟩ := hnew
          unfold Before
          by_cases hs : span e = span a
          · obtain ⟨v1, v2⟩ := hval j k a e (by omega) h4 he h5 hc hs.symm
            have n3 := n2 hs
            rw [setWidth8 _ v1 v2] at n3
            omega
          · omega
    · rw [if_neg ha]
      have hn : ¬ Cand tm e := fun h => ha h.2
      rcases h with ⟨h1, h2, h3⟩ | ⟨j, a, h1, h2, h3, h4, h5, h6, h7, h8⟩
      · exact Or.inl ⟨h1, h2, hext _ h3 hn⟩
      · exact Or.inr ⟨j, a, h1, h2, by omega, h4, h5, h6, h7, hext _ h8 (fun h => absurd h hn)⟩

theorem good_search {L : Nat} {tm : Tm} {s : Sched} (hspan : ∀ e ∈ s, span e < 2 ^ L) (hval : Ties tm s) :
    ∀ (l : List Entry) (k : Nat) (f : Found), s.drop k = l → Good tm s k f → k ≤ s.length → Good tm s s.length (search L tm f l k)
  | [], k, f, hl, h, hk => by
    have : s.length ≤ k := by simpa using hl
    rw [show s.length = k by omega]
    exact h
  | e :: es, k, f, hl, h, hk => by
    have he : s[k]? = some e := by
      rw [← List.head?_drop, hl]
      rfl
    have hlt : k < s.length := by
      by_contra hc
      rw [List.getElem?_eq_none (by omega)] at he
      cases he
    refine good_search hspan hval es (k + 1) _ ?_ (good_step he hspan hval h) hlt
    rw [← List.drop_drop, hl]
    rfl

/-- The result is -1 if no enabled entry is active, and otherwise an enabled active entry that comes before all others.
`unsigned long` is wide enough for the weekly spans. -/
theorem C78_active (L : Nat) (s : Sched) (tm : Tm) (hspan : ∀ e ∈ s, span e < 2 ^ L) (hval : Ties tm s) :
    (activeEntry L s tm = -1 ∧ ∀ e ∈ s, ¬ Cand tm e) ∨
    ∃ (j : Nat) (a : Entry), activeEntry L s tm = (j : Int) ∧ s[j]? = some a ∧ Cand tm a ∧
      ∀ (i : Nat) (e : Entry), s[i]? = some e → Cand tm e → Before a j e i := by
  have h := good_search hspan hval s 0 ⟨false, 0, 0, -1⟩ rfl (Or.inl ⟨rfl, rfl, by omega⟩) (Nat.zero_le _)
  rcases h with ⟨-, h2, h3⟩ | ⟨j, a, -, h2, h3, h4, h5, -, -, h8⟩
  · refine Or.inl ⟨h2, ?_⟩
    intro e he
    obtain ⟨i, hi, rfl⟩ := List.mem_iff_getElem.1 he
    exact h3 i _ hi (List.getElem?_eq_getElem hi)
  · refine Or.inr ⟨j, a, h2, h4, h5, ?_⟩
    intro i e hi hc
    refine h8 i e ?_ hi hc
    by_contra hn
    rw [List.getElem?_eq_none (by omega)] at hi
    cases hi

/-- `scheduler_current_value` and `scheduler_is_active` report accordingly. -/
theorem C78_value (L : Nat) (s : Sched) (tm : Tm) (hspan : ∀ e ∈ s, span e < 2 ^ L) (hval : Ties tm s) :
    ((∀ e ∈ s, ¬ Cand tm e) ∧ currentValue L s tm = .ok none ∧ isSchedActive L s tm = false) ∨
    ∃ (j : Nat) (a : Entry), s[j]? = some a ∧ Cand tm a ∧ (∀ (i : Nat) (e : Entry), s[i]? = some e → Cand tm e → Before a j e i) ∧
      currentValue L s tm = .ok (some a.value) ∧ isSchedActive L s tm = true := by
  rcases C78_active L s tm hspan hval with ⟨h1, h2⟩ | ⟨j, a, h1, h2, h3, h4⟩
  · exact Or.inl ⟨h2, by simp [currentValue, h1], by simp [isSchedActive, h1]⟩
  · refine Or.inr ⟨j, a, h2, h3, h4, ?_, by simp [isSchedActive, h1]⟩
    simp [currentValue, h1, rd, h2]

/-- All spans fit in 64 bits, and in 32 bits for entries of at most two days. -/
theorem C78_spans (e : Entry) : span e < 2 ^ 64 ∧
    (e.start.toNat ≤ 172800 → e.stop.toNat ≤ 172800 → span e < 2 ^ 32) := by
  have h1 := e.stop.isLt
  have h2 := e.start.isLt
  have hd : ((e.stop.toNat : Int) - e.start.toNat).natAbs < 2 ^ 32 := by omega
  have hn : ((List.range 7).filter fun d => decide (on e d)).length ≤ 7 :=
    le_trans (List.length_filter_le _ _) (by simp)
  unfold span
  have hx : e.start.toNat ≤ 172800 → e.stop.toNat ≤ 172800 → ((e.stop.toNat : Int) - e.start.toNat).natAbs ≤ 172800 := by omega
  generalize ((e.stop.toNat : Int) - e.start.toNat).natAbs = x at *
  generalize ((List.range 7).filter fun d => decide (on e d)).length = y at *
  constructor
  · calc x * y ≤ x * 7 := Nat.mul_le_mul_left _ hn
      _ < 2 ^ 64 := by omega
  · intro h3 h4
    have := hx h3 h4
    calc x * y ≤ x * 7 := Nat.mul_le_mul_left _ hn
      _ < 2 ^ 32 := by omega

/-- For any values, as long as there are no ties between weekly spans; missing are ties with values outside 0 to 255
(false, see below). -/
theorem C79_partial (L : Nat) (s : Sched) (tm : Tm) (hspan : ∀ e ∈ s, span e < 2 ^ L)
    (hne : ∀ (i j : Nat) (a b : Entry), i ≠ j → s[i]? = some a → s[j]? = some b → Cand tm a → Cand tm b → span a ≠ span b) :
    (activeEntry L s tm = -1 ∧ ∀ e ∈ s, ¬ Cand tm e) ∨
    ∃ (j : Nat) (a : Entry), activeEntry L s tm = (j : Int) ∧ s[j]? = some a ∧ Cand tm a ∧
      ∀ (i : Nat) (e : Entry), s[i]? = some e → Cand tm e → Before a j e i :=
  C78_active L s tm hspan fun i j a b h1 h2 h3 h4 h5 h6 => absurd h6 (hne i j a b h1 h2 h3 h4 h5)

/-- Two active entries with the same span: the second is chosen exactly if its value exceeds the first one's value modulo
256. -/
theorem C79_wrong (L : Nat) (tm : Tm) (a b : Entry) (hL : span a < 2 ^ L) (ha : Cand tm a) (hb : Cand tm b)
    (hs : span a = span b) :
    activeEntry L [a, b] tm = if a.value.toInt % 256 < b.value.toInt then 1 else 0 := by
  have h1 : weekSpan L a = span b := by rw [weekSpan_eq hL, hs]
  have h2 : weekSpan L b = span b := weekSpan_eq (hs ▸ hL)
  have hv : ((a.value.setWidth 8).toNat : Int) = a.value.toInt % 256 := by
    rw [BitVec.toNat_setWidth]
    have hlt := a.value.isLt
    have := BitVec.toInt_eq_toNat_cond a.value
    split at this <;> omega
  simp only [activeEntry, search, consider, ha.1, ha.2, hb.1, hb.2, if_false, if_true, Bool.not_false, Bool.true_or, h1, h2]
  simp only [Bool.not_true, Bool.false_or, Nat.lt_irrefl, decide_false, decide_true, Bool.true_and, hv, decide_eq_true_eq]
  split <;> rfl

/-- So the entry with the smaller value is chosen, e.g. whenever the greater value is at least 256 (or the first value is
negative, and the second below its remainder). -/
theorem C79_example (L : Nat) (tm : Tm) (a b : Entry) (hL : span a < 2 ^ L) (ha : Cand tm a) (hb : Cand tm b)
    (hs : span a = span b) :
    (b.value.toInt < a.value.toInt → a.value.toInt % 256 < b.value.toInt → activeEntry L [a, b] tm = 1) ∧
    (a.value.toInt < b.value.toInt → b.value.toInt ≤ a.value.toInt % 256 → activeEntry L [a, b] tm = 0) := by
  rw [C79_wrong L tm a b hL ha hb hs]
  constructor
  · intro _ h
    rw [if_pos h]
  · intro _ h
    rw [if_neg (by omega)]

/-! ## C82: remaining duration -/

/-- For an entry within the day: the time to its end, during all of which it is active, and after which it is not (if that
is before midnight); 0 if it is not active or does not exist. -/
theorem C82_partial (L : Nat) (hL : 32 ≤ L) (s : Sched) (i : Nat) (tm : Tm) (h : Valid tm) :
    (s[i]? = none → remaining L s i tm = .ok 0) ∧
    ∀ e, s[i]? = some e →
      (isActive e tm = false → remaining L s i tm = .ok 0) ∧
      (e.stop.toNat ≤ 86400 → isActive e tm = true → ∃ k : Nat, remaining L s i tm = .ok (k : Int) ∧
        second tm + k = e.stop.toNat ∧
        ∀ tm', Valid tm' → tm'.wday = tm.wday → second tm ≤ second tm' →
          (isActive e tm' = true ↔ second tm' < second tm + k)) := by
  have hpow : (2 : Int) ^ 32 ≤ 2 ^ L := by exact_mod_cast Nat.pow_le_pow_right (by omega) hL
  constructor
  · intro hn
    have : s.length ≤ i := by simpa using hn
    simp [remaining, getEntry, this]
  · intro e he
    have hlt : ¬ s.length ≤ i := by
      intro hc
      rw [List.getElem?_eq_none hc] at he
      cases he
    have hget : getEntry s i = .ok (some e) := by
      simp [getEntry, hlt, rd, he]
    constructor
    · intro ha
      simp [remaining, hget, ha]
    · intro hs ha
      have ha' := (C80_active e tm h hs).1.1 ha
      refine ⟨e.stop.toNat - second tm, ?_, by omega, ?_⟩
      · simp only [remaining, hget, Res.ok_bind, ha, Bool.not_true, Bool.false_eq_true, if_false, now_eq h, Res.pure_eq]
        have := e.stop.isLt
        rw [Int.emod_eq_of_lt (by omega) (by omega)]
        congr 1
        omega
      · intro tm' h' hw hle
        rw [(C80_active e tm' h' hs).1, hw]
        constructor
        · intro h
          omega
        · intro h
          exact ⟨ha'.1, by omega, by omega⟩

/-- For an entry that ends on the next day, in the evening it is the time to the end; in the morning it is a day too
much. -/
theorem C82_wrong (L : Nat) (hL : 32 ≤ L) (s : Sched) (i : Nat) (tm : Tm) (h : Valid tm) (e : Entry) (he : s[i]? = some e)
    (hs : 86400 < e.stop.toNat) (hm : second tm < e.stop.toNat - 86400) (hd : on e tm.wday) :
    remaining L s i tm = .ok ((e.stop.toNat - 86400 - second tm : Nat) + 86400 : Int) := by
  have hpow : (2 : Int) ^ 32 ≤ 2 ^ L := by exact_mod_cast Nat.pow_le_pow_right (by omega) hL
  have hlt : ¬ s.length ≤ i := by
    intro hc
    rw [List.getElem?_eq_none hc] at he
    cases he
  have hget : getEntry s i = .ok (some e) := by
    simp [getEntry, hlt, rd, he]
  have ha : isActive e tm = true := by
    rw [isActive_iff h, if_pos hs]
    exact ⟨hd, Or.inl hm⟩
  simp only [remaining, hget, Res.ok_bind, ha, Bool.not_true, Bool.false_eq_true, if_false, now_eq h, Res.pure_eq]
  have := e.stop.isLt
  rw [Int.emod_eq_of_lt (by omega) (by omega)]
  congr 1
  omega

/-! ## C83: serialization -/

open Serial Serial.Spec in
/-- Serializing an entry into a buffer of at least 11 bytes writes 11 bytes, from which everything but the value is read
back, and the value modulo 256: so the whole entry exactly if its value is from 0 to 255. -/
theorem C83_exact (buf : Mem) (e : Entry) (hb : 11 ≤ buf.length) :
    ∃ buf', serialize buf e = .ok (buf', 11) ∧ buf'.drop 11 = buf.drop 11 ∧
      ∃ r, deserialize buf' = .ok (r, 11) ∧ r = { e with value := (e.value.setWidth 8).setWidth 32 } ∧
        (r = e ↔ 0 ≤ e.value.toInt ∧ e.value.toInt < 256) := by
  let fields : List Field := [⟨.u8, e.enabled⟩, ⟨.u8, e.days⟩, ⟨.u32le, e.start⟩, ⟨.u32le, e.stop⟩, ⟨.u8, e.value.setWidth 8⟩]
  obtain ⟨buf', h1, h2, h3⟩ := C24_packet fields buf 0 (by simpa [fields, Format.size] using hb)
  have h4 : serialize buf e = .ok (buf', 11) := by
    have : serialize buf e = (do
        let r ← writeAll buf 0 fields
        cassert (decide (r.2 = 11))
        pure r) := by
      simp only [fields, writeAll, bind_assoc]
      rfl
    rw [this, h1]
    rfl
  have h5 : deserialize buf' = .ok ({ e with value := (e.value.setWidth 8).setWidth 32 }, 11) := by
    have : deserialize buf' = (do
        let r ← readAll buf' 0 [.u8, .u8, .u32le, .u32le, .u8]
        match r with
        | ([⟨.u8, a⟩, ⟨.u8, b⟩, ⟨.u32le, c⟩, ⟨.u32le, d⟩, ⟨.u8, v⟩], n) => do
          cassert (decide (n = 11))
          pure (⟨a, b, c, d, BitVec.setWidth 32 v⟩, n)
        | _ => .ub) := by
      simp only [readAll, bind_assoc]
      rfl
    rw [this]
    have h3' : readAll buf' 0 [.u8, .u8, .u32le, .u32le, .u8] = .ok (fields, 11) := h3
    rw [h3']
    rfl
  refine ⟨buf', h4, ?_, _, h5, rfl, ?_⟩
  · have hl : (fields.flatMap fun x => image x.1 x.2).length = 11 := by
      simp only [fields, List.flatMap_cons, List.flatMap_nil, List.length_append, length_image]
      rfl
    rw [h2, overwrite, hl]
    simp only [List.take_zero, List.nil_append, Nat.zero_add]
    rw [← hl, List.drop_left]
  · constructor
    · intro hr
      have hv := congrArg Entry.value hr
      simp only at hv
      have hn := congrArg BitVec.toNat hv
      rw [BitVec.toNat_setWidth, BitVec.toNat_setWidth] at hn
      have hlt := e.value.isLt
      have := BitVec.toInt_eq_toNat_cond e.value
      split at this <;> omega
    · rintro ⟨v1, v2⟩
      have hv : (e.value.setWidth 8).setWidth 32 = e.value := by
        apply BitVec.eq_of_toNat_eq
        rw [BitVec.toNat_setWidth, BitVec.toNat_setWidth]
        have hlt := e.value.isLt
        have := BitVec.toInt_eq_toNat_cond e.value
        split at this <;> omega
      rw [hv]

/-! ## C84: overlaps -/

theorem overlapping_zero {s : Sched} {e o : Entry} (h : overlapping s e = 0) (ho : o ∈ s) : overlaps o e = false := by
  unfold overlapping at h
  induction s with
  | nil => cases ho
  | cons x s ih =>
    rw [List.map_cons, List.sum_cons] at h
    rcases List.mem_cons.1 ho with rfl | ho
    · cases hc : overlaps o e
      · rfl
      · rw [hc, if_pos rfl] at h
        omega
    · exact ih (by omega) ho

theorem and_pos_of_bit (a b : BitVec 8) (d : Nat) (ha : a.getLsbD d = true) (hb : b.getLsbD d = true) :
    0 < (a &&& b).toNat := by
  by_contra hc
  have h0 : (a &&& b) = 0#8 := by
    apply BitVec.eq_of_toNat_eq
    simp only [BitVec.toNat_ofNat]
    omega
  have : (a &&& b).getLsbD d = true := by rw [BitVec.getLsbD_and, ha, hb]; rfl
  rw [h0] at this
  simp at this

/-- Entries that end within the day: if no overlap is reported, the entry is never active together with an enabled one of
the table. -/
theorem C84_partial (s : Sched) (e o : Entry) (h : overlapping s e = 0) (ho : o ∈ s) (hen : o.enabled ≠ 0)
    (hs : e.stop.toNat ≤ 86400) (hs' : o.stop.toNat ≤ 86400) (tm : Tm) (hv : Valid tm) :
    ¬ (isActive e tm = true ∧ isActive o tm = true) := by
  rintro ⟨h1, h2⟩
  obtain ⟨a1, a2, a3⟩ := (C80_active e tm hv hs).1.1 h1
  obtain ⟨b1, b2, b3⟩ := (C80_active o tm hv hs').1.1 h2
  have hf := overlapping_zero h ho
  have hd := and_pos_of_bit o.days e.days tm.wday b1 a1
  have ht : overlaps o e = true := by
    unfold overlaps included
    simp only [ne_eq, decide_not, gt_iff_lt, hd, decide_true, Bool.and_true, ge_iff_le, Bool.and_eq_true, Bool.or_eq_true,
      decide_eq_true_eq, Bool.not_eq_true', decide_eq_false_iff_not]
    refine ⟨hen, ?_⟩
    omega
  rw [hf] at ht
  cases ht

/-- An entry that ends on the next day and an entry in the morning of the same days: no overlap is reported, but both are
active, as the code has it, from the start of the latter. -/
theorem C84_wrong (e o : Entry) (tm : Tm) (hv : Valid tm) (ho : on o tm.wday) (he : on e tm.wday)
    (hs : 86400 < e.stop.toNat) (h1 : o.stop.toNat < e.start.toNat)
    (h2 : o.start.toNat = second tm) (h3 : second tm < o.stop.toNat) (h4 : second tm + 86400 < e.stop.toNat)
    (h5 : o.stop.toNat ≤ 86400) :
    overlapping [o] e = 0 ∧ isActive e tm = true ∧ isActive o tm = true := by
  refine ⟨?_, ?_, ?_⟩
  · have : overlaps o e = false := by
      unfold overlaps included
      have i1 : ¬ e.start.toNat ≤ o.stop.toNat := by omega
      have i2 : ¬ e.stop.toNat ≤ o.stop.toNat := by omega
      have i3 : ¬ e.start.toNat ≤ o.start.toNat := by omega
      simp [i1, i2, i3]
    simp [overlapping, this]
  · rw [isActive_iff hv, if_pos hs]
    exact ⟨he, Or.inl (by omega)⟩
  · rw [(C80_active o tm hv h5).1]
    exact ⟨ho, by omega, h3⟩

/-! ## C85: indices -/

/-- Outside the table: refused without change. -/
theorem C85_outside (s : Sched) (i : Nat) (e : Entry) (h : s.length ≤ i) :
    getEntry s i = .ok none ∧ setEntry s i e = .ok (s, -1) ∧ disable s i = .ok (s, -1) := by
  simp [getEntry, setEntry, disable, h]

/-- Inside: exactly the entry. -/
theorem C85_inside (s : Sched) (i : Nat) (e : Entry) (h : i < s.length) :
    getEntry s i = .ok (some s[i]) ∧ isEnabled s i = .ok s[i].enabled ∧
    setEntry s i e = .ok (s.set i e, 0) ∧ disable s i = .ok (s.set i { s[i] with enabled := 0 }, 0) := by
  have hn : ¬ s.length ≤ i := by omega
  simp [getEntry, setEntry, disable, isEnabled, hn, rd, wr, h]

/-- `is_schedule_entry_enabled` reports an index outside the table as enabled (255). -/
theorem C85_enabled_wrong (s : Sched) (i : Nat) (h : s.length ≤ i) : isEnabled s i = .ok 255 ∧ (255 : BitVec 8) ≠ 0 := by
  refine ⟨?_, by decide⟩
  simp only [isEnabled, h, if_true]
  rfl

theorem isEnabled_in {s : Sched} {i : Nat} {e : Entry} (h : s[i]? = some e) : isEnabled s i = .ok e.enabled := by
  have hn : ¬ s.length ≤ i := by
    intro hc
    rw [List.getElem?_eq_none hc] at h
    cases h
  simp [isEnabled, hn, rd, h]

theorem nextFrom_spec (s : Sched) : ∀ (k start : Nat), start + k = s.length →
    (nextEnabledFrom s k start = .ok (-1) ∧ ∀ (i : Nat) (e : Entry), start ≤ i → s[i]? = some e → e.enabled = 0) ∨
      ∃ (j : Nat) (a : Entry), nextEnabledFrom s k start = .ok (j : Int) ∧ start ≤ j ∧ s[j]? = some a ∧ a.enabled ≠ 0 ∧
        ∀ (i : Nat) (e : Entry), start ≤ i → i < j → s[i]? = some e → e.enabled = 0
  | 0, start, hk => by
    refine Or.inl ⟨rfl, ?_⟩
    intro i e hi he
    rw [List.getElem?_eq_none (by omega)] at he
    cases he
  | k + 1, start, hk => by
    have he : s[start]? = some s[start] := List.getElem?_eq_getElem (by omega)
    by_cases h0 : s[start].enabled = 0
    · have hstep : nextEnabledFrom s (k + 1) start = nextEnabledFrom s k (start + 1) := by
        simp [nextEnabledFrom, isEnabled_in he, h0]
      rw [hstep]
      rcases nextFrom_spec s k (start + 1) (by omega) with ⟨h1, h2⟩ | ⟨j, a, h1, h2, h3, h4, h5⟩
      · refine Or.inl ⟨h1, ?_⟩
        intro i e hi hie
        rcases Nat.eq_or_lt_of_le hi with rfl | hlt
        · rw [he] at hie
          cases hie
          exact h0
        · exact h2 i e hlt hie
      · refine Or.inr ⟨j, a, h1, by omega, h3, h4, ?_⟩
        intro i e hi hj hie
        rcases Nat.eq_or_lt_of_le hi with rfl | hlt
        · rw [he] at hie
          cases hie
          exact h0
        · exact h5 i e hlt hj hie
    · refine Or.inr ⟨start, s[start], ?_, Nat.le_refl _, he, h0, by omega⟩
      simp [nextEnabledFrom, isEnabled_in he]
      exact fun h => absurd h h0

theorem availFrom_spec (s : Sched) : ∀ (k start : Nat), start + k = s.length →
    (firstAvailableFrom s k start = .ok (-1) ∧ ∀ (i : Nat) (e : Entry), start ≤ i → s[i]? = some e → e.enabled ≠ 0) ∨
      ∃ (j : Nat) (a : Entry), firstAvailableFrom s k start = .ok (j : Int) ∧ start ≤ j ∧ s[j]? = some a ∧ a.enabled = 0 ∧
        ∀ (i : Nat) (e : Entry), start ≤ i → i < j → s[i]? = some e → e.enabled ≠ 0
  | 0, start, hk => by
    refine Or.inl ⟨rfl, ?_⟩
    intro i e hi he
    rw [List.getElem?_eq_none (by omega)] at he
    cases he
  | k + 1, start, hk => by
    have he : s[start]? = some s[start] := List.getElem?_eq_getElem (by omega)
    by_cases h0 : s[start].enabled = 0
    · refine Or.inr ⟨start, s[start], ?_, Nat.le_refl _, he, h0, by omega⟩
      simp [firstAvailableFrom, isEnabled_in he, h0]
    · have hstep : firstAvailableFrom s (k + 1) start = firstAvailableFrom s k (start + 1) := by
        simp [firstAvailableFrom, isEnabled_in he]
        exact fun h => absurd h h0
      rw [hstep]
      rcases availFrom_spec s k (start + 1) (by omega) with ⟨h1, h2⟩ | ⟨j, a, h1, h2, h3, h4, h5⟩
      · refine Or.inl ⟨h1, ?_⟩
        intro i e hi hie
        rcases Nat.eq_or_lt_of_le hi with rfl | hlt
        · rw [he] at hie
          cases hie
          exact h0
        · exact h2 i e hlt hie
      · refine Or.inr ⟨j, a, h1, by omega, h3, h4, ?_⟩
        intro i e hi hj hie
        rcases Nat.eq_or_lt_of_le hi with rfl | hlt
        · rw [he] at hie
          cases hie
          exact h0
        · exact h5 i e hlt hj hie

/-- The searches: the first enabled entry from `start` on, the first disabled entry, or -1. -/
theorem C85_search (s : Sched) (start : Nat) :
    ((nextEnabled s start = .ok (-1) ∧ ∀ (i : Nat) (e : Entry), start ≤ i → s[i]? = some e → e.enabled = 0) ∨
      ∃ (j : Nat) (a : Entry), nextEnabled s start = .ok (j : Int) ∧ start ≤ j ∧ s[j]? = some a ∧ a.enabled ≠ 0 ∧
        ∀ (i : Nat) (e : Entry), start ≤ i → i < j → s[i]? = some e → e.enabled = 0) ∧
    ((firstAvailable s = .ok (-1) ∧ ∀ e ∈ s, e.enabled ≠ 0) ∨
      ∃ (j : Nat) (a : Entry), firstAvailable s = .ok (j : Int) ∧ s[j]? = some a ∧ a.enabled = 0 ∧
        ∀ (i : Nat) (e : Entry), i < j → s[i]? = some e → e.enabled ≠ 0) := by
  constructor
  · by_cases hle : start ≤ s.length
    · exact nextFrom_spec s (s.length - start) start (by omega)
    · refine Or.inl ⟨?_, ?_⟩
      · rw [nextEnabled, show s.length - start = 0 by omega]
        rfl
      · intro i e hi he
        rw [List.getElem?_eq_none (by omega)] at he
        cases he
  · rcases availFrom_spec s s.length 0 (by omega) with ⟨h1, h2⟩ | ⟨j, a, h1, -, h3, h4, h5⟩
    · refine Or.inl ⟨h1, ?_⟩
      intro e he
      obtain ⟨i, hi, rfl⟩ := List.mem_iff_getElem.1 he
      exact h2 i _ (Nat.zero_le _) (List.getElem?_eq_getElem hi)
    · exact Or.inr ⟨j, a, h1, h3, h4, fun i e hi he => h5 i e (Nat.zero_le _) hi he⟩

/-! ## C86: the map -/

theorem shl_bit (b : Bool) (i : Nat) (hi : i < 16) :
    ∃ v : BitVec 32, shlS false (if b then 1#32 else 0#32) i = .ok v ∧
      ∀ k < 16, (v.setWidth 16).getLsbD k = (decide (k = i) && b) := by
  have hp : (2 : Int) ^ i < 2 ^ 31 := by exact_mod_cast Nat.pow_lt_pow_right (by omega) (by omega)
  cases b
  · refine ⟨0#32 <<< i, ?_, ?_⟩
    · rw [shlS, if_pos ⟨by omega, Or.inr ⟨by decide, by simp⟩⟩]
      rfl
    · intro k hk
      simp
  · refine ⟨1#32 <<< i, ?_, ?_⟩
    · have h1 : (if true = true then 1#32 else 0#32).toInt * 2 ^ i < 2 ^ (32 - 1) := by
        rw [show (if true = true then 1#32 else 0#32).toInt = 1 by decide]
        omega
      rw [shlS, if_pos ⟨by omega, Or.inr ⟨by decide, h1⟩⟩]
      rfl
    · intro k hk
      rw [BitVec.getLsbD_setWidth, BitVec.getLsbD_shiftLeft, BitVec.getLsbD_one]
      by_cases h : k = i
      · subst h
        simp
        omega
      · simp [h]
        try omega

theorem activeMap_spec (tm : Tm) : ∀ (es : List Entry) (i : Nat) (acc : BitVec 16), i + es.length ≤ 16 →
    ∃ m, activeMap tm es i acc = .ok m ∧ ∀ k < 16, m.getLsbD k =
      (acc.getLsbD k || (decide (i ≤ k) && (es[k - i]?.map fun e => isActive e tm).getD false))
  | [], i, acc, h => ⟨acc, rfl, by simp⟩
  | e :: es, i, acc, h => by
    simp only [List.length_cons] at h
    obtain ⟨v, h1, h2⟩ := shl_bit (isActive e tm) i (by omega)
    obtain ⟨m, h3, h4⟩ := activeMap_spec tm es (i + 1) (acc ||| v.setWidth 16) (by omega)
    refine ⟨m, by simp [activeMap, h1, h3], ?_⟩
    intro k hk
    rw [h4 k hk, BitVec.getLsbD_or, h2 k hk]
    rcases Nat.lt_trichotomy k i with hlt | rfl | hgt
    · have a1 : ¬ k = i := by omega
      have a2 : ¬ i + 1 ≤ k := by omega
      have a3 : ¬ i ≤ k := by omega
      simp [a1, a2, a3]
    · simp
    · have a1 : ¬ k = i := by omega
      have a2 : i + 1 ≤ k := by omega
      have a3 : i ≤ k := by omega
      rw [show k - i = (k - (i + 1)) + 1 by omega]
      simp [a1, a2, a3]

/-- For up to 16 entries, bit `i` tells whether entry `i` is active; whether it is enabled does not matter. -/
theorem C86_exact (s : Sched) (tm : Tm) (h : s.length ≤ 16) :
    ∃ m, activeMap tm s 0 0 = .ok m ∧ ∀ i < 16, m.getLsbD i = (s[i]?.map fun e => isActive e tm).getD false := by
  obtain ⟨m, h1, h2⟩ := activeMap_spec tm s 0 0 (by omega)
  refine ⟨m, h1, ?_⟩
  intro i hi
  rw [h2 i hi]
  simp

/-- So it lists the enabled active entries if the active ones are enabled. -/
theorem C86_partial (s : Sched) (tm : Tm) (h : s.length ≤ 16) (hen : ∀ e ∈ s, isActive e tm = true → e.enabled ≠ 0) :
    ∃ m, activeMap tm s 0 0 = .ok m ∧ ∀ i < 16, (m.getLsbD i = true ↔ ∃ e, s[i]? = some e ∧ Cand tm e) := by
  obtain ⟨m, h1, h2⟩ := C86_exact s tm h
  refine ⟨m, h1, ?_⟩
  intro i hi
  rw [h2 i hi]
  cases he : s[i]? with
  | none => simp
  | some e =>
    simp only [Option.map_some, Option.getD_some, Option.some.injEq, exists_eq_left', Cand]
    constructor
    · intro ha
      exact ⟨hen e (List.mem_of_getElem? he) ha, ha⟩
    · exact fun h => h.2

/-- A disabled entry in its time is listed, while it is not the active entry. -/
theorem C86_wrong (L : Nat) (tm : Tm) (e : Entry) (hd : e.enabled = 0) (ha : isActive e tm = true) :
    activeMap tm [e] 0 0 = .ok 1 ∧ activeEntry L [e] tm = -1 := by
  constructor
  · simp only [activeMap, ha, if_true]
    rfl
  · simp [activeEntry, search, consider, hd]

/-! ## Examples -/

/-- Weekdays from 8 to 18 o'clock. -/
def office : Entry := ⟨1, 0b0111110, 28800, 64800, 20⟩
/-- Every day from 22 to 6 o'clock. -/
def night : Entry := ⟨1, 0b1111111, 79200, 108000, 16⟩
/-- On Mondays from 12 to 13 o'clock. -/
def lunch : Entry := ⟨1, 0b0000010, 43200, 46800, 18⟩
/-- On Saturdays from 22 to 6 o'clock. -/
def party : Entry := ⟨1, 0b1000000, 79200, 108000, 300⟩

example : Valid ⟨1, 12, 30, 0⟩ := ⟨by decide, by decide, by decide, by decide⟩
example : activeEntry 64 [office, night, lunch] ⟨1, 12, 30, 0⟩ = 2 := by decide
example : activeEntry 64 [office, night, lunch] ⟨1, 13, 0, 0⟩ = 0 := by decide
example : activeEntry 64 [office, night, lunch] ⟨0, 13, 0, 0⟩ = -1 := by decide
example : currentValue 64 [office, night, lunch] ⟨3, 5, 59, 59⟩ = .ok (some 16) := by decide
example : isActive office ⟨1, 17, 59, 59⟩ = true ∧ isActive office ⟨1, 18, 0, 0⟩ = false := by decide
-- On Saturday night: not active on Sunday morning, but on Saturday morning.
example : isActive party ⟨6, 23, 0, 0⟩ = true ∧ isActive party ⟨0, 5, 0, 0⟩ = false ∧ isActive party ⟨6, 5, 0, 0⟩ = true := by
  decide
example : active party 0 18000 ∧ ¬ active party 6 18000 := by unfold active; decide
-- The value 300 compares as 44.
example : activeEntry 64 [party, { party with value := 45 }] ⟨6, 23, 0, 0⟩ = 1 := by decide
example : remaining 64 [office, night] 0 ⟨1, 17, 0, 0⟩ = .ok 3600 := by decide
example : remaining 64 [office, night] 1 ⟨1, 5, 0, 0⟩ = .ok 90000 := by decide
example : serialize (List.replicate 12 0xAA) office = .ok ([1, 62, 128, 112, 0, 0, 32, 253, 0, 0, 20, 0xAA], 11) := by decide
example : deserialize [1, 62, 128, 112, 0, 0, 32, 253, 0, 0, 20, 0xAA] = .ok (office, 11) := by decide
example : overlapping [office, lunch] lunch = 2 ∧ overlapping [office] ⟨1, 0b1000001, 28800, 64800, 3⟩ = 0 := by decide
-- A morning entry and the night: no overlap is reported, both are active.
example : overlapping [⟨1, 2, 18000, 25200, 21⟩] night = 0 ∧ isActive night ⟨1, 5, 0, 0⟩ = true ∧
    isActive ⟨1, 2, 18000, 25200, 21⟩ ⟨1, 5, 0, 0⟩ = true := by decide
example : nextEnabled [office, zeroEntry, lunch] 1 = .ok 2 ∧ firstAvailable [office, zeroEntry, lunch] = .ok 1 := by decide
example : activeMap ⟨1, 12, 30, 0⟩ [office, night, lunch, { lunch with enabled := 0 }] 0 0 = .ok 0b1101 := by decide
example : setEntry [office, night] 1 lunch = .ok ([office, lunch], 0) ∧ setEntry [office, night] 2 lunch = .ok ([office, night], -1) := by
  decide

end Gel.Scheduler
