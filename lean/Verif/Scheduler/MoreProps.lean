import Verif.Scheduler.Props

/-!
# Scheduler: overlaps that are reported, maps of large tables, durations (C109-C111)
-/
namespace Gel.Scheduler
open Spec

/-! ## C109: reported overlaps -/

/-- The time `t` seconds after midnight of a day. -/
def Spec.clock (day t : Nat) : Tm := ⟨day, t / 3600, t / 60 % 60, t % 60⟩

theorem at_valid {day t : Nat} (hd : day < 7) (ht : t < 86400) : Valid (clock day t) :=
  ⟨hd, by simp only [Spec.clock]; omega, by simp only [Spec.clock]; omega, by simp only [Spec.clock]; omega⟩

theorem at_second (day t : Nat) : second (clock day t) = t := by
  simp only [second, Spec.clock]
  omega

/-- The two entries are at some time active together. -/
def Spec.Together (a b : Entry) : Prop := ∃ tm, Valid tm ∧ isActive a tm = true ∧ isActive b tm = true

/-- On a common day one entry begins in the second in which the other ends. -/
def Spec.Touch (a b : Entry) : Prop := (∃ d, d < 7 ∧ on a d ∧ on b d) ∧ (a.stop = b.start ∨ b.stop = a.start)

theorem and_pos_iff (a b : BitVec 8) : 0 < (a &&& b).toNat ↔ ∃ d, d < 8 ∧ a.getLsbD d = true ∧ b.getLsbD d = true := by
  constructor
  · intro h
    by_contra hc
    have h0 : a &&& b = 0#8 := by
      apply BitVec.eq_of_getLsbD_eq
      intro i hi
      rw [BitVec.getLsbD_and, BitVec.getLsbD_zero, Bool.and_eq_false_iff]
      by_contra hn
      rw [not_or, Bool.not_eq_false, Bool.not_eq_false] at hn
      exact hc ⟨i, hi, hn⟩
    rw [h0] at h
    simp at h
  · rintro ⟨d, -, h1, h2⟩
    exact and_pos_of_bit a b d h1 h2

/-- The condition of the code, for entries that end within their day. -/
theorem overlaps_iff (o e : Entry) (hen : o.enabled ≠ 0) (h7 : ¬ on e 7) (ho : o.start.toNat < o.stop.toNat)
    (he : e.start.toNat < e.stop.toNat) :
    overlaps o e = true ↔ (∃ d, d < 7 ∧ on o d ∧ on e d) ∧ o.start.toNat ≤ e.stop.toNat ∧ e.start.toNat ≤ o.stop.toNat := by
  have hday : (0 < (o.days &&& e.days).toNat) ↔ ∃ d, d < 7 ∧ on o d ∧ on e d := by
    rw [and_pos_iff]
    constructor
    · rintro ⟨d, h1, h2, h3⟩
      refine ⟨d, ?_, h2, h3⟩
      by_contra hc
      have : d = 7 := by omega
      subst this
      exact h7 h3
    · rintro ⟨d, h1, h2, h3⟩
      exact ⟨d, by omega, h2, h3⟩
  simp only [overlaps, included, Bool.and_eq_true, decide_eq_true_eq, Bool.or_eq_true, gt_iff_lt, ge_iff_le]
  rw [hday]
  constructor
  · rintro ⟨⟨-, h2⟩, h3⟩
    exact ⟨h2, by omega, by omega⟩
  · rintro ⟨h1, h2, h3⟩
    refine ⟨⟨hen, h1⟩, by omega⟩

/-- For entries that begin before they end and end within the day: an enabled entry counts as overlapping exactly if at
some time both are active, or one begins in the second in which the other ends. -/
theorem C109_overlap (o e : Entry) (hen : o.enabled ≠ 0) (h7 : ¬ on e 7) (ho : o.start.toNat < o.stop.toNat)
    (he : e.start.toNat < e.stop.toNat) (ho' : o.stop.toNat ≤ 86400) (he' : e.stop.toNat ≤ 86400) :
    overlaps o e = true ↔ Together o e ∨ Touch o e := by
  rw [overlaps_iff o e hen h7 ho he]
  constructor
  · rintro ⟨⟨d, h1, h2, h3⟩, h4, h5⟩
    by_cases hs : o.start.toNat < e.stop.toNat ∧ e.start.toNat < o.stop.toNat
    · refine Or.inl ⟨clock d (max o.start.toNat e.start.toNat), at_valid h1 (by omega), ?_, ?_⟩
      · rw [(C80_active o _ (at_valid h1 (by omega)) ho').1, at_second]
        exact ⟨h2, by omega, by omega⟩
      · rw [(C80_active e _ (at_valid h1 (by omega)) he').1, at_second]
        exact ⟨h3, by omega, by omega⟩
    · refine Or.inr ⟨⟨d, h1, h2, h3⟩, ?_⟩
      rcases Nat.lt_or_ge o.start.toNat e.stop.toNat with h | h
      · exact Or.inl (BitVec.eq_of_toNat_eq (by omega))
      · exact Or.inr (BitVec.eq_of_toNat_eq (by omega))
  · rintro (⟨tm, hv, h1, h2⟩ | ⟨hd, h⟩)
    · obtain ⟨a1, a2, a3⟩ := (C80_active o tm hv ho').1.1 h1
      obtain ⟨b1, b2, b3⟩ := (C80_active e tm hv he').1.1 h2
      exact ⟨⟨tm.wday, hv.wday, a1, b1⟩, by omega, by omega⟩
    · refine ⟨hd, ?_⟩
      rcases h with h | h
      · have := congrArg BitVec.toNat h
        omega
      · have := congrArg BitVec.toNat h
        omega

/-- Disabled entries do not count. -/
theorem overlaps_enabled {o e : Entry} (h : overlaps o e = true) : o.enabled ≠ 0 := by
  intro hc
  simp [overlaps, hc] at h

theorem overlapping_countP (s : Sched) (e : Entry) : overlapping s e = s.countP fun o => overlaps o e := by
  unfold overlapping
  induction s with
  | nil => rfl
  | cons o s ih => rw [List.map_cons, List.sum_cons, ih, List.countP_cons]; omega

open Classical in
/-- The number returned, if no entry of the table touches the given one: the number of enabled entries that are at some
time active together with it. -/
theorem C109_count_partial (s : Sched) (e : Entry) (h7 : ¬ on e 7) (he : e.start.toNat < e.stop.toNat)
    (he' : e.stop.toNat ≤ 86400)
    (hs : ∀ o ∈ s, o.enabled ≠ 0 → o.start.toNat < o.stop.toNat ∧ o.stop.toNat ≤ 86400 ∧ ¬ Touch o e) :
    overlapping s e = s.countP fun o => decide (o.enabled ≠ 0 ∧ Together o e) := by
  rw [overlapping_countP]
  apply List.countP_congr
  intro o ho
  rw [decide_eq_true_eq]
  constructor
  · intro h
    have hen := overlaps_enabled h
    obtain ⟨a, b, c⟩ := hs o ho hen
    exact ⟨hen, ((C109_overlap o e hen h7 a he b he').1 h).resolve_right c⟩
  · rintro ⟨hen, h⟩
    obtain ⟨a, b, -⟩ := hs o ho hen
    exact (C109_overlap o e hen h7 a he b he').2 (Or.inl h)

/-- Consecutive entries: the second begins when the first ends. They are never active together, an overlap is reported. -/
theorem C109_wrong (o e : Entry) (hen : o.enabled ≠ 0) (h7 : ¬ on e 7) (hd : ∃ d, d < 7 ∧ on o d ∧ on e d)
    (ho : o.start.toNat < o.stop.toNat) (he : e.start.toNat < e.stop.toNat) (he' : e.stop.toNat ≤ 86400)
    (h : o.stop = e.start) : overlapping [o] e = 1 ∧ overlapping [e] o = (if e.enabled = 0 then 0 else 1) ∧ ¬ Together o e := by
  have ht := congrArg BitVec.toNat h
  have ho' : o.stop.toNat ≤ 86400 := by omega
  refine ⟨?_, ?_, ?_⟩
  · rw [overlapping_countP]
    have := (C109_overlap o e hen h7 ho he ho' he').2 (Or.inr ⟨hd, Or.inl h⟩)
    simp [this]
  · rw [overlapping_countP]
    split
    · rename_i h0
      simp [overlaps, h0]
    · rename_i h0
      obtain ⟨d, h1, h2, h3⟩ := hd
      have : overlaps e o = true := by
        have hp : 0 < (e.days &&& o.days).toNat := and_pos_of_bit _ _ d h3 h2
        simp only [overlaps, included, Bool.and_eq_true, decide_eq_true_eq, Bool.or_eq_true, gt_iff_lt, ge_iff_le]
        exact ⟨⟨h0, hp⟩, by omega⟩
      simp [this]
  · rintro ⟨tm, hv, h1, h2⟩
    obtain ⟨a1, a2, a3⟩ := (C80_active o tm hv ho').1.1 h1
    obtain ⟨b1, b2, b3⟩ := (C80_active e tm hv he').1.1 h2
    omega

/-- An enabled entry that is already in the table overlaps with itself. -/
theorem C109_self (s : Sched) (e : Entry) (hm : e ∈ s) (hen : e.enabled ≠ 0) (hd : e.days ≠ 0)
    (he : e.start.toNat ≤ e.stop.toNat) : 0 < overlapping s e := by
  rw [overlapping_countP, List.countP_pos_iff]
  refine ⟨e, hm, ?_⟩
  have hp : 0 < (e.days &&& e.days).toNat := by
    rw [BitVec.and_self]
    by_contra hc
    exact hd (BitVec.eq_of_toNat_eq (by change e.days.toNat = 0; omega))
  simp only [overlaps, included, Bool.and_eq_true, decide_eq_true_eq, Bool.or_eq_true, gt_iff_lt, ge_iff_le]
  exact ⟨⟨hen, hp⟩, by omega⟩

/-! ## C110: the map for every table size -/

/-- The shift of line 206, for every index. -/
theorem shl_bit_all (b : Bool) (i : Nat) :
    shlS false (if b then 1#32 else 0#32) i =
      if i < 31 ∨ (i = 31 ∧ b = false) then .ok ((if b then 1#32 else 0#32) <<< i) else .ub := by
  cases b
  · change shlS false 0#32 i = if i < 31 ∨ (i = 31 ∧ false = false) then .ok (0#32 <<< i) else .ub
    by_cases hi : i < 32
    · rw [if_pos (by simp; omega), shlS, if_pos ⟨hi, Or.inr ⟨by decide, by simp⟩⟩]
    · rw [if_neg (by simp; omega), shlS, if_neg (by simp [hi])]
  · change shlS false 1#32 i = if i < 31 ∨ (i = 31 ∧ true = false) then .ok (1#32 <<< i) else .ub
    by_cases hi : i < 31
    · have hp : (2 : Int) ^ i < 2 ^ 31 := by exact_mod_cast Nat.pow_lt_pow_right (by omega) hi
      have h1 : (1#32).toInt * 2 ^ i < 2 ^ (32 - 1) := by
        rw [show (1#32).toInt = 1 by decide]
        omega
      rw [if_pos (Or.inl hi), shlS, if_pos ⟨by omega, Or.inr ⟨by decide, h1⟩⟩]
    · have hp : (2 : Int) ^ 31 ≤ 2 ^ i := by exact_mod_cast Nat.pow_le_pow_right (by omega) (by omega)
      rw [if_neg (by simp [hi]), shlS, if_neg]
      rw [show (1#32).toInt = 1 by decide]
      rintro ⟨-, h | ⟨-, h⟩⟩
      · cases h
      · omega

/-- No entry from number `i` on makes the shift undefined. -/
def Spec.Shifts (tm : Tm) (es : List Entry) (i : Nat) : Prop :=
  ∀ k e, es[k]? = some e → i + k < 31 ∨ (i + k = 31 ∧ isActive e tm = false)

theorem activeMap_all (tm : Tm) : ∀ (es : List Entry) (i : Nat) (acc : BitVec 16),
    (Shifts tm es i → ∃ m, activeMap tm es i acc = .ok m ∧ ∀ k < 16, m.getLsbD k =
      (acc.getLsbD k || (decide (i ≤ k) && (es[k - i]?.map fun e => isActive e tm).getD false))) ∧
    (¬ Shifts tm es i → activeMap tm es i acc = .ub)
  | [], i, acc => ⟨fun _ => ⟨acc, rfl, by simp⟩, fun h => absurd (fun k e h => by simp at h) h⟩
  | e :: es, i, acc => by
    have hS : Shifts tm (e :: es) i ↔ (i < 31 ∨ (i = 31 ∧ isActive e tm = false)) ∧ Shifts tm es (i + 1) := by
      constructor
      · intro h
        refine ⟨by simpa using h 0 e rfl, fun k x hx => ?_⟩
        have := h (k + 1) x (by simpa using hx)
        rw [show i + 1 + k = i + (k + 1) by omega]
        exact this
      · rintro ⟨h1, h2⟩ k x hx
        cases k with
        | zero =>
          rw [List.getElem?_cons_zero, Option.some.injEq] at hx
          subst hx
          exact h1
        | succ k =>
          have := h2 k x (by simpa using hx)
          rw [show i + (k + 1) = i + 1 + k by omega]
          exact this
    by_cases h1 : i < 31 ∨ (i = 31 ∧ isActive e tm = false)
    · have hs := shl_bit_all (isActive e tm) i
      rw [if_pos h1] at hs
      obtain ⟨ih1, ih2⟩ := activeMap_all tm es (i + 1)
        (acc ||| ((if isActive e tm then 1#32 else 0#32) <<< i).setWidth 16)
      have hstep : activeMap tm (e :: es) i acc =
          activeMap tm es (i + 1) (acc ||| ((if isActive e tm then 1#32 else 0#32) <<< i).setWidth 16) := by
        rw [activeMap, hs]; rfl
      constructor
      · intro h
        obtain ⟨m, h3, h4⟩ := ih1 (hS.1 h).2
        refine ⟨m, hstep.trans h3, ?_⟩
        intro k hk
        rw [h4 k hk, BitVec.getLsbD_or]
        have hb : (((if isActive e tm then 1#32 else 0#32) <<< i).setWidth 16).getLsbD k =
            (decide (k = i) && isActive e tm) := by
          cases isActive e tm
          · simp
          · rw [if_pos rfl, BitVec.getLsbD_setWidth, BitVec.getLsbD_shiftLeft, BitVec.getLsbD_one]
            by_cases h : k = i
            · subst h
              simp
              omega
            · simp [h]
              try omega
        rw [hb]
        rcases Nat.lt_trichotomy k i with hlt | rfl | hgt
        · have a1 : ¬ k = i := by omega
          have a2 : ¬ i + 1 ≤ k := by omega
          have a3 : ¬ i ≤ k := by omega
          simp [a1, a2, a3]
        · simp
        · have a1 : ¬ k = i := by omega
          have a2 : i + 1 ≤ k := by omega
          have a3 : i ≤ k := by omega
          rw [show k - i = (k - (i + 1)) + 1 by omega]
          simp [a1, a2, a3]
      · intro h
        rw [hstep]
        exact ih2 fun h2 => h (hS.2 ⟨h1, h2⟩)
    · have hs := shl_bit_all (isActive e tm) i
      rw [if_neg h1] at hs
      refine ⟨fun h => absurd (hS.1 h).1 h1, fun _ => ?_⟩
      rw [activeMap, hs]; rfl

/-- The shifts are defined exactly for up to 31 entries, or 32 of which the last is not active. -/
theorem shifts_iff (tm : Tm) (s : Sched) :
    Shifts tm s 0 ↔ s.length ≤ 31 ∨ (s.length = 32 ∧ ∀ e, s[31]? = some e → isActive e tm = false) := by
  constructor
  · intro h
    rcases Nat.lt_or_ge s.length 32 with h1 | h1
    · exact Or.inl (by omega)
    · by_cases h2 : s.length = 32
      · refine Or.inr ⟨h2, fun e he => ?_⟩
        rcases h 31 e he with h | h
        · omega
        · exact h.2
      · have := h 32 s[32] (List.getElem?_eq_getElem (by omega))
        omega
  · rintro h k e he
    have hk : k < s.length := by
      by_contra hc
      rw [List.getElem?_eq_none (by omega)] at he
      cases he
    rcases h with h | ⟨h, h'⟩
    · omega
    · by_cases hk' : k = 31
      · subst hk'
        exact Or.inr ⟨rfl, h' e he⟩
      · omega

/-- For every table: undefined exactly from 32 active or 33 entries on, and else only the first 16 entries are listed. -/
theorem C110_map (s : Sched) (tm : Tm) :
    ((s.length ≤ 31 ∨ (s.length = 32 ∧ ∀ e, s[31]? = some e → isActive e tm = false)) →
      ∃ m, activeMap tm s 0 0 = .ok m ∧ ∀ i < 16, m.getLsbD i = (s[i]?.map fun e => isActive e tm).getD false) ∧
    (¬ (s.length ≤ 31 ∨ (s.length = 32 ∧ ∀ e, s[31]? = some e → isActive e tm = false)) → activeMap tm s 0 0 = .ub) := by
  rw [← shifts_iff]
  obtain ⟨h1, h2⟩ := activeMap_all tm s 0 0
  refine ⟨fun h => ?_, h2⟩
  obtain ⟨m, h3, h4⟩ := h1 h
  refine ⟨m, h3, fun i hi => ?_⟩
  rw [h4 i hi]
  simp

/-- An active entry behind the sixteenth makes no difference to the map. -/
theorem C110_wrong (tm : Tm) (s : Sched) (e : Entry) (h : 16 ≤ s.length) (h' : s.length ≤ 30) :
    ∃ m, activeMap tm s 0 0 = .ok m ∧ activeMap tm (s ++ [e]) 0 0 = .ok m := by
  obtain ⟨m, h1, h2⟩ := (C110_map s tm).1 (Or.inl (by omega))
  obtain ⟨m', h3, h4⟩ := (C110_map (s ++ [e]) tm).1 (Or.inl (by simp; omega))
  have : m = m' := by
    apply BitVec.eq_of_getLsbD_eq
    intro i hi
    rw [h2 i hi, h4 i hi, List.getElem?_append_left (by omega)]
  subst this
  exact ⟨m, h1, h3⟩

/-! ## C111: the duration of an entry -/

/-- The number of seconds of a day in which the entry is active. -/
def Spec.seconds (e : Entry) (day : Nat) : Nat := ((List.range 86400).filter fun t => isActive e (clock day t)).length

theorem count_within (a b : Nat) : ∀ n, ((List.range n).filter fun t => decide (a ≤ t ∧ t < b)).length = min n b - a
  | 0 => by simp
  | n + 1 => by
    rw [List.range_succ, List.filter_append, List.length_append, count_within a b n]
    by_cases h : a ≤ n ∧ n < b
    · simp only [h, and_self, decide_true, List.filter_cons_of_pos, List.filter_nil, List.length_cons, List.length_nil]
      omega
    · rw [List.filter_cons_of_neg (by simpa using h)]
      simp only [List.filter_nil, List.length_nil]
      omega

theorem count_outside (a b : Nat) : ∀ n, ((List.range n).filter fun t => decide (t < b ∨ a ≤ t)).length =
    if b ≤ a then min n b + (n - a) else n
  | 0 => by simp
  | n + 1 => by
    rw [List.range_succ, List.filter_append, List.length_append, count_outside a b n]
    by_cases h : n < b ∨ a ≤ n
    · simp only [h, decide_true, List.filter_cons_of_pos, List.filter_nil, List.length_cons, List.length_nil]
      split <;> omega
    · rw [List.filter_cons_of_neg (by simpa using h)]
      simp only [List.filter_nil, List.length_nil]
      split <;> omega

theorem filter_congr_length {l : List Nat} {p q : Nat → Bool} (h : ∀ x ∈ l, p x = q x) :
    (l.filter p).length = (l.filter q).length := by rw [List.filter_congr h]

/-- The number of seconds, for any entry. -/
theorem seconds_eq (e : Entry) (day : Nat) (hd : day < 7) :
    seconds e day = if on e day then
      (if 86400 < e.stop.toNat then
        (if e.stop.toNat - 86400 ≤ e.start.toNat then min 86400 (e.stop.toNat - 86400) + (86400 - e.start.toNat) else 86400)
      else min 86400 e.stop.toNat - e.start.toNat) else 0 := by
  unfold seconds
  by_cases ho : on e day
  · rw [if_pos ho]
    by_cases hs : 86400 < e.stop.toNat
    · rw [if_pos hs, ← count_outside]
      apply filter_congr_length
      intro t ht
      rw [List.mem_range] at ht
      rw [Bool.eq_iff_iff, decide_eq_true_eq, isActive_iff (at_valid hd ht), if_pos hs, at_second]
      exact ⟨fun h => h.2, fun h => ⟨ho, h⟩⟩
    · rw [if_neg hs, ← count_within]
      apply filter_congr_length
      intro t ht
      rw [List.mem_range] at ht
      rw [Bool.eq_iff_iff, decide_eq_true_eq, isActive_iff (at_valid hd ht), if_neg hs, at_second]
      exact ⟨fun h => h.2, fun h => ⟨ho, h⟩⟩
  · rw [if_neg ho, List.length_eq_zero_iff, List.filter_eq_nil_iff]
    intro t ht
    rw [List.mem_range] at ht
    rw [isActive_iff (at_valid hd ht)]
    exact fun h => ho h.1

/-- For an entry that begins within the day: the duration is the number of seconds in which it is active on each of its
days exactly if it does not end before it begins and does not last longer than a day. -/
theorem C111_duration (e : Entry) (day : Nat) (hd : day < 7) (ho : on e day) (hs : e.start.toNat ≤ 86400) :
    duration e = seconds e day ↔ e.start.toNat ≤ e.stop.toNat ∧ e.stop.toNat ≤ e.start.toNat + 86400 := by
  rw [seconds_eq e day hd, if_pos ho, duration_eq]
  split
  · split <;> omega
  · omega

/-- On other days it is not active at all. -/
theorem C111_other_days (e : Entry) (day : Nat) (hd : day < 7) (ho : ¬ on e day) : seconds e day = 0 := by
  rw [seconds_eq e day hd, if_neg ho]

/-- The weekly time span that decides between entries is the number of seconds of a week in which the entry is active. -/
theorem C111_week_partial (L : Nat) (hL : 32 ≤ L) (e : Entry) (hs : e.start.toNat ≤ 86400)
    (h1 : e.start.toNat ≤ e.stop.toNat) (h2 : e.stop.toNat ≤ e.start.toNat + 86400) :
    weekSpan L e = ((List.range 7).map (seconds e)).sum := by
  have hb : span e < 2 ^ L :=
    lt_of_lt_of_le ((C78_spans e).2 (by omega) (by omega)) (Nat.pow_le_pow_right (by omega) hL)
  rw [weekSpan_eq hb, span, ← duration_eq]
  have hg : ∀ l : List Nat, (∀ x ∈ l, x < 7) →
      duration e * (l.filter fun d => decide (on e d)).length = (l.map (seconds e)).sum := by
    intro l
    induction l with
    | nil => simp
    | cons x xs ih =>
      intro h
      rw [List.map_cons, List.sum_cons, ← ih fun y hy => h y (List.mem_cons_of_mem _ hy), List.filter_cons]
      have hx := h x List.mem_cons_self
      by_cases ho : on e x
      · rw [if_pos (by simpa using ho), List.length_cons, Nat.mul_succ,
          ← (C111_duration e x hx ho hs).2 ⟨h1, h2⟩]
        omega
      · rw [if_neg (by simpa using ho), C111_other_days e x hx ho]
        omega
  exact hg _ fun x hx => List.mem_range.1 hx

/-- An entry that ends before it begins is never active but has a duration, and a span by which it is compared. -/
theorem C111_wrong (e : Entry) (h : e.stop.toNat < e.start.toNat) (hs : e.start.toNat ≤ 86400) :
    duration e = e.start.toNat - e.stop.toNat ∧ 0 < duration e ∧ ∀ tm, Valid tm → isActive e tm = false := by
  have hd := duration_eq e
  refine ⟨by omega, by omega, fun tm hv => ?_⟩
  rw [Bool.eq_false_iff]
  intro hc
  rw [isActive_iff hv, if_neg (by omega)] at hc
  omega

/-! ## Examples -/

-- Morning and afternoon touch; two shifts overlap.
example : overlapping [⟨1, 2, 28800, 43200, 1⟩] ⟨1, 2, 43200, 64800, 2⟩ = 1 := by decide
example : overlapping [⟨1, 2, 28800, 43200, 1⟩, ⟨0, 2, 40000, 50000, 1⟩, ⟨1, 2, 60000, 70000, 1⟩] ⟨1, 6, 43201, 64800, 2⟩ = 1 := by
  decide
example : Together ⟨1, 2, 28800, 43200, 1⟩ ⟨1, 6, 40000, 64800, 2⟩ := by
  exact ⟨⟨1, 11, 30, 0⟩, ⟨by decide, by decide, by decide, by decide⟩, by decide, by decide⟩
-- Seventeen entries, of which only the last is active; 32 active ones.
example : activeMap ⟨1, 12, 30, 0⟩ (List.replicate 16 zeroEntry ++ [office]) 0 0 = .ok 0 := by decide
example : activeMap ⟨1, 12, 30, 0⟩ (List.replicate 31 office) 0 0 = .ok 0xFFFF := by decide
example : activeMap ⟨1, 12, 30, 0⟩ (List.replicate 32 office) 0 0 = .ub := by decide
example : seconds office 1 = 36000 := by
  rw [← (C111_duration office 1 (by decide) (by decide) (by decide)).2 ⟨by decide, by decide⟩]; decide
example : weekSpan 32 night = 201600 := by decide
example : duration ⟨1, 2, 43200, 28800, 1⟩ = 14400 ∧ isActive ⟨1, 2, 43200, 28800, 1⟩ ⟨1, 10, 0, 0⟩ = false := by decide

end Gel.Scheduler
