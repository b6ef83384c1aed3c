import Verif.Scheduler.MoreProps

/-!
# Scheduler: exact results for every table (C136-C139)
-/
namespace Gel.Scheduler
open Spec

/-! ## C136: the active entry -/

/-- The enabled and active entries with their indices. -/
def Spec.cands (tm : Tm) (s : Sched) (k : Nat) : List (Entry × Nat) :=
  (s.zipIdx k).filter fun p => decide (p.1.enabled ≠ 0) && isActive p.1 tm

/-- The entry that remains of a list of entries that follow each other if a later one takes the place of the one before
exactly if its value exceeds the remainder of the other's value by 256. -/
def Spec.champion (p : Entry × Nat) (l : List (Entry × Nat)) : Entry × Nat :=
  l.foldl (fun cur q => if cur.1.value.toInt % 256 < q.1.value.toInt then q else cur) p

/-- What the search has found in the candidates `c`. -/
def Holds (L : Nat) (c : List (Entry × Nat)) (f : Found) : Prop :=
  (c = [] ∧ f.found = false ∧ f.id = -1) ∨
  ∃ m p l, (∀ q ∈ c, m ≤ span q.1 % 2 ^ L) ∧ (c.filter fun q => decide (span q.1 % 2 ^ L = m)) = p :: l ∧
    f = ⟨true, m, (champion p l).1.value.setWidth 8, (champion p l).2⟩

theorem weekSpan_mod (L : Nat) (e : Entry) : weekSpan L e = span e % 2 ^ L := by
  rw [weekSpan, duration_eq, numDays_eq]; rfl

theorem toNat_mod (v : BitVec 32) : ((v.setWidth 8).toNat : Int) = v.toInt % 256 := by
  rw [BitVec.toNat_setWidth]
  have hlt := v.isLt
  have := BitVec.toInt_eq_toNat_cond v
  split at this <;> omega

theorem champion_concat (p q : Entry × Nat) (l : List (Entry × Nat)) :
    champion p (l ++ [q]) = if (champion p l).1.value.toInt % 256 < q.1.value.toInt then q else champion p l := by
  rw [Spec.champion, List.foldl_append]; rfl

theorem holds_step (L : Nat) (tm : Tm) (c : List (Entry × Nat)) (f : Found) (e : Entry) (k : Nat) (h : Holds L c f) :
    Holds L (c ++ cands tm [e] k) (consider L tm f e k) := by
  by_cases hc : decide (e.enabled ≠ 0) && isActive e tm
  · have h1 : cands tm [e] k = [(e, k)] := by simpa [Spec.cands, List.zipIdx] using hc
    have h2 : e.enabled ≠ 0 ∧ isActive e tm = true := by simpa using hc
    rw [h1, consider, if_neg h2.1, if_pos h2.2, weekSpan_mod]
    rcases h with ⟨rfl, hf, -⟩ | ⟨m, p, l, hm, hl, rfl⟩
    · rw [hf]
      refine Or.inr ⟨span e % 2 ^ L, (e, k), [], by simp, by simp, ?_⟩
      simp [Spec.champion]
    · simp only [Bool.not_true, Bool.false_or, toNat_mod]
      rcases Nat.lt_trichotomy (span e % 2 ^ L) m with hlt | heq | hgt
      · refine Or.inr ⟨span e % 2 ^ L, (e, k), [], ?_, ?_, ?_⟩
        · intro q hq
          rcases List.mem_append.1 hq with hq | hq
          · have := hm q hq; omega
          · rw [List.mem_singleton.1 hq]
        · rw [List.filter_append, List.filter_eq_nil_iff.2, List.nil_append]
          · simp
          · intro q hq
            have := hm q hq
            simp only [decide_eq_true_eq]; omega
        · rw [if_pos (by simp [hlt])]; rfl
      · refine Or.inr ⟨m, p, l ++ [(e, k)], ?_, ?_, ?_⟩
        · intro q hq
          rcases List.mem_append.1 hq with hq | hq
          · exact hm q hq
          · rw [List.mem_singleton.1 hq]; simp only; omega
        · rw [List.filter_append, hl]; simp [heq]
        · rw [champion_concat]
          simp only [heq, Nat.lt_irrefl, decide_false, Bool.false_or, decide_true, Bool.true_and, decide_eq_true_eq]
          split <;> rfl
      · refine Or.inr ⟨m, p, l, ?_, ?_, ?_⟩
        · intro q hq
          rcases List.mem_append.1 hq with hq | hq
          · exact hm q hq
          · rw [List.mem_singleton.1 hq]; simp only; omega
        · rw [List.filter_append, hl, List.filter_eq_nil_iff.2, List.append_nil]
          intro q hq
          rw [List.mem_singleton.1 hq]
          simp only [decide_eq_true_eq]; omega
        · rw [if_neg]
          simp only [Bool.or_eq_true, Bool.and_eq_true, decide_eq_true_eq]
          omega
  · have h1 : cands tm [e] k = [] := by simpa [Spec.cands, List.zipIdx] using hc
    rw [h1, List.append_nil]
    have : consider L tm f e k = f := by
      unfold consider
      by_cases h0 : e.enabled = 0
      · rw [if_pos h0]
      · rw [if_neg h0, if_neg (fun ha => hc (by simp only [ha, Bool.and_true, decide_eq_true_eq]; exact h0))]
    rwa [this]

theorem holds_search (L : Nat) (tm : Tm) : ∀ (s : Sched) (k : Nat) (c : List (Entry × Nat)) (f : Found), Holds L c f →
    Holds L (c ++ cands tm s k) (search L tm f s k)
  | [], k, c, f, h => by rw [search]; simpa [Spec.cands] using h
  | e :: s, k, c, f, h => by
    rw [search]
    have := holds_search L tm s (k + 1) _ _ (holds_step L tm c f e k h)
    rw [List.append_assoc] at this
    have he : cands tm [e] k ++ cands tm s (k + 1) = cands tm (e :: s) k := by
      rw [Spec.cands, Spec.cands, ← List.filter_append]; rfl
    rwa [he] at this

/-- **C136.** For every table, every time, all values and every width of `unsigned long`: -1 if no enabled entry is
active; otherwise, of the enabled active entries with the smallest weekly span (as an `unsigned long`), in the order of the
table, the one that remains when each takes the place of the one before exactly if its value exceeds the other's remainder
by 256. -/
theorem C136_active (L : Nat) (s : Sched) (tm : Tm) :
    (cands tm s 0 = [] ∧ activeEntry L s tm = -1) ∨
    ∃ m p l, (∀ q ∈ cands tm s 0, m ≤ span q.1 % 2 ^ L) ∧
      ((cands tm s 0).filter fun q => decide (span q.1 % 2 ^ L = m)) = p :: l ∧
      activeEntry L s tm = (champion p l).2 := by
  have := holds_search L tm s 0 [] ⟨false, 0, 0, -1⟩ (Or.inl ⟨rfl, rfl, rfl⟩)
  rw [List.nil_append] at this
  rcases this with ⟨h1, -, h2⟩ | ⟨m, p, l, h1, h2, h3⟩
  · exact Or.inl ⟨h1, h2⟩
  · exact Or.inr ⟨m, p, l, h1, h2, by rw [activeEntry, h3]⟩

/-- The values 300, 50, 45, 46: 50 replaces 300 (44), 45 and 46 do not replace 50. -/
example : activeEntry 64 [⟨1, 2, 0, 100, 300⟩, ⟨1, 2, 0, 100, 50⟩, ⟨0, 2, 0, 1, 99⟩, ⟨1, 2, 0, 100, 46⟩] ⟨1, 0, 0, 5⟩ = 1 ∧
    activeEntry 64 [⟨1, 2, 0, 100, 50⟩, ⟨1, 2, 0, 100, 300⟩, ⟨1, 2, 0, 100, 45⟩] ⟨1, 0, 0, 5⟩ = 2 := by decide

/-! ## C137: the remaining time -/

theorem champion_mem (p : Entry × Nat) : ∀ l, champion p l = p ∨ champion p l ∈ l := by
  intro l
  induction l generalizing p with
  | nil => exact Or.inl rfl
  | cons q l ih =>
    rw [Spec.champion, List.foldl_cons]
    split
    · rcases ih q with h | h
      · exact Or.inr (by rw [Spec.champion] at h; rw [h]; exact List.mem_cons_self)
      · exact Or.inr (List.mem_cons_of_mem _ h)
    · rcases ih p with h | h
      · exact Or.inl h
      · exact Or.inr (List.mem_cons_of_mem _ h)

theorem mem_cands {tm : Tm} {s : Sched} {q : Entry × Nat} (h : q ∈ cands tm s 0) : s[q.2]? = some q.1 ∧ Cand tm q.1 := by
  rw [Spec.cands, List.mem_filter] at h
  obtain ⟨h1, h2⟩ := h
  have := List.mem_zipIdx h1
  simp only [Bool.and_eq_true, decide_eq_true_eq] at h2
  refine ⟨?_, h2⟩
  rw [List.getElem?_eq_getElem (by omega)]
  simp [this.2.2]

/-- The result of the search is -1, or the index of an enabled active entry. -/
theorem active_cases (L : Nat) (s : Sched) (tm : Tm) :
    (activeEntry L s tm = -1 ∧ ∀ e ∈ s, ¬ Cand tm e) ∨
    ∃ (j : Nat) (a : Entry), activeEntry L s tm = (j : Int) ∧ s[j]? = some a ∧ Cand tm a := by
  rcases C136_active L s tm with ⟨h1, h2⟩ | ⟨m, p, l, h1, h2, h3⟩
  · refine Or.inl ⟨h2, ?_⟩
    rintro e he ⟨c1, c2⟩
    obtain ⟨i, hi, rfl⟩ := List.mem_iff_getElem.1 he
    have : (s[i], i) ∈ cands tm s 0 := by
      rw [Spec.cands, List.mem_filter]
      refine ⟨?_, by simp only [c2, Bool.and_true, decide_eq_true_eq]; exact c1⟩
      rw [List.mem_zipIdx_iff_getElem?]
      simp [hi]
    rw [h1] at this
    cases this
  · have hm : champion p l ∈ cands tm s 0 := by
      have : champion p l ∈ p :: l := by
        rcases champion_mem p l with h | h
        · rw [h]; exact List.mem_cons_self
        · exact List.mem_cons_of_mem _ h
      rw [← h2] at this
      exact (List.mem_filter.1 this).1
    exact Or.inr ⟨_, _, h3, mem_cands hm⟩

/-- **C137.** For every table and valid time: the remaining time of the schedule is 0 exactly if no enabled entry is
active; otherwise it is the time from now to the end of the active entry, as the end is given in the entry. -/
theorem C137_remaining (L : Nat) (hL : 32 ≤ L) (s : Sched) (tm : Tm) (h : Valid tm) :
    ((∀ e ∈ s, ¬ Cand tm e) ∧ activeEntry L s tm = -1 ∧ currentRemaining L s tm = .ok 0) ∨
    ∃ (j k : Nat) (a : Entry), activeEntry L s tm = (j : Int) ∧ s[j]? = some a ∧ Cand tm a ∧
      currentRemaining L s tm = .ok (k : Int) ∧ 0 < k ∧ second tm + k = a.stop.toNat := by
  have hpow : (2 : Int) ^ 32 ≤ 2 ^ L := by exact_mod_cast Nat.pow_le_pow_right (by omega) hL
  rcases active_cases L s tm with ⟨h1, h2⟩ | ⟨j, a, h1, h2, h3⟩
  · exact Or.inl ⟨h2, h1, by simp [currentRemaining, h1]⟩
  · have hlt : ¬ s.length ≤ j := by
      intro hc
      rw [List.getElem?_eq_none hc] at h2
      cases h2
    have hget : getEntry s j = .ok (some a) := by simp [getEntry, hlt, rd, h2]
    have hs := second_lt h
    have hst : second tm < a.stop.toNat := by
      have := (isActive_iff h).1 h3.2
      split at this <;> omega
    refine Or.inr ⟨j, a.stop.toNat - second tm, a, h1, h2, h3, ?_, by omega, by omega⟩
    rw [currentRemaining, h1, if_pos (by omega), Int.toNat_natCast, remaining, hget]
    simp only [Res.ok_bind, h3.2, Bool.not_true, Bool.false_eq_true, if_false, now_eq h, Res.pure_eq]
    have := a.stop.isLt
    rw [Int.emod_eq_of_lt (by omega) (by omega)]
    congr 1
    omega

/-- **C82.** For every entry and valid time: 0 if it is not active, otherwise the time from now to its end as given in the entry
(which in the morning after an entry that ends on the next day is a day too much). -/
theorem C82_exact (L : Nat) (hL : 32 ≤ L) (s : Sched) (i : Nat) (tm : Tm) (h : Valid tm) (e : Entry) (he : s[i]? = some e) :
    (isActive e tm = false ∧ remaining L s i tm = .ok 0) ∨
    (isActive e tm = true ∧ second tm < e.stop.toNat ∧ remaining L s i tm = .ok ((e.stop.toNat - second tm : Nat) : Int)) := by
  have hpow : (2 : Int) ^ 32 ≤ 2 ^ L := by exact_mod_cast Nat.pow_le_pow_right (by omega) hL
  have hlt : ¬ s.length ≤ i := by
    intro hc
    rw [List.getElem?_eq_none hc] at he
    cases he
  have hget : getEntry s i = .ok (some e) := by simp [getEntry, hlt, rd, he]
  cases ha : isActive e tm with
  | false => exact .inl ⟨rfl, by simp [remaining, hget, ha]⟩
  | true =>
    have hs := second_lt h
    have hst : second tm < e.stop.toNat := by
      have := (isActive_iff h).1 ha
      split at this <;> omega
    refine .inr ⟨rfl, hst, ?_⟩
    rw [remaining, hget]
    simp only [Res.ok_bind, ha, Bool.not_true, Bool.false_eq_true, if_false, now_eq h, Res.pure_eq]
    have := e.stop.isLt
    rw [Int.emod_eq_of_lt (by omega) (by omega)]
    congr 1
    omega

/-- Entry 0 from 0:00 to 1:00, entry 1 to 2:00. -/
example : currentRemaining 64 [⟨1, 2, 0, 3600, 7⟩, ⟨1, 2, 0, 7200, 9⟩] ⟨1, 0, 59, 50⟩ = .ok 10 ∧
    currentRemaining 64 [⟨1, 2, 0, 3600, 7⟩, ⟨1, 2, 0, 7200, 9⟩] ⟨1, 1, 0, 0⟩ = .ok 3600 ∧
    currentRemaining 64 [⟨1, 2, 0, 3600, 7⟩, ⟨1, 2, 0, 7200, 9⟩] ⟨2, 1, 0, 0⟩ = .ok 0 := by decide

/-! ## C138: overlaps of all entries -/

/-- The second lies between the beginning and the end of the entry, both included. -/
def Spec.Within (t : Nat) (e : Entry) : Prop := e.start.toNat ≤ t ∧ t ≤ e.stop.toNat

/-- The bits of a common day (the eighth, which is no day, included). -/
def Spec.Share (a b : Entry) : Prop := ∃ d, d < 8 ∧ on a d ∧ on b d

/-- **C138.** For all entries: `o` counts as overlapping with `e` exactly if it is enabled, they share a day, and: if both
begin no later than they end, a second lies within both; if only one of them does, the beginning or the end of the other
lies within it; never if both end before they begin. -/
theorem C138_overlap (o e : Entry) :
    overlaps o e = true ↔ o.enabled ≠ 0 ∧ Share o e ∧
      (if o.start.toNat ≤ o.stop.toNat then
        if e.start.toNat ≤ e.stop.toNat then ∃ t, Within t o ∧ Within t e
        else Within e.start.toNat o ∨ Within e.stop.toNat o
      else if e.start.toNat ≤ e.stop.toNat then Within o.start.toNat e ∨ Within o.stop.toNat e
      else False) := by
  have key : (included e.start o || included e.stop o || included o.start e || included o.stop e) = true ↔
      (if o.start.toNat ≤ o.stop.toNat then
        if e.start.toNat ≤ e.stop.toNat then ∃ t, Within t o ∧ Within t e
        else Within e.start.toNat o ∨ Within e.stop.toNat o
      else if e.start.toNat ≤ e.stop.toNat then Within o.start.toNat e ∨ Within o.stop.toNat e
      else False) := by
    simp only [included, Bool.or_eq_true, Bool.and_eq_true, decide_eq_true_eq, Spec.Within, ge_iff_le]
    split_ifs with h1 h2 h2
    · constructor
      · intro h
        rcases Nat.le_total o.start.toNat e.start.toNat with h3 | h3
        · exact ⟨e.start.toNat, by omega⟩
        · exact ⟨o.start.toNat, by omega⟩
      · rintro ⟨t, ht⟩
        omega
    · omega
    · omega
    · rw [iff_false]; omega
  rw [← key, overlaps, Bool.and_eq_true, Bool.and_eq_true, decide_eq_true_eq, decide_eq_true_eq, and_assoc]
  rw [gt_iff_lt, and_pos_iff]
  rfl

/-- The count is the number of such entries. -/
theorem C138_count (s : Sched) (e : Entry) : overlapping s e = s.countP fun o => overlaps o e := overlapping_countP s e

/-- From 22:00 to 6:00 as written by someone who does not add a day: overlaps with 21:00 to 23:00, not with 1:00 to 5:00. -/
example : overlaps ⟨1, 127, 75600, 82800, 0⟩ ⟨1, 127, 79200, 21600, 0⟩ = true ∧
    overlaps ⟨1, 127, 3600, 18000, 0⟩ ⟨1, 127, 79200, 21600, 0⟩ = false ∧
    overlapping [⟨1, 127, 75600, 82800, 0⟩, ⟨1, 127, 3600, 18000, 0⟩, ⟨1, 127, 79200, 21600, 0⟩] ⟨1, 127, 79200, 21600, 0⟩ = 1 := by
  decide

/-! ## C139: the serialized form -/

open Serial Serial.Spec

/-- **C139.** The 11 bytes of a serialized entry: enabled, days, start and end with the least significant byte first, the
lowest byte of the value. The rest of the buffer is unchanged. -/
theorem C139_layout (buf : Mem) (e : Entry) (hb : 11 ≤ buf.length) :
    serialize buf e = .ok ([e.enabled, e.days,
      BitVec.ofNat 8 e.start.toNat, BitVec.ofNat 8 (e.start.toNat / 256), BitVec.ofNat 8 (e.start.toNat / 65536),
      BitVec.ofNat 8 (e.start.toNat / 16777216),
      BitVec.ofNat 8 e.stop.toNat, BitVec.ofNat 8 (e.stop.toNat / 256), BitVec.ofNat 8 (e.stop.toNat / 65536),
      BitVec.ofNat 8 (e.stop.toNat / 16777216), BitVec.ofInt 8 e.value.toInt] ++ buf.drop 11, 11) := by
  let fields : List Field := [⟨.u8, e.enabled⟩, ⟨.u8, e.days⟩, ⟨.u32le, e.start⟩, ⟨.u32le, e.stop⟩, ⟨.u8, e.value.setWidth 8⟩]
  obtain ⟨buf', h1, h2, -⟩ := C24_packet fields buf 0 (by simpa [fields, Format.size] using hb)
  have h4 : serialize buf e = .ok (buf', 11) := by
    have : serialize buf e = (do
        let r ← writeAll buf 0 fields
        cassert (decide (r.2 = 11))
        pure r) := by
      simp only [fields, writeAll, bind_assoc]
      rfl
    rw [this, h1]
    rfl
  have hv : e.value.setWidth 8 = BitVec.ofInt 8 e.value.toInt := by
    apply BitVec.eq_of_toNat_eq
    rw [BitVec.toNat_ofInt, ← Int.natCast_inj, toNat_mod]
    simp; omega
  have hu : ∀ v : BitVec 8, image .u8 v = [v] := by
    intro v
    have h0 : ∀ n, leBytes 1 n = [BitVec.ofNat 8 n] := by
      intro n
      simp [leBytes]
    have h1 : [BitVec.ofNat 8 v.toNat] = [v] := by simp
    exact (h0 v.toNat).trans h1
  have hw : ∀ v : BitVec 32, image .u32le v = [BitVec.ofNat 8 v.toNat, BitVec.ofNat 8 (v.toNat / 256),
      BitVec.ofNat 8 (v.toNat / 65536), BitVec.ofNat 8 (v.toNat / 16777216)] := by
    intro v
    have h0 : ∀ n, leBytes 4 n = [BitVec.ofNat 8 n, BitVec.ofNat 8 (n / 256), BitVec.ofNat 8 (n / 65536),
        BitVec.ofNat 8 (n / 16777216)] := by
      intro n
      simp [leBytes, List.range_succ]
    exact h0 v.toNat
  rw [h4, h2, overwrite]
  simp only [fields, List.flatMap_cons, List.flatMap_nil, hu, hw, hv, List.take_zero, List.nil_append, List.append_nil]
  rfl

/-- Every 11 bytes are the serialized form of the entry read from them. -/
theorem C139_canonical (buf : Mem) (hb : 11 ≤ buf.length) :
    ∃ e, deserialize buf = .ok (e, 11) ∧ 0 ≤ e.value.toInt ∧ e.value.toInt < 256 ∧ serialize buf e = .ok (buf, 11) := by
  match buf, hb with
  | a :: b :: s0 :: s1 :: s2 :: s3 :: t0 :: t1 :: t2 :: t3 :: v :: rest, hb =>
    refine ⟨⟨a, b, s0.setWidth 32 ||| s1.setWidth 32 <<< 8 ||| s2.setWidth 32 <<< 16 ||| s3.setWidth 32 <<< 24,
      t0.setWidth 32 ||| t1.setWidth 32 <<< 8 ||| t2.setWidth 32 <<< 16 ||| t3.setWidth 32 <<< 24, v.setWidth 32⟩, rfl, ?_⟩
    have hv : (v.setWidth 32).toInt = v.toNat := toInt_setWidth v (by decide)
    have := v.isLt
    refine ⟨by simp only [hv]; omega, by simp only [hv]; omega, ?_⟩
    rw [C139_layout _ _ hb]
    have byte : ∀ (x : BitVec 8) (n : Nat), n % 256 = x.toNat → BitVec.ofNat 8 n = x := by
      intro x n h
      apply BitVec.eq_of_toNat_eq
      rw [BitVec.toNat_ofNat]; exact h
    have four : ∀ b0 b1 b2 b3 : BitVec 8, BitVec.ofNat 8 (val [b0, b1, b2, b3]) = b0 ∧
        BitVec.ofNat 8 (val [b0, b1, b2, b3] / 256) = b1 ∧ BitVec.ofNat 8 (val [b0, b1, b2, b3] / 65536) = b2 ∧
        BitVec.ofNat 8 (val [b0, b1, b2, b3] / 16777216) = b3 := by
      intro b0 b1 b2 b3
      have l0 := b0.isLt
      have l1 := b1.isLt
      have l2 := b2.isLt
      have l3 := b3.isLt
      simp only [val]
      exact ⟨byte _ _ (by omega), byte _ _ (by omega), byte _ _ (by omega), byte _ _ (by omega)⟩
    obtain ⟨f0, f1, f2, f3⟩ := four s0 s1 s2 s3
    obtain ⟨g0, g1, g2, g3⟩ := four t0 t1 t2 t3
    have hvv : BitVec.ofInt 8 (v.toNat : Int) = v := by
      apply BitVec.eq_of_toNat_eq
      rw [BitVec.toNat_ofInt]; omega
    simp only [hv, or32, f0, f1, f2, f3, g0, g1, g2, g3, hvv]
    rfl

example : serialize (List.replicate 12 9) ⟨1, 127, 0x12345678, 0x9ABCDEF0, 0x1FF⟩ =
    .ok ([1, 127, 0x78, 0x56, 0x34, 0x12, 0xF0, 0xDE, 0xBC, 0x9A, 0xFF, 9], 11) := by decide

/-! ## C84: when entries are active together -/

/-- The parts of a day of its in which the code takes an entry to be active. -/
def Spec.parts (e : Entry) : List (Nat × Nat) :=
  if e.stop.toNat ≤ 86400 then [(e.start.toNat, e.stop.toNat)] else [(0, min (e.stop.toNat - 86400) 86400), (e.start.toNat, 86400)]

theorem isActive_parts {e : Entry} {tm : Tm} (h : Valid tm) :
    isActive e tm = true ↔ on e tm.wday ∧ ∃ p ∈ Spec.parts e, p.1 ≤ second tm ∧ second tm < p.2 := by
  rw [isActive_iff h]
  have hs := second_lt h
  refine and_congr_right fun _ => ?_
  unfold Spec.parts
  by_cases hc : e.stop.toNat ≤ 86400
  · rw [if_neg (by omega), if_pos hc]; simp
  · rw [if_pos (by omega), if_neg hc]
    simp only [List.mem_cons, List.not_mem_nil, or_false, exists_eq_or_imp, exists_eq_left]
    omega

theorem parts_le (e : Entry) : ∀ p ∈ Spec.parts e, p.2 ≤ 86400 := by
  intro p hp
  unfold Spec.parts at hp
  split at hp
  · simp only [List.mem_singleton] at hp; subst hp; assumption
  · simp only [List.mem_cons, List.not_mem_nil, or_false] at hp
    rcases hp with rfl | rfl
    · exact Nat.min_le_right _ _
    · exact Nat.le_refl _

theorem tm_of (d c : Nat) (hd : d < 7) (hc : c < 86400) : ∃ tm : Tm, Valid tm ∧ tm.wday = d ∧ second tm = c := by
  refine ⟨⟨d, c / 3600, c % 3600 / 60, c % 60⟩, ⟨?_, ?_, ?_, ?_⟩, rfl, ?_⟩ <;> simp only [second] <;> omega

/-- **C84.** For all entries: there is a time at which both are active exactly if they share a day and a part of one meets a part of
the other. -/
theorem C84_together (e o : Entry) :
    (∃ tm, Valid tm ∧ isActive e tm = true ∧ isActive o tm = true) ↔
      (∃ d < 7, on e d ∧ on o d) ∧ ∃ p ∈ Spec.parts e, ∃ q ∈ Spec.parts o, max p.1 q.1 < min p.2 q.2 := by
  constructor
  · rintro ⟨tm, hv, h1, h2⟩
    obtain ⟨d1, p, hp, a, b⟩ := (isActive_parts hv).1 h1
    obtain ⟨d2, q, hq, a', b'⟩ := (isActive_parts hv).1 h2
    exact ⟨⟨tm.wday, hv.wday, d1, d2⟩, p, hp, q, hq, by omega⟩
  · rintro ⟨⟨d, hd, d1, d2⟩, p, hp, q, hq, hlt⟩
    have := parts_le e p hp
    obtain ⟨tm, hv, hw, hs⟩ := tm_of d (max p.1 q.1) hd (by omega)
    refine ⟨tm, hv, (isActive_parts hv).2 ⟨by rw [hw]; exact d1, p, hp, by omega, by omega⟩,
      (isActive_parts hv).2 ⟨by rw [hw]; exact d2, q, hq, by omega, by omega⟩⟩

/-- From 22:00 to 6:00 and from 5:00 to 7:00 of the same days: a part of one meets a part of the other; no overlap is reported. -/
example : Spec.parts ⟨1, 2, 79200, 108000, 1⟩ = [(0, 21600), (79200, 86400)] ∧
    Spec.parts ⟨1, 2, 18000, 25200, 1⟩ = [(18000, 25200)] ∧
    overlaps ⟨1, 2, 18000, 25200, 1⟩ ⟨1, 2, 79200, 108000, 1⟩ = false ∧
    isActive ⟨1, 2, 79200, 108000, 1⟩ ⟨1, 5, 30, 0⟩ = true ∧ isActive ⟨1, 2, 18000, 25200, 1⟩ ⟨1, 5, 30, 0⟩ = true := by decide

end Gel.Scheduler
