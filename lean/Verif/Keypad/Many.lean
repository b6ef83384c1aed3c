import Verif.Keypad.Repeat

/-!
# Keypad: the exact events of a table with any number of keys, properties C120 to C123

Different keys have different bitmaps here.
-/
namespace Gel.Keypad

open Time Spec

/-! ## Specification -/

/-- The keypad: the key that is being reported on and its phase; with phase `idle` there is none. -/
abbrev Pad := Nat × Phase

/-- What is to be reported at time `t` with bitmap `bv`, and for which key. One key is reported on from its PRESS to its
RELEASE; the others are not looked at meanwhile. -/
def Pad.next (bits : List (BitVec w)) (click longclick period t : Nat) (bv : BitVec w) (s : Pad) : Pad × Nat × Event :=
  if s.2 = .idle then
    if bv ∈ bits then ((bits.idxOf bv, .pressed t), bits.idxOf bv, .press) else (s, 0, .nothing)
  else
    let r := s.2.next click longclick period t (decide (bits[s.1]? = some bv))
    ((s.1, r.1), s.1, r.2)

/-- The step of call `n`. -/
def Pad.call (bits : List (BitVec w)) (as : Nat → Args w) (τ : Nat → Nat) (n : Nat) (s : Pad) : Pad × Nat × Event :=
  s.next bits (as n).click.toNat (as n).longclick.toNat (as n).period.toNat (τ n) (as n).bitvalue

/-- The keypad before call `n`. -/
def pad (bits : List (BitVec w)) (as : Nat → Args w) (τ : Nat → Nat) : Nat → Pad
  | 0 => (0, .idle)
  | n + 1 => ((pad bits as τ n).call bits as τ n).1

/-- What `keypad_get_key_state` returns for key `j` before call `n`. -/
def shown (bits : List (BitVec w)) (as : Nat → Args w) (τ : Nat → Nat) (j : Nat) : Nat → Bool
  | 0 => false
  | n + 1 =>
    let s := pad bits as τ n
    if s.2 ≠ .idle ∧ s.1 = j then decide (bits[j]? = some (as n).bitvalue)
    else if bits[j]? = some (as n).bitvalue ∧ ¬ (s.2 ≠ .idle ∧ s.1 < j) then true
    else shown bits as τ j n

/-! ## The scan -/

def Idle (k : Key w) : Prop := k.oldvalue = false ∧ (k.lastevent = .nothing ∨ k.lastevent = .release)

def touch (bv : BitVec w) (k : Key w) : Key w := if k.bitvalue = bv then { k with value := true } else k

/-- Keys in rest are passed over, but those with the bitmap are marked. -/
theorem scan_pass (bv : BitVec w) (tl : List (Key w)) : ∀ (ks : List (Key w)) (i : Nat) (f : Option Nat),
    (∀ k ∈ ks, k.bitvalue ≠ 0 ∧ Idle k) → ∃ g, (f = none → (∀ k ∈ ks, k.bitvalue ≠ bv) → g = none) ∧
      ((∀ k ∈ ks, k.bitvalue ≠ bv) → g = f) ∧
      scan bv (ks ++ tl) i f = (do let (l, g) ← scan bv tl (i + ks.length) g; pure (ks.map (touch bv) ++ l, g)) := by
  intro ks
  induction ks with
  | nil => intro i f _; exact ⟨f, fun h _ => h, fun _ => rfl, by cases h : scan bv tl i f <;> simp [h]⟩
  | cons k ks ih =>
    intro i f hk
    obtain ⟨h1, h2, h3⟩ := hk k (by simp)
    have hks := fun x hx => hk x (List.mem_cons_of_mem k hx)
    have hlen : i + 1 + ks.length = i + (k :: ks).length := by simp; omega
    simp only [List.cons_append]
    rw [scan, if_neg (by exact h1)]
    by_cases hb : k.bitvalue = bv
    · obtain ⟨g, _, _, e⟩ := ih (i + 1) (some i) hks
      refine ⟨g, fun _ h => absurd hb (h k (by simp)), fun h => absurd hb (h k (by simp)), ?_⟩
      rw [if_pos hb, e, hlen]
      simp only [List.map_cons, touch, if_pos hb]
      cases scan bv tl (i + (k :: ks).length) g <;> rfl
    · obtain ⟨g, _, g2, e⟩ := ih (i + 1) f hks
      have hg : (∀ x ∈ k :: ks, x.bitvalue ≠ bv) → g = f := fun h => g2 fun x hx => h x (by simp [hx])
      refine ⟨g, fun h h' => (hg h').trans h, hg, ?_⟩
      rw [if_neg hb, if_neg (by simp [h2]), if_neg (by rcases h3 with h | h <;> simp [h]), e, hlen]
      simp only [List.map_cons, touch, if_neg hb]
      cases scan bv tl (i + (k :: ks).length) g <;> rfl

theorem touch_none (bv : BitVec w) (ks : List (Key w)) (h : ∀ k ∈ ks, k.bitvalue ≠ bv) : ks.map (touch bv) = ks := by
  induction ks with
  | nil => rfl
  | cons k ks ih =>
    rw [List.map_cons, ih fun x hx => h x (by simp [hx]), touch, if_neg (h k (by simp))]

/-- All keys in rest, none with the bitmap. -/
theorem routine_rest (a : Args w) (ks : List (Key w)) (t : Key w) (rest : List (Key w)) (ht : t.bitvalue = 0)
    (hks : ∀ x ∈ ks, x.bitvalue ≠ 0 ∧ Idle x) (hb : ∀ x ∈ ks, x.bitvalue ≠ a.bitvalue) :
    routine (ks ++ t :: rest) a = .ok (ks ++ t :: rest, 0, .nothing) := by
  obtain ⟨g, _, g2, e⟩ := scan_pass a.bitvalue (t :: rest) ks 0 none hks
  rw [routine, e, scan, if_pos ht, g2 hb, touch_none _ _ hb]
  rfl

/-- All keys but one in rest: that one has the bitmap, or not and it is not in rest. -/
theorem routine_active (a : Args w) (pre post : List (Key w)) (k t : Key w) (rest : List (Key w)) (ht : t.bitvalue = 0)
    (hpre : ∀ x ∈ pre, x.bitvalue ≠ 0 ∧ Idle x) (hpost : ∀ x ∈ post, x.bitvalue ≠ 0 ∧ Idle x) (hk : k.bitvalue ≠ 0)
    (h : k.bitvalue = a.bitvalue ∧ (∀ x ∈ pre ++ post, x.bitvalue ≠ a.bitvalue) ∨ k.bitvalue ≠ a.bitvalue ∧ ¬ Idle k) :
    routine (pre ++ k :: (post ++ t :: rest)) a =
      .ok (pre.map (touch a.bitvalue) ++ (one a k).1 :: (post ++ t :: rest), (one a k).2) := by
  have hfin : ∀ (pre : List (Key w)) (k1 : Key w), k1.code = k.code →
      ((do let k' ← rd (pre ++ k1 :: (post ++ t :: rest)) pre.length
           let (k'', e) := process a k'
           let keys ← wr (pre ++ k1 :: (post ++ t :: rest)) pre.length k''
           pure (keys, k'.code, e)) : Res (List (Key w) × Int × Event)) =
      .ok (pre ++ (process a k1).1 :: (post ++ t :: rest), k.code, (process a k1).2) := by
    intro pre k1 hc
    rw [rd, List.getElem?_append_right (by simp)]
    simp only [Nat.sub_self, List.getElem?_cons_zero, Res.ok_bind]
    rw [wr, if_pos (by simp), List.set_append_right _ _ (by simp)]
    simp [hc]
  have hl : (pre.map (touch a.bitvalue)).length = pre.length := by simp
  obtain ⟨g, _, _, e⟩ := scan_pass a.bitvalue (k :: (post ++ t :: rest)) pre 0 none hpre
  rw [routine, e, Nat.zero_add, scan, if_neg (by exact hk), one]
  rcases h with ⟨hb, hoth⟩ | ⟨hb, hact⟩
  · obtain ⟨g', _, g2, e'⟩ := scan_pass a.bitvalue (t :: rest) post (pre.length + 1) (some pre.length) hpost
    have hb2 : ∀ x ∈ post, x.bitvalue ≠ a.bitvalue := fun x hx => hoth x (by simp [hx])
    rw [if_pos hb, if_pos hb, e', g2 hb2, scan, if_pos ht, touch_none _ _ hb2]
    simp only [Res.ok_bind, Res.pure_eq]
    have := hfin (pre.map (touch a.bitvalue)) { k with value := true } rfl
    rw [hl] at this
    exact this
  · rw [if_neg hb, if_neg hb]
    by_cases ho : k.oldvalue = true
    · rw [if_pos ho, if_pos ho]
      simp only [Res.ok_bind, Res.pure_eq]
      have := hfin (pre.map (touch a.bitvalue)) { k with value := false } rfl
      rw [hl] at this
      exact this
    · have hle : k.lastevent ≠ .release ∧ k.lastevent ≠ .nothing := by
        refine ⟨fun hx => hact ⟨by simpa using ho, Or.inr hx⟩, fun hx => hact ⟨by simpa using ho, Or.inl hx⟩⟩
      rw [if_neg ho, if_neg ho, if_pos hle, if_pos hle]
      simp only [Res.ok_bind, Res.pure_eq]
      have := hfin (pre.map (touch a.bitvalue)) k rfl
      rw [hl] at this
      exact this

/-! ## The refinement -/

/-- The table against the specification. -/
structure Ref (ks sts : List (Key w)) (s : Pad) (sh : Nat → Bool) (t : Nat) : Prop where
  len : sts.length = ks.length
  lt : s.2 ≠ .idle → s.1 < ks.length
  key : ∀ j (h : j < ks.length) (h' : j < sts.length), Rel ks[j] sts[j] (if s.1 = j then s.2 else .idle)
  val : ∀ j (h' : j < sts.length), sts[j].value = sh j
  refs : ∀ r ∈ s.2.refs, r ≤ t

theorem rel_idle {k0 k : Key w} (h : Rel k0 k .idle) : k.bitvalue = k0.bitvalue ∧ Idle k := ⟨h.1, h.2.2⟩

theorem rel_bit {k0 k : Key w} {ph : Phase} (h : Rel k0 k ph) : k.bitvalue = k0.bitvalue := by
  cases ph <;> exact h.1

theorem rel_code {k0 k : Key w} {ph : Phase} (h : Rel k0 k ph) : k.code = k0.code := by
  cases ph <;> exact h.2.1

theorem rel_active {k0 k : Key w} {ph : Phase} (h : Rel k0 k ph) (hp : ph ≠ .idle) : ¬ Idle k := by
  rintro ⟨h1, h2⟩
  cases ph with
  | idle => exact hp rfl
  | pressed => rw [h.2.2.1] at h1; cases h1
  | clicked => rw [h.2.2.1] at h1; cases h1
  | long => rw [h.2.2.1] at h1; cases h1
  | up =>
    obtain ⟨_, _, _, _, hl, _⟩ := h
    rcases hl with hl | hl <;> rw [hl] at h2 <;> rcases h2 with h2 | h2 <;> cases h2

theorem rel_touch {k0 k : Key w} (bv : BitVec w) (h : Rel k0 k .idle) : Rel k0 (touch bv k) .idle := by
  rw [touch]
  split
  · exact h
  · exact h

theorem process_value (a : Args w) (k : Key w) : (process a k).1.value = k.value := by
  rw [process]
  split_ifs <;> simp only <;> split_ifs <;> rfl

theorem one_value (a : Args w) {k0 k : Key w} {ph : Phase} (h : Rel k0 k ph) (hd : k.bitvalue = a.bitvalue ∨ ph ≠ .idle) :
    (one a k).1.value = decide (k.bitvalue = a.bitvalue) := by
  rw [one]
  by_cases hb : k.bitvalue = a.bitvalue
  · rw [if_pos hb, process_value]; simp [hb]
  · rw [if_neg hb]
    by_cases ho : k.oldvalue = true
    · rw [if_pos ho, process_value]; simp [hb]
    · rw [if_neg ho]
      have hp := hd.resolve_left hb
      cases ph with
      | idle => exact absurd rfl hp
      | pressed => exact absurd h.2.2.1 ho
      | clicked => exact absurd h.2.2.1 ho
      | long => exact absurd h.2.2.1 ho
      | up =>
        obtain ⟨_, _, _, hv, hl, _⟩ := h
        rw [if_pos (by rcases hl with hl | hl <;> rw [hl] <;> decide), process_value, hv]; simp [hb]

/-- A call while key `i` is not in rest, or has the bitmap and none is. -/
theorem step_at {ks sts : List (Key w)} (a : Args w) (t : Key w) (rest : List (Key w)) (ht : t.bitvalue = 0)
    (hnz : ∀ k ∈ ks, k.bitvalue ≠ 0) (hnd : (ks.map (·.bitvalue)).Nodup) (hlen : sts.length = ks.length) (i : Nat)
    (hi : i < ks.length) (hi' : i < sts.length) (ph : Phase) (hrel : Rel ks[i] sts[i] ph)
    (hoth : ∀ j (h : j < ks.length) (h' : j < sts.length), j ≠ i → Rel ks[j] sts[j] .idle)
    (hd : ks[i].bitvalue = a.bitvalue ∨ ph ≠ .idle) :
    ∃ sts', routine (sts ++ t :: rest) a = .ok (sts' ++ t :: rest, (one a sts[i]).2) ∧ sts'.length = ks.length ∧
      (∀ h : i < sts'.length, sts'[i] = (one a sts[i]).1) ∧
      (∀ j (h : j < ks.length) (h' : j < sts'.length), j ≠ i → Rel ks[j] sts'[j] .idle) ∧
      (∀ j (h : j < sts.length) (h' : j < sts'.length), j < i → sts'[j] = touch a.bitvalue sts[j]) ∧
      (∀ j (h : j < sts.length) (h' : j < sts'.length), i < j → sts'[j] = sts[j]) := by
  have hmem : ∀ x ∈ sts.take i ++ sts.drop (i + 1), ∃ j, ∃ (h : j < ks.length) (h' : j < sts.length), j ≠ i ∧ sts[j] = x := by
    intro x hx
    rcases List.mem_append.1 hx with hx | hx
    · obtain ⟨j, hj, rfl⟩ := List.mem_iff_getElem.1 hx
      rw [List.length_take] at hj
      exact ⟨j, by omega, by omega, by omega, by simp⟩
    · obtain ⟨j, hj, rfl⟩ := List.mem_iff_getElem.1 hx
      rw [List.length_drop] at hj
      exact ⟨i + 1 + j, by omega, by omega, by omega, by simp⟩
  have hidle : ∀ x ∈ sts.take i ++ sts.drop (i + 1), x.bitvalue ≠ 0 ∧ Idle x := by
    intro x hx
    obtain ⟨j, h, h', hne, rfl⟩ := hmem x hx
    have := rel_idle (hoth j h h' hne)
    exact ⟨by rw [this.1]; exact hnz _ (List.getElem_mem _), this.2⟩
  have hsplit : sts = sts.take i ++ sts[i] :: sts.drop (i + 1) := by
    rw [← List.drop_eq_getElem_cons hi', List.take_append_drop]
  have hr := routine_active a (sts.take i) (sts.drop (i + 1)) sts[i] t rest ht (fun x hx => hidle x (by simp [hx]))
    (fun x hx => hidle x (List.mem_append_right _ hx)) (by rw [rel_bit hrel]; exact hnz _ (List.getElem_mem _)) (by
      by_cases hb : ks[i].bitvalue = a.bitvalue
      · left
        refine ⟨(rel_bit hrel).trans hb, ?_⟩
        intro x hx hxb
        obtain ⟨j, h, h', hne, rfl⟩ := hmem x hx
        have e : ks[j].bitvalue = ks[i].bitvalue := by rw [← rel_bit (hoth j h h' hne), hxb, hb]
        have := List.Nodup.getElem_inj_iff hnd (i := j) (j := i) (hi := by simpa using h) (hj := by simpa using hi)
        exact hne (this.1 (by simpa using e))
      · exact Or.inr ⟨by rw [rel_bit hrel]; exact hb, rel_active hrel (hd.resolve_left hb)⟩)
  have hlt : (List.take i sts).length = i := by rw [List.length_take]; omega
  have g1 : ∀ j (h : j < sts.length) (h' : j < ((sts.take i).map (touch a.bitvalue) ++ (one a sts[i]).1 :: sts.drop (i + 1)).length),
      j < i → ((sts.take i).map (touch a.bitvalue) ++ (one a sts[i]).1 :: sts.drop (i + 1))[j] = touch a.bitvalue sts[j] := by
    intro j h h' hj
    rw [List.getElem_append_left (by simp; omega)]
    simp
  have g2 : ∀ j (h : j < sts.length) (h' : j < ((sts.take i).map (touch a.bitvalue) ++ (one a sts[i]).1 :: sts.drop (i + 1)).length),
      i < j → ((sts.take i).map (touch a.bitvalue) ++ (one a sts[i]).1 :: sts.drop (i + 1))[j] = sts[j] := by
    intro j h h' hj
    obtain ⟨m, rfl⟩ : ∃ m, j = i + 1 + m := ⟨j - i - 1, by omega⟩
    rw [List.getElem_append_right (by simp [hlt]; omega)]
    simp only [List.length_map, hlt, show i + 1 + m - i = m + 1 by omega]
    simp
  refine ⟨(sts.take i).map (touch a.bitvalue) ++ (one a sts[i]).1 :: sts.drop (i + 1), ?_, ?_, ?_, ?_, g1, g2⟩
  · conv_lhs => rw [hsplit]
    rw [List.append_assoc, List.cons_append, hr, List.append_assoc, List.cons_append]
  · simp only [List.length_append, List.length_map, List.length_cons, List.length_drop, hlt]; omega
  · intro h
    rw [List.getElem_append_right (by simp [hlt])]
    simp only [List.length_map, hlt, Nat.sub_self, List.getElem_cons_zero]
  · intro j h h' hne
    have hj : j < sts.length := by omega
    rcases Nat.lt_or_gt_of_ne hne with hji | hji
    · rw [g1 j hj h' hji]; exact rel_touch _ (hoth j h hj hne)
    · rw [g2 j hj h' hji]; exact hoth j h hj hne

/-- What `shown` becomes. -/
def showNext (bits : List (BitVec w)) (s : Pad) (bv : BitVec w) (sh : Nat → Bool) (j : Nat) : Bool :=
  if s.2 ≠ .idle ∧ s.1 = j then decide (bits[j]? = some bv)
  else if bits[j]? = some bv ∧ ¬ (s.2 ≠ .idle ∧ s.1 < j) then true
  else sh j

theorem ref_step {ks sts : List (Key w)} {s : Pad} {sh : Nat → Bool} {t' : Nat} (a : Args w) (tm : Key w)
    (rest : List (Key w)) (ht : tm.bitvalue = 0) (hnz : ∀ k ∈ ks, k.bitvalue ≠ 0) (hnd : (ks.map (·.bitvalue)).Nodup)
    (t : Nat) (htt : t' ≤ t) (hts : a.timestamp = BitVec.ofNat w t) (hnear : ∀ r ∈ s.2.refs, 2 * t ≤ 2 * r + 2 ^ w)
    (h1 : a.click.toNat ≤ a.longclick.toNat) (h2 : 2 * a.longclick.toNat < 2 ^ w) (h3 : 2 * a.period.toNat < 2 ^ w)
    (hr : Ref ks sts s sh t') :
    ∃ sts' c, routine (sts ++ tm :: rest) a = .ok (sts' ++ tm :: rest, c,
        (s.next (ks.map (·.bitvalue)) a.click.toNat a.longclick.toNat a.period.toNat t a.bitvalue).2.2) ∧
      ((s.next (ks.map (·.bitvalue)) a.click.toNat a.longclick.toNat a.period.toNat t a.bitvalue).2.2 ≠ .nothing →
        ks[(s.next (ks.map (·.bitvalue)) a.click.toNat a.longclick.toNat a.period.toNat t a.bitvalue).2.1]?.map (·.code) =
          some c) ∧
      Ref ks sts' (s.next (ks.map (·.bitvalue)) a.click.toNat a.longclick.toNat a.period.toNat t a.bitvalue).1
        (showNext (ks.map (·.bitvalue)) s a.bitvalue sh) t := by
  have hbit : ∀ j (h : j < ks.length), (ks.map (·.bitvalue))[j]? = some a.bitvalue ↔ ks[j].bitvalue = a.bitvalue := by
    intro j h; simp [h]
  -- what is common to the two cases in which a key is processed
  have key : ∀ (i : Nat) (hi : i < ks.length) (ph : Phase), (∀ h' : i < sts.length, Rel ks[i] sts[i] ph) →
      (∀ j (h : j < ks.length) (h' : j < sts.length), j ≠ i → Rel ks[j] sts[j] .idle) →
      (ks[i].bitvalue = a.bitvalue ∨ ph ≠ .idle) → (∀ r ∈ ph.refs, r ≤ t ∧ 2 * t ≤ 2 * r + 2 ^ w) →
      (s = (i, ph) ∨ s.2 = .idle ∧ ks[i].bitvalue = a.bitvalue) →
      ∃ sts' c, routine (sts ++ tm :: rest) a = .ok (sts' ++ tm :: rest, c,
          (ph.next a.click.toNat a.longclick.toNat a.period.toNat t (decide (a.bitvalue = ks[i].bitvalue))).2) ∧
        ((ph.next a.click.toNat a.longclick.toNat a.period.toNat t (decide (a.bitvalue = ks[i].bitvalue))).2 ≠ .nothing →
          some ks[i].code = some c) ∧
        Ref ks sts' (i, (ph.next a.click.toNat a.longclick.toNat a.period.toNat t
            (decide (a.bitvalue = ks[i].bitvalue))).1) (showNext (ks.map (·.bitvalue)) s a.bitvalue sh) t := by
    intro i hi ph hrel hoth hd hrefs hs
    have hi' : i < sts.length := by rw [hr.len]; exact hi
    obtain ⟨sts', e, l, g0, g1, g2, g3⟩ := step_at a tm rest ht hnz hnd hr.len i hi hi' ph (hrel hi') hoth hd
    have hstep := rel_step a ks[i] sts[i] ph t (hrel hi') hts hrefs h1 h2 h3
    simp only at hstep
    refine ⟨sts', (one a sts[i]).2.1, by rw [e, ← hstep.2.1], fun hne => by rw [hstep.2.2 hne], ?_⟩
    refine ⟨l, fun _ => hi, ?_, ?_, ?_⟩
    · intro j h h'
      by_cases hj : i = j
      · subst hj
        simp only [if_pos]
        rw [g0 h']; exact hstep.1
      · simp only [if_neg hj]
        exact g1 j h h' fun h => hj h.symm
    · intro j h'
      have hjk : j < ks.length := by omega
      have hjs : j < sts.length := by have := hr.len; omega
      have hA : j ≠ i → ¬ (s.2 ≠ .idle ∧ s.1 = j) := by
        rintro hne ⟨q1, q2⟩
        rcases hs with hs | hs
        · rw [hs] at q2; exact hne q2.symm
        · exact q1 hs.1
      simp only [showNext]
      rcases Nat.lt_trichotomy j i with hj | hj | hj
      · have hb : sts[j].bitvalue = ks[j].bitvalue := rel_bit (hoth j hjk hjs (by omega))
        have hB : ¬ (s.2 ≠ .idle ∧ s.1 < j) := by
          rintro ⟨q1, q2⟩
          rcases hs with hs | hs
          · rw [hs] at q2; simp only at q2; omega
          · exact q1 hs.1
        rw [g2 j hjs h' hj, touch]
        simp only [if_neg (hA (by omega)), hbit j hjk, hb, hB, not_false_eq_true, and_true]
        split
        · rfl
        · exact hr.val j hjs
      · subst hj
        rw [g0 h', one_value a (hrel hjs) (by rw [rel_bit (hrel hjs)]; exact hd), rel_bit (hrel hjs)]
        simp only [hbit j hjk]
        rcases hs with hs | ⟨hs, hb⟩
        · by_cases hp : ph = .idle
          · have hb := hd.resolve_right (fun h => h hp)
            simp [hs, hp, hb]
          · simp [hs, hp]
        · simp [hs, hb]
      · rw [g3 j hjs h' hj]
        have hb : ∀ hm : ks[i].bitvalue = a.bitvalue, ¬ ks[j].bitvalue = a.bitvalue := by
          intro hm hm'
          have := List.Nodup.getElem_inj_iff hnd (i := j) (j := i) (hi := by simpa using hjk) (hj := by simpa using hi)
          have := this.1 (by simp [hm, hm'])
          omega
        simp only [if_neg (hA (by omega)), hbit j hjk]
        rw [if_neg]
        · exact hr.val j hjs
        · rintro ⟨q1, q2⟩
          rcases hd with hd | hd
          · exact hb hd q1
          · rcases hs with hs | hs
            · exact q2 (by rw [hs]; exact ⟨hd, hj⟩)
            · exact hb hs.2 q1
    · exact refs_next _ _ _ _ _ _ (fun r hr' => (hrefs r hr').1)
  by_cases hp : s.2 = .idle
  · have hall : ∀ j (h : j < ks.length) (h' : j < sts.length), Rel ks[j] sts[j] .idle := by
      intro j h h'
      have := hr.key j h h'
      rw [hp] at this
      simpa using this
    by_cases hm : a.bitvalue ∈ ks.map (·.bitvalue)
    · have hi : (ks.map (·.bitvalue)).idxOf a.bitvalue < ks.length := by
        have := List.idxOf_lt_length_of_mem hm
        rwa [List.length_map] at this
      have hib : ks[(ks.map (·.bitvalue)).idxOf a.bitvalue].bitvalue = a.bitvalue := by
        have := List.getElem_idxOf (xs := ks.map (·.bitvalue)) (x := a.bitvalue) (by rw [List.length_map]; exact hi)
        rw [List.getElem_map] at this
        exact this
      have := key _ hi .idle (hall _ hi) (fun j h h' _ => hall j h h') (Or.inl hib) (by simp [Phase.refs]) (Or.inr ⟨hp, hib⟩)
      simp only [hib, decide_true, Phase.next, if_true] at this
      simp only [Pad.next, hp, if_true, if_pos hm, List.getElem?_eq_getElem hi, Option.map_some]
      exact this
    · simp only [Pad.next, hp, if_true, if_neg hm]
      have hidle : ∀ x ∈ sts, ∃ j, ∃ (h : j < ks.length) (h' : j < sts.length), x = sts[j] := by
        intro x hx
        obtain ⟨j, hj, rfl⟩ := List.mem_iff_getElem.1 hx
        exact ⟨j, by rw [← hr.len]; exact hj, hj, rfl⟩
      refine ⟨sts, 0, routine_rest a sts tm rest ht ?_ ?_, by simp, hr.len, hr.lt, hr.key, ?_, by rw [hp]; simp [Phase.refs]⟩
      · intro x hx
        obtain ⟨j, h, h', rfl⟩ := hidle x hx
        have := rel_idle (hall j h h')
        exact ⟨by rw [this.1]; exact hnz _ (List.getElem_mem _), this.2⟩
      · intro x hx hb
        obtain ⟨j, h, h', rfl⟩ := hidle x hx
        rw [rel_bit (hall j h h')] at hb
        exact hm (List.mem_map.2 ⟨ks[j], List.getElem_mem _, hb⟩)
      · intro j h'
        rw [hr.val j h', showNext, if_neg (fun h => h.1 hp), if_neg]
        rintro ⟨q, _⟩
        exact hm (List.mem_of_getElem? q)
  · have hi := hr.lt hp
    have := key s.1 hi s.2 (fun h' => by have := hr.key s.1 hi h'; simpa using this)
      (fun j h h' hne => by have := hr.key j h h'; rwa [if_neg fun h => hne h.symm] at this) (Or.inr hp)
      (fun r hr' => ⟨Nat.le_trans (hr.refs r hr') htt, hnear r hr'⟩) (Or.inl rfl)
    have hdec : decide ((ks.map (·.bitvalue))[s.1]? = some a.bitvalue) = decide (a.bitvalue = ks[s.1].bitvalue) := by
      rw [decide_eq_decide, hbit _ hi, eq_comm]
    simp only [Pad.next, if_neg hp, hdec, List.getElem?_eq_getElem hi, Option.map_some]
    exact this

/-- What the calls are assumed to be: true times that do not go back, thresholds less than half the range, the click time
not above that of a long click, and nothing to be compared with more than half the range ago. -/
structure Calls (ks : List (Key w)) (as : Nat → Args w) (τ : Nat → Nat) : Prop where
  mono : ∀ n, τ n ≤ τ (n + 1)
  stamp : ∀ n, (as n).timestamp = BitVec.ofNat w (τ n)
  click : ∀ n, (as n).click.toNat ≤ (as n).longclick.toNat
  long : ∀ n, 2 * (as n).longclick.toNat < 2 ^ w
  period : ∀ n, 2 * (as n).period.toNat < 2 ^ w
  near : ∀ n, ∀ r ∈ (pad (ks.map (·.bitvalue)) as τ n).2.refs, 2 * τ n ≤ 2 * r + 2 ^ w

theorem ref_run {tbl ks : List (Key w)} (h : Table tbl ks) (hnd : (ks.map (·.bitvalue)).Nodup) {as : Nat → Args w}
    {τ : Nat → Nat} (hc : Calls ks as τ) : ∃ tm rest, tm.bitvalue = 0 ∧ ∀ n, ∃ sts, run tbl as n = .ok (sts ++ tm :: rest) ∧
      Ref ks sts (pad (ks.map (·.bitvalue)) as τ n) (fun j => shown (ks.map (·.bitvalue)) as τ j n) (τ n) := by
  obtain ⟨hnz, tm, rest, ht, rfl⟩ := h
  refine ⟨tm, rest, ht, ?_⟩
  intro n
  induction n with
  | zero =>
    refine ⟨ks.map fresh, reset_eq tm rest ht ks hnz, by simp, fun h => absurd rfl h, ?_, ?_, by simp [pad, Phase.refs]⟩
    · intro j h h'
      have hi : (if (pad (ks.map (·.bitvalue)) as τ 0).1 = j then (pad (ks.map (·.bitvalue)) as τ 0).2 else .idle) =
          Phase.idle := ite_self _
      rw [hi, List.getElem_map]
      exact ⟨rfl, rfl, rfl, Or.inl rfl⟩
    · intro j h'; simp [fresh, shown]
  | succ n ih =>
    obtain ⟨sts, e, hr⟩ := ih
    obtain ⟨sts', c, e', _, hr'⟩ := ref_step (as n) tm rest ht hnz hnd (τ n) (Nat.le_refl _) (hc.stamp n) (hc.near n)
      (hc.click n) (hc.long n) (hc.period n) hr
    refine ⟨sts', by rw [run, e, Res.ok_bind, e']; rfl, ?_⟩
    exact ⟨hr'.len, hr'.lt, hr'.key, hr'.val, fun r h => Nat.le_trans (hr'.refs r h) (hc.mono n)⟩

/-- **C120.** The events of all keys of a table with distinct bitmaps, exactly, and the result of the state query. -/
theorem C120_exact (tbl ks : List (Key w)) (h : Table tbl ks) (hnd : (ks.map (·.bitvalue)).Nodup) (as : Nat → Args w)
    (τ : Nat → Nat) (hc : Calls ks as τ) (n : Nat) :
    (∃ c, out tbl as n = .ok (c, ((pad (ks.map (·.bitvalue)) as τ n).call (ks.map (·.bitvalue)) as τ n).2.2) ∧
      (((pad (ks.map (·.bitvalue)) as τ n).call (ks.map (·.bitvalue)) as τ n).2.2 ≠ .nothing →
        ks[((pad (ks.map (·.bitvalue)) as τ n).call (ks.map (·.bitvalue)) as τ n).2.1]?.map (·.code) = some c)) ∧
    ∃ l, run tbl as n = .ok l ∧ ∀ j, j < ks.length →
      l[j]?.map getKeyState = some (shown (ks.map (·.bitvalue)) as τ j n) := by
  obtain ⟨tm, rest, ht, hrun⟩ := ref_run h hnd hc
  obtain ⟨sts, e, hr⟩ := hrun n
  obtain ⟨sts', c, e', hcode, hr'⟩ := ref_step (as n) tm rest ht h.1 hnd (τ n) (Nat.le_refl _) (hc.stamp n) (hc.near n)
    (hc.click n) (hc.long n) (hc.period n) hr
  refine ⟨⟨c, by rw [out, e, Res.ok_bind, e']; rfl, hcode⟩, _, e, ?_⟩
  intro j hj
  have hj' : j < sts.length := by rw [hr.len]; exact hj
  rw [List.getElem?_append_left hj', List.getElem?_eq_getElem hj', Option.map_some, getKeyState, hr.val j hj']

/-! ## C121: one key at a time -/

/-- What the specification reports in call `n`, and for which key. -/
def evt (bits : List (BitVec w)) (as : Nat → Args w) (τ : Nat → Nat) (n : Nat) : Nat × Event :=
  ((pad bits as τ n).call bits as τ n).2

theorem pad_succ (bits : List (BitVec w)) (as : Nat → Args w) (τ : Nat → Nat) (n : Nat) :
    pad bits as τ (n + 1) = ((pad bits as τ n).call bits as τ n).1 := rfl

/-- A phase ends with RELEASE only. -/
theorem next_idle {click longclick period t : Nat} {held : Bool} {ph : Phase} (h : ph ≠ .idle)
    (h' : (ph.next click longclick period t held).1 = .idle) : (ph.next click longclick period t held).2 = .release := by
  cases ph <;> simp only [Phase.next] at h' ⊢ <;> split_ifs at h' ⊢ <;> first | rfl | exact absurd rfl h | simp at h'

theorem next_release {click longclick period t : Nat} {held : Bool} {ph : Phase} 
    (h' : (ph.next click longclick period t held).2 = .release) : (ph.next click longclick period t held).1 = .idle := by
  cases ph <;> simp only [Phase.next] at h' ⊢ <;> split_ifs at h' ⊢ <;> first | rfl | simp at h'

theorem evt_active {bits : List (BitVec w)} {as : Nat → Args w} {τ : Nat → Nat} {n : Nat}
    (h : (pad bits as τ n).2 ≠ .idle) : (evt bits as τ n).1 = (pad bits as τ n).1 ∧
      (pad bits as τ (n + 1)).1 = (pad bits as τ n).1 ∧
      ((pad bits as τ (n + 1)).2 = .idle → (evt bits as τ n).2 = .release) := by
  rw [pad_succ, evt]
  simp only [Pad.call, Pad.next, if_neg h, true_and]
  exact next_idle h

/-- Reported on from a PRESS until a RELEASE. -/
theorem pad_since {bits : List (BitVec w)} {as : Nat → Args w} {τ : Nat → Nat} (p i : Nat)
    (hp : evt bits as τ p = (i, .press)) : ∀ n, p < n → (∀ j, p < j → j < n → evt bits as τ j ≠ (i, .release)) →
      (pad bits as τ n).1 = i ∧ (pad bits as τ n).2 ≠ .idle := by
  intro n
  induction n with
  | zero => intro h; omega
  | succ n ih =>
    intro hn hno
    by_cases hpn : p = n
    · subst hpn
      rw [evt] at hp
      rw [pad_succ]
      simp only [Pad.call, Pad.next] at hp ⊢
      split_ifs at hp ⊢ with h1 h2
      · simp only [Prod.mk.injEq, and_true] at hp
        exact ⟨hp, by simp⟩
      · simp at hp
      · simp only [Prod.mk.injEq] at hp
        refine ⟨hp.1, ?_⟩
        intro hi
        have := next_idle h1 hi
        rw [hp.2] at this; cases this
    · obtain ⟨h1, h2⟩ := ih (by omega) fun j hj hj' => hno j hj (by omega)
      obtain ⟨e1, e2, e3⟩ := evt_active h2
      refine ⟨e2.trans h1, fun hi => ?_⟩
      exact hno n (by omega) (by omega) (Prod.ext (e1.trans h1) (e3 hi))

/-- Reported on: there is a PRESS without a RELEASE after it. -/
theorem pad_before {bits : List (BitVec w)} {as : Nat → Args w} {τ : Nat → Nat} : ∀ n,
    (pad bits as τ n).2 ≠ .idle → ∃ p, p < n ∧ evt bits as τ p = ((pad bits as τ n).1, .press) ∧
      ∀ j, p < j → j < n → evt bits as τ j ≠ ((pad bits as τ n).1, .release) := by
  intro n
  induction n with
  | zero => intro h; exact absurd rfl h
  | succ n ih =>
    intro h
    by_cases hi : (pad bits as τ n).2 = .idle
    · refine ⟨n, by omega, ?_, by intro j _ _; omega⟩
      rw [pad_succ] at h ⊢
      rw [evt]
      simp only [Pad.call, Pad.next, if_pos hi] at h ⊢
      split_ifs at h ⊢ with h2
      · rfl
      · exact absurd hi h
    · obtain ⟨p, h1, h2, h3⟩ := ih hi
      obtain ⟨e1, e2, e3⟩ := evt_active hi
      rw [e2]
      refine ⟨p, by omega, h2, ?_⟩
      intro j hj hj'
      by_cases hjn : j = n
      · subst hjn
        intro hev
        apply h
        rw [pad_succ]
        rw [evt] at hev
        simp only [Pad.call, Pad.next, if_neg hi] at hev ⊢
        exact next_release (Prod.mk.inj hev).2
      · exact h3 j hj (by omega)

/-- What is returned, for a key of a table with distinct bitmaps and codes. -/
theorem out_evt {tbl ks : List (Key w)} (h : Table tbl ks) (hnd : (ks.map (·.bitvalue)).Nodup)
    (hcd : (ks.map (·.code)).Nodup) {as : Nat → Args w} {τ : Nat → Nat} (hc : Calls ks as τ) (i : Nat)
    (hi : i < ks.length) (e : Event) (he : e ≠ .nothing) (n : Nat) :
    out tbl as n = .ok (ks[i].code, e) ↔ evt (ks.map (·.bitvalue)) as τ n = (i, e) := by
  obtain ⟨c, h1, h2⟩ := (C120_exact tbl ks h hnd as τ hc n).1
  rw [h1, evt]
  generalize hr : ((pad (ks.map (·.bitvalue)) as τ n).call (ks.map (·.bitvalue)) as τ n).2 = r at h1 h2
  constructor
  · intro hx
    obtain ⟨rfl, rfl⟩ := Prod.mk.inj (Res.ok.inj hx)
    have h3 := h2 he
    obtain ⟨k, hk, hk'⟩ := Option.map_eq_some_iff.1 h3
    obtain ⟨hlt, hk⟩ := List.getElem?_eq_some_iff.1 hk
    have := List.Nodup.getElem_inj_iff hcd (i := r.1) (j := i) (hi := by simpa using hlt) (hj := by simpa using hi)
    exact Prod.ext (this.1 (by simp [hk, hk'])) rfl
  · intro hx
    rw [hx] at h2 ⊢
    have := h2 he
    simp only [List.getElem?_eq_getElem hi, Option.map_some, Option.some.injEq] at this
    rw [this]

/-- **C121.** After a PRESS of a key the next event of another key comes only after a RELEASE of the first; and PRESS is
reported only by a call with the key's bitmap. -/
theorem C121_one_at_a_time (tbl ks : List (Key w)) (h : Table tbl ks) (hnd : (ks.map (·.bitvalue)).Nodup)
    (hcd : (ks.map (·.code)).Nodup) (as : Nat → Args w) (τ : Nat → Nat) (hc : Calls ks as τ) (k : Key w) (hk : k ∈ ks)
    (p : Nat) (hp : out tbl as p = .ok (k.code, .press)) :
    (as p).bitvalue = k.bitvalue ∧
    ∀ n k' e, p < n → k' ∈ ks → k'.code ≠ k.code → e ≠ .nothing → out tbl as n = .ok (k'.code, e) →
      ∃ j, p < j ∧ j < n ∧ out tbl as j = .ok (k.code, .release) := by
  obtain ⟨i, hi, rfl⟩ := List.mem_iff_getElem.1 hk
  have hev := (out_evt h hnd hcd hc i hi .press (by decide) p).1 hp
  constructor
  · rw [evt] at hev
    simp only [Pad.call, Pad.next] at hev
    split_ifs at hev with h1 h2
    · have h3 := (Prod.mk.inj hev).1
      have h4 := List.idxOf_lt_length_of_mem h2
      have h5 := List.getElem_idxOf (xs := ks.map (·.bitvalue)) (x := (as p).bitvalue) h4
      simp only [h3] at h5
      simpa using h5.symm
    · simp at hev
    · obtain ⟨h3, h4⟩ := Prod.mk.inj hev
      generalize hd : decide ((ks.map (·.bitvalue))[(pad (ks.map (·.bitvalue)) as τ p).1]? = some (as p).bitvalue) = held at h4
      have hheld : held = true := by
        cases hph : (pad (ks.map (·.bitvalue)) as τ p).2 <;> rw [hph] at h4 <;> simp only [Phase.next] at h4 <;>
          split_ifs at h4 <;> simp_all
      rw [hheld, decide_eq_true_iff, h3] at hd
      simpa [hi] using hd.symm
  · intro n k' e hn hk' hne he ho
    obtain ⟨i', hi', rfl⟩ := List.mem_iff_getElem.1 hk'
    have hev' := (out_evt h hnd hcd hc i' hi' e he n).1 ho
    by_contra hcon
    have hno : ∀ j, p < j → j < n → evt (ks.map (·.bitvalue)) as τ j ≠ (i, .release) := by
      intro j h1 h2 h3
      exact hcon ⟨j, h1, h2, (out_evt h hnd hcd hc i hi .release (by decide) j).2 h3⟩
    obtain ⟨a1, a2⟩ := pad_since p i hev n hn hno
    have := (evt_active a2).1
    rw [hev', a1] at this
    simp only at this
    subst this
    exact hne rfl

/-! ## C122, C123: nothing is forgotten -/

/-- Two calls without its bitmap, more than the click time apart, end the reports on a key. -/
theorem two_calls {bits : List (BitVec w)} {as : Nat → Args w} {τ : Nat → Nat} (hmono : ∀ n, τ n ≤ τ (n + 1))
    (hrefs : ∀ n, ∀ r ∈ (pad bits as τ n).2.refs, r ≤ τ n) (m : Nat) (ha : (pad bits as τ m).2 ≠ .idle)
    (h0 : bits[(pad bits as τ m).1]? ≠ some (as m).bitvalue) (h1 : bits[(pad bits as τ m).1]? ≠ some (as (m + 1)).bitvalue)
    (hgap : τ m + (as (m + 1)).click.toNat < τ (m + 1)) :
    evt bits as τ m = ((pad bits as τ m).1, .release) ∧ (pad bits as τ (m + 1)).2 = .idle ∨
    (pad bits as τ (m + 1)).2 ≠ .idle ∧
      evt bits as τ (m + 1) = ((pad bits as τ m).1, .release) ∧ (pad bits as τ (m + 2)).2 = .idle := by
  have hr := hrefs m
  have e1 : pad bits as τ (m + 1) = ((pad bits as τ m).1, ((pad bits as τ m).2.next (as m).click.toNat (as m).longclick.toNat
      (as m).period.toNat (τ m) false).1) ∧ evt bits as τ m = ((pad bits as τ m).1, ((pad bits as τ m).2.next
        (as m).click.toNat (as m).longclick.toNat (as m).period.toNat (τ m) false).2) := by
    rw [pad_succ, evt]
    simp only [Pad.call, Pad.next, if_neg ha, decide_eq_false h0, and_self]
  have key : ∀ t1, t1 ≤ τ m → pad bits as τ (m + 1) = ((pad bits as τ m).1, .up t1) →
      (pad bits as τ (m + 1)).2 ≠ .idle ∧
      evt bits as τ (m + 1) = ((pad bits as τ m).1, .release) ∧ (pad bits as τ (m + 2)).2 = .idle := by
    intro t1 ht hp
    refine ⟨by rw [hp]; simp, ?_⟩
    rw [show m + 2 = m + 1 + 1 from rfl, pad_succ bits as τ (m + 1), evt, hp]
    simp only [Pad.call, Pad.next, decide_eq_false h1, Phase.next, if_neg (show ¬ Phase.up t1 = .idle by simp)]
    simp [show t1 + (as (m + 1)).click.toNat < τ (m + 1) by omega]
  rw [e1.2]
  cases hph : (pad bits as τ m).2 with
  | idle => exact absurd hph ha
  | pressed t0 => left; rw [e1.1, hph]; simp [Phase.next]
  | clicked t0 tl => right; exact key (τ m) (Nat.le_refl _) (by rw [e1.1, hph]; simp [Phase.next])
  | long tl => right; exact key (τ m) (Nat.le_refl _) (by rw [e1.1, hph]; simp [Phase.next])
  | up t1 =>
    by_cases hx : t1 + (as m).click.toNat < τ m
    · left; rw [e1.1, hph]; simp [Phase.next, hx]
    · right
      exact key t1 (hr t1 (by rw [hph]; simp [Phase.refs])) (by rw [e1.1, hph]; simp [Phase.next, hx])

/-- **C122.** A key that was pressed and is not in two calls in a row, the second more than the click time after the
first, is reported released by then. -/
theorem C122_released (tbl ks : List (Key w)) (h : Table tbl ks) (hnd : (ks.map (·.bitvalue)).Nodup)
    (hcd : (ks.map (·.code)).Nodup) (as : Nat → Args w) (τ : Nat → Nat) (hc : Calls ks as τ) (k : Key w) (hk : k ∈ ks)
    (p m : Nat) (hpm : p < m) (hp : out tbl as p = .ok (k.code, .press)) (h0 : (as m).bitvalue ≠ k.bitvalue)
    (h1 : (as (m + 1)).bitvalue ≠ k.bitvalue) (hgap : τ m + (as (m + 1)).click.toNat < τ (m + 1)) :
    ∃ j, p < j ∧ j ≤ m + 1 ∧ out tbl as j = .ok (k.code, .release) := by
  obtain ⟨i, hi, rfl⟩ := List.mem_iff_getElem.1 hk
  have hev := (out_evt h hnd hcd hc i hi .press (by decide) p).1 hp
  by_contra hcon
  have hno : ∀ j, p < j → j < m → evt (ks.map (·.bitvalue)) as τ j ≠ (i, .release) := by
    intro j h1 h2 h3
    exact hcon ⟨j, h1, by omega, (out_evt h hnd hcd hc i hi .release (by decide) j).2 h3⟩
  obtain ⟨a1, a2⟩ := pad_since p i hev m hpm hno
  obtain ⟨tm, rest, ht, hrun⟩ := ref_run h hnd hc
  have hb : ∀ b, b ≠ ks[i].bitvalue → (ks.map (·.bitvalue))[i]? ≠ some b := by
    intro b hb; simp [hi]; exact fun h => hb h.symm
  rcases two_calls hc.mono (fun n => by obtain ⟨_, _, hr⟩ := hrun n; exact hr.refs) m a2
    (by rw [a1]; exact hb _ h0) (by rw [a1]; exact hb _ h1) hgap with ⟨e, _⟩ | ⟨_, e, _⟩
  · rw [a1] at e
    exact hcon ⟨m, hpm, by omega, (out_evt h hnd hcd hc i hi .release (by decide) m).2 e⟩
  · rw [a1] at e
    exact hcon ⟨m + 1, by omega, by omega, (out_evt h hnd hcd hc i hi .release (by decide) (m + 1)).2 e⟩

/-- **C123.** A key whose bitmap is passed in three calls in a row, the second more than the click time after the first,
is reported pressed by then, whatever happened to the other keys before, and not released. -/
theorem C123_pressed (tbl ks : List (Key w)) (h : Table tbl ks) (hnd : (ks.map (·.bitvalue)).Nodup)
    (hcd : (ks.map (·.code)).Nodup) (as : Nat → Args w) (τ : Nat → Nat) (hc : Calls ks as τ) (k : Key w) (hk : k ∈ ks)
    (m : Nat) (hb : ∀ j, m ≤ j → j ≤ m + 2 → (as j).bitvalue = k.bitvalue)
    (hgap : τ m + (as (m + 1)).click.toNat < τ (m + 1)) :
    ∃ p, p ≤ m + 2 ∧ out tbl as p = .ok (k.code, .press) ∧
      ∀ j, p < j → j ≤ m + 2 → out tbl as j ≠ .ok (k.code, .release) := by
  obtain ⟨i, hi, rfl⟩ := List.mem_iff_getElem.1 hk
  obtain ⟨tm, rest, ht, hrun⟩ := ref_run h hnd hc
  have hrefs : ∀ n, ∀ r ∈ (pad (ks.map (·.bitvalue)) as τ n).2.refs, r ≤ τ n := fun n => by
    obtain ⟨_, _, hr⟩ := hrun n; exact hr.refs
  have hlt : ∀ n, (pad (ks.map (·.bitvalue)) as τ n).2 ≠ .idle → (pad (ks.map (·.bitvalue)) as τ n).1 < ks.length :=
    fun n => by obtain ⟨_, _, hr⟩ := hrun n; exact hr.lt
  have hidx : (ks.map (·.bitvalue)).idxOf ks[i].bitvalue = i := by
    have h4 : ks[i].bitvalue ∈ ks.map (·.bitvalue) := List.mem_map.2 ⟨_, List.getElem_mem _, rfl⟩
    have h6 := List.idxOf_lt_length_of_mem h4
    have h5 := List.getElem_idxOf (xs := ks.map (·.bitvalue)) (x := ks[i].bitvalue) h6
    exact (List.Nodup.getElem_inj_iff hnd (hi := h6) (hj := by simpa using hi)).1 (by rw [h5]; simp)
  -- while held, a key reported on stays so
  have hstay : ∀ n, m ≤ n → n ≤ m + 2 → (pad (ks.map (·.bitvalue)) as τ n).1 = i → (pad (ks.map (·.bitvalue)) as τ n).2 ≠ .idle →
      (pad (ks.map (·.bitvalue)) as τ (n + 1)).1 = i ∧ (pad (ks.map (·.bitvalue)) as τ (n + 1)).2 ≠ .idle := by
    intro n hn hn' g1 g2
    refine ⟨(evt_active g2).2.1.trans g1, ?_⟩
    rw [pad_succ]
    simp only [Pad.call, Pad.next, if_neg g2, g1, hb n hn hn']
    simp only [List.getElem?_map, List.getElem?_eq_getElem hi, Option.map_some, decide_true]
    cases hph : (pad (ks.map (·.bitvalue)) as τ n).2 <;> simp only [Phase.next] <;> split_ifs <;> simp_all
  have hstart : ∀ n, m ≤ n → n ≤ m + 2 → (pad (ks.map (·.bitvalue)) as τ n).2 = .idle →
      (pad (ks.map (·.bitvalue)) as τ (n + 1)).1 = i ∧ (pad (ks.map (·.bitvalue)) as τ (n + 1)).2 ≠ .idle := by
    intro n hn hn' g
    rw [pad_succ]
    simp only [Pad.call, Pad.next, if_pos g, hb n hn hn', hidx]
    rw [if_pos (List.mem_map.2 ⟨_, List.getElem_mem _, rfl⟩)]
    exact ⟨rfl, by simp⟩
  have hfin : (pad (ks.map (·.bitvalue)) as τ (m + 3)).1 = i ∧ (pad (ks.map (·.bitvalue)) as τ (m + 3)).2 ≠ .idle := by
    have h2 : ∀ n, m ≤ n → n ≤ m + 2 → (pad (ks.map (·.bitvalue)) as τ n).1 = i ∨ (pad (ks.map (·.bitvalue)) as τ n).2 = .idle →
        (pad (ks.map (·.bitvalue)) as τ (n + 1)).1 = i ∧ (pad (ks.map (·.bitvalue)) as τ (n + 1)).2 ≠ .idle := by
      intro n hn hn' hh
      by_cases hid : (pad (ks.map (·.bitvalue)) as τ n).2 = .idle
      · exact hstart n hn hn' hid
      · exact hstay n hn hn' (hh.resolve_right hid) hid
    refine h2 (m + 2) (by omega) (by omega) ?_
    by_cases h3 : (pad (ks.map (·.bitvalue)) as τ m).1 = i ∨ (pad (ks.map (·.bitvalue)) as τ m).2 = .idle
    · exact Or.inl (h2 (m + 1) (by omega) (by omega) (Or.inl (h2 m (by omega) (by omega) h3).1)).1
    · obtain ⟨h4, h5⟩ := not_or.1 h3
      have hbj : ∀ j, m ≤ j → j ≤ m + 2 →
          (ks.map (·.bitvalue))[(pad (ks.map (·.bitvalue)) as τ m).1]? ≠ some (as j).bitvalue := by
        intro j hj hj' hx
        rw [hb j hj hj'] at hx
        have hl := hlt m h5
        rw [List.getElem?_eq_getElem (by simpa using hl)] at hx
        exact h4 ((List.Nodup.getElem_inj_iff hnd (hi := by simpa using hl) (hj := by simpa using hi)).1
          (by rw [Option.some.inj hx]; simp))
      rcases two_calls hc.mono hrefs m h5 (hbj m (by omega) (by omega)) (hbj (m + 1) (by omega) (by omega)) hgap with
        ⟨_, e⟩ | ⟨_, _, e⟩
      · exact Or.inl (h2 (m + 1) (by omega) (by omega) (Or.inr e)).1
      · exact Or.inr e
  obtain ⟨p, hp1, hp2, hp3⟩ := pad_before (m + 3) hfin.2
  rw [hfin.1] at hp2 hp3
  exact ⟨p, by omega, (out_evt h hnd hcd hc i hi .press (by decide) p).2 hp2, fun j h1 h2 h3 =>
    hp3 j h1 (by omega) ((out_evt h hnd hcd hc i hi .release (by decide) j).1 h3)⟩

/-- The second key is held while the click of the first is not over yet: its PRESS waits for the RELEASE of the first. -/
def rollover (n : Nat) : Args 8 := ⟨5, 20, 9, BitVec.ofNat 8 (240 + 4 * n), if n < 3 then 2 else 1⟩

example : (List.range 8).map (out table rollover) = [.ok (20, .press), .ok (20, .nothing), .ok (20, .click),
    .ok (20, .nothing), .ok (20, .nothing), .ok (20, .release), .ok (10, .press), .ok (10, .nothing)] := by decide

/-- Meanwhile the first key already counts as pressed for the state query. -/
example : (List.range 8).map (shown [1, 2] rollover (fun n => 240 + 4 * n) 0) =
    [false, false, false, false, true, true, true, true] := by decide

example : (List.range 8).map (pad [1, 2] rollover (fun n => 240 + 4 * n)) = [(0, .idle), (1, .pressed 240), (1, .pressed 240),
    (1, .clicked 240 248), (1, .up 252), (1, .up 252), (1, .idle), (0, .pressed 264)] := by decide

end Gel.Keypad
