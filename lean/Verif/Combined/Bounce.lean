import Verif.Combined.Keys

/-!
# A bouncing contact behind debounce filter and keypad (C231)

One key of a device in the main loop of C190, the others are at rest. The contact is pressed and let go; each time it bounces for some cycles.
Every press of the finger gives one KEY_PRESS.
-/
namespace Gel.Combined
open Debounce.Spec Keypad.Spec

namespace Spec

/-- The state one cycle earlier; before the first cycle the contact is open. -/
def before (T : Nat → Bool) (n : Nat) : Bool := if n = 0 then false else T (n - 1)

/-- The finger presses or lets go at cycle `m`. -/
def Changes (T : Nat → Bool) (m : Nat) : Prop := T m ≠ before T m

/-- How often the finger pressed in the first `n` cycles. -/
def presses (T : Nat → Bool) : Nat → Nat
  | 0 => 0
  | n + 1 => presses T n + if T n && !before T n then 1 else 0

/-- The contact: during the `B` cycles from a change on the sample is anything, otherwise it is the state. -/
def Contact (B : Nat) (T raw : Nat → Bool) : Prop := ∀ n, (∀ m, m ≤ n → n < m + B → ¬ Changes T m) → raw n = T n

/-- More than `gap` cycles lie between two changes. -/
def Slow (gap : Nat) (T : Nat → Bool) : Prop := ∀ m m', m < m' → Changes T m → Changes T m' → m + gap < m'

end Spec
open Spec

theorem same_between {T : Nat → Bool} {m : Nat} : ∀ {n : Nat}, m ≤ n → (∀ j, m < j → j ≤ n → ¬ Changes T j) → T n = T m := by
  intro n
  induction n with
  | zero => intro h _; rw [show m = 0 by omega]
  | succ n ih =>
    intro h hq
    by_cases hc : m = n + 1
    · rw [hc]
    · have h1 := hq (n + 1) (by omega) (Nat.le_refl _)
      rw [Changes, ne_eq, Decidable.not_not, before, if_neg (by omega)] at h1
      rw [h1]
      exact ih (by omega) fun j a b => hq j a (by omega)

theorem before_succ (T : Nat → Bool) (n : Nat) : before T (n + 1) = T n := by rw [before, if_neg (by omega)]; rfl

/-- The level of the filter and the state of the contact. -/
structure Follows (B d : Nat) (T lev : Nat → Bool) (N : Nat) : Prop where
  old : ∀ m, m < N → Changes T m → ∀ j, m ≤ j → j ≤ m + d → j ≤ N → lev j = before T m
  now : (lev N = before T N ∧ presses (fun k => lev (k + 1)) N = presses T N) ∨
    ∃ m, m < N ∧ Changes T m ∧ (∀ j, m < j → j < N → ¬ Changes T j) ∧ N ≤ m + B + d ∧ (∀ j, m ≤ j → j ≤ N → lev j = before T m) ∧
      presses (fun k => lev (k + 1)) N + (if T m then 1 else 0) = presses T N

theorem follows {B d : Nat} {T raw lev : Nat → Bool} (hB : B ≤ 2 * d + 1) (hc : Contact B T raw) (hs : Slow (B + d) T)
    (h0 : lev 0 = false) (hr : ∀ k, Rule d raw lev k) : ∀ N, Follows B d T lev N := by
  have hlev : ∀ N, presses (fun k => lev (k + 1)) (N + 1) = presses (fun k => lev (k + 1)) N + if lev (N + 1) && !lev N then 1 else 0 := by
    intro N
    have : before (fun k => lev (k + 1)) N = lev N := by
      rw [before]; split
      · rename_i h; rw [h, h0]
      · rw [show N - 1 + 1 = N by omega]
    rw [presses, this]
  have bool : ∀ {a b c : Bool}, a ≠ b → c ≠ b → a = c := by decide
  intro N
  induction N with
  | zero => exact ⟨fun m h => absurd h (by omega), .inl ⟨h0, rfl⟩⟩
  | succ N ih =>
    have hclean : ∀ m, Changes T m → 0 < m → raw (m - 1) = before T m := by
      intro m hm h1
      rw [before, if_neg (by omega)]
      refine hc _ fun m' a b c => ?_
      have := hs m' m (by omega) c hm
      omega
    by_cases hch : Changes T N
    · -- a change now: the level is that of the old state
      have hset : lev N = before T N ∧ presses (fun k => lev (k + 1)) N = presses T N := by
        rcases ih.now with h | ⟨m, h1, h2, -, h3, -⟩
        · exact h
        · have := hs m N h1 h2 hch; omega
      have hflip : lev (N + 1) ≠ lev N → d = 0 := by
        intro hf
        obtain ⟨h1, h2⟩ := (hr N).1 hf
        by_contra hd
        have h3 := (h2 (N - 1) (by omega) (by omega)).2
        rw [hclean N hch (by omega), hset.1] at h3
        exact h3 rfl
      have hT : (if T N && !before T N then 1 else 0) = if T N then 1 else 0 := by
        have := hch; revert this; unfold Changes; cases T N <;> cases before T N <;> simp
      by_cases hf : lev (N + 1) = lev N
      · refine ⟨fun m hm hcm j a b c => ?_, .inr ⟨N, by omega, hch, fun j a b => absurd a (by omega), ?_, fun j a b => ?_, ?_⟩⟩
        · by_cases hmN : m = N
          · subst hmN
            rcases Nat.lt_or_ge m j with h | h
            · rw [show j = m + 1 by omega, hf, hset.1]
            · rw [show j = m by omega, hset.1]
          · have h1 := hs m N (by omega) hcm hch
            exact ih.old m (by omega) hcm j a b (by omega)
        · by_contra hlt
          refine ((hr N).2 ⟨by omega, fun j a b => ?_⟩) hf
          rw [show j = N by omega]
          refine ⟨rfl, ?_⟩
          rw [hc N (fun m a b => absurd b (by omega)), hset.1]
          exact hch
        · rcases Nat.lt_or_ge N j with h | h
          · rw [show j = N + 1 by omega, hf, hset.1]
          · rw [show j = N by omega, hset.1]
        · rw [hlev, hf, presses, hT, hset.2]; simp
      · have hd := hflip hf
        have h1 : lev (N + 1) = T N := bool hf (by rw [hset.1]; exact hch)
        refine ⟨fun m hm hcm j a b c => ?_, .inl ⟨by rw [before_succ, h1], ?_⟩⟩
        · by_cases hmN : m = N
          · subst hmN
            rw [show j = m by omega, hset.1]
          · have h1 := hs m N (by omega) hcm hch
            exact ih.old m (by omega) hcm j a b (by omega)
        · rw [hlev, h1, hset.1, presses, hset.2]
    · have hTN : T N = before T N := by rw [Changes, ne_eq, Decidable.not_not] at hch; exact hch
      have hpT : presses T (N + 1) = presses T N := by
        rw [presses, ← hTN]; simp
      rcases ih.now with ⟨h1, h2⟩ | ⟨m, h1, h2, h3, h4, h5, h6⟩
      · -- settled: a wrong sample is within the time of bouncing, and the level changed after that began
        have hf : lev (N + 1) = lev N := by
          by_contra hf
          obtain ⟨g1, g2⟩ := (hr N).1 hf
          have g3 : raw N ≠ T N := by rw [hTN, ← h1]; exact (g2 N (by omega) (Nat.le_refl _)).2
          have g4 : ∃ m, m ≤ N ∧ N < m + B ∧ Changes T m := by
            by_contra hn
            exact g3 (hc N fun m a b c => hn ⟨m, a, b, c⟩)
          obtain ⟨m, a, b, c⟩ := g4
          have hmN : m ≠ N := fun h => hch (h ▸ c)
          have g5 := ih.old m (by omega) c (if m ≤ N - d then N - d else m) (by split <;> omega) (by split <;> omega) (by split <;> omega)
          have g6 := (g2 (if m ≤ N - d then N - d else m) (by split <;> omega) (by split <;> omega)).1
          have g7 : T N = T m := same_between a fun j a' b' c' => by have := hs m j a' c c'; omega
          rw [g5, h1, ← hTN, g7] at g6
          exact c g6.symm
        refine ⟨fun m hm hcm j a b c => ?_, .inl ⟨by rw [before_succ, hf, h1, hTN], by rw [hlev, hf, hpT, h2]; simp⟩⟩
        have hmN : m ≠ N := fun h => hch (h ▸ hcm)
        rcases Nat.lt_or_ge N j with h | h
        · rw [show j = N + 1 by omega, hf]
          exact ih.old m (by omega) hcm N (by omega) (by omega) (Nat.le_refl _)
        · exact ih.old m (by omega) hcm j a b h
      · -- a change is pending
        have h7 : ∀ j, m < j → j ≤ N → ¬ Changes T j := fun j a b c => by
          rcases Nat.lt_or_ge j N with h | h
          · exact h3 j a h c
          · exact hch (show N = j by omega ▸ c)
        have h8 : T N = T m := same_between (by omega) h7
        have h9 : ∀ m', m' < N + 1 → Changes T m' → m' ≤ m := fun m' a c => by
          by_contra hn
          exact h7 m' (by omega) (by omega) c
        have hN := h5 N (by omega) (Nat.le_refl _)
        by_cases hf : lev (N + 1) = lev N
        · refine ⟨fun m' hm hcm j a b c => ?_, .inr ⟨m, by omega, h2, fun j a b => h7 j a (by omega), ?_, fun j a b => ?_, ?_⟩⟩
          · have := h9 m' hm hcm
            rcases Nat.lt_or_ge N j with h | h
            · by_cases hmm : m' = m
              · rw [hmm, show j = N + 1 by omega, hf, hN]
              · have := hs m' m (by omega) hcm h2
                omega
            · exact ih.old m' (by omega) hcm j a b h
          · by_contra hlt
            refine ((hr N).2 ⟨by omega, fun j a b => ?_⟩) hf
            refine ⟨by rw [h5 j (by omega) b, hN], ?_⟩
            have g1 : T j = T m := same_between (by omega) fun i a' b' => h7 i a' (by omega)
            rw [hc j (fun m' a' b' c' => ?_), g1, hN]
            · exact h2
            · have := h9 m' (by omega) c'
              omega
          · rcases Nat.lt_or_ge N j with h | h
            · rw [show j = N + 1 by omega, hf, hN]
            · exact h5 j a h
          · rw [hlev, hf, hpT, ← h6]; simp
        · have hle : m + d ≤ N := by
            obtain ⟨g1, g2⟩ := (hr N).1 hf
            by_contra hlt
            have g3 := (g2 (m - 1) (by omega) (by omega)).2
            rw [hclean m h2 (by omega), hN] at g3
            exact g3 rfl
          have hT : lev (N + 1) = T m := bool hf (by rw [hN]; exact h2)
          refine ⟨fun m' hm hcm j a b c => ?_, .inl ⟨by rw [before_succ, hT, h8], ?_⟩⟩
          · have := h9 m' hm hcm
            exact ih.old m' (by omega) hcm j a b (by omega)
          · rw [hlev, hT, hN, hpT, ← h6]
            congr 1
            have := h2; revert this; unfold Changes; cases T m <;> cases before T m <;> simp

/-! ## The keypad -/

variable {v w : Nat}

theorem process_edge (a : Keypad.Args w) (k : Keypad.Key w) :
    (Keypad.process a k).1.value = k.value ∧ (Keypad.process a k).1.oldvalue = k.value ∧
    ((Keypad.process a k).2 = .press ↔ k.value = true ∧ k.oldvalue = false) := by
  obtain ⟨b, c, ts, tp, val, old, ig, le⟩ := k
  cases val <;> cases old <;> simp only [Keypad.process] <;> split_ifs <;> simp_all

/-- A key that has had no events. -/
def Untouched (b : BitVec w) (q : Keypad.Key w) : Prop := q.bitvalue ≠ 0 ∧ q.bitvalue ≠ b ∧ q.oldvalue = false ∧ q.lastevent = .nothing

theorem scan_idle {bv b : BitVec w} (hbv : bv = 0 ∨ bv = b) {t : Keypad.Key w} {rest : List (Keypad.Key w)} (ht : t.bitvalue = 0) :
    ∀ (post : List (Keypad.Key w)) (i : Nat) (found : Option Nat), (∀ q ∈ post, Untouched b q) →
      Keypad.scan bv (post ++ t :: rest) i found = .ok (post ++ t :: rest, found) := by
  intro post
  induction post with
  | nil => intro i found _; rw [List.nil_append, Keypad.scan, if_pos ht]
  | cons q post ih =>
    intro i found h
    obtain ⟨h1, h2, h3, h4⟩ := h q (by simp)
    have h5 : q.bitvalue ≠ bv := by rcases hbv with e | e <;> rw [e] <;> assumption
    rw [List.cons_append, Keypad.scan, if_neg h1, if_neg h5, h3, if_neg (by simp), if_neg (by rw [h4]; simp),
      ih (i + 1) found fun q hq => h q (by simp [hq])]
    rfl

theorem scan_pre {bv b : BitVec w} (hbv : bv = 0 ∨ bv = b) (tl : List (Keypad.Key w)) :
    ∀ (pre : List (Keypad.Key w)) (i : Nat) (found : Option Nat), (∀ q ∈ pre, Untouched b q) →
      Keypad.scan bv (pre ++ tl) i found = (do let r ← Keypad.scan bv tl (i + pre.length) found; pure (pre ++ r.1, r.2)) := by
  intro pre
  induction pre with
  | nil => intro i found _; simp only [List.nil_append, List.length_nil, Nat.add_zero]; cases Keypad.scan bv tl i found <;> rfl
  | cons q pre ih =>
    intro i found h
    obtain ⟨h1, h2, h3, h4⟩ := h q (by simp)
    have h5 : q.bitvalue ≠ bv := by rcases hbv with e | e <;> rw [e] <;> assumption
    rw [List.cons_append, Keypad.scan, if_neg h1, if_neg h5, h3, if_neg (by simp), if_neg (by rw [h4]; simp),
      ih (i + 1) found fun q hq => h q (by simp [hq]), List.length_cons, show i + 1 + pre.length = i + (pre.length + 1) by omega]
    cases Keypad.scan bv tl (i + (pre.length + 1)) found <;> rfl

/-- One call when all other keys have had no events and the inputs are 0 or the key's bitmap. -/
theorem one_call (pre post : List (Keypad.Key w)) (k t : Keypad.Key w) (rest : List (Keypad.Key w)) (hk : k.bitvalue ≠ 0) (ht : t.bitvalue = 0)
    (a : Keypad.Args w) (hpre : ∀ q ∈ pre, Untouched k.bitvalue q) (hpost : ∀ q ∈ post, Untouched k.bitvalue q)
    (ha : a.bitvalue = 0 ∨ a.bitvalue = k.bitvalue) (hv : k.value = k.oldvalue) :
    ∃ k' c e, Keypad.routine (pre ++ k :: (post ++ t :: rest)) a = .ok (pre ++ k' :: (post ++ t :: rest), c, e) ∧
      k'.bitvalue = k.bitvalue ∧ k'.code = k.code ∧ k'.value = k'.oldvalue ∧ k'.oldvalue = decide (a.bitvalue = k.bitvalue) ∧
      ((c, e) = (k.code, Keypad.Event.press) ↔ (decide (a.bitvalue = k.bitvalue) && !k.oldvalue) = true) := by
  have hrd : ∀ (q : Keypad.Key w), rd (pre ++ q :: (post ++ t :: rest)) pre.length = .ok q := by
    intro q; simp [rd]
  have hwr : ∀ (q q' : Keypad.Key w), wr (pre ++ q :: (post ++ t :: rest)) pre.length q' = .ok (pre ++ q' :: (post ++ t :: rest)) := by
    intro q q'; simp [wr]
  have hs := scan_idle (bv := a.bitvalue) ha (rest := rest) ht post
  have hend : ∀ (q : Keypad.Key w), q.bitvalue = k.bitvalue → q.code = k.code →
      Keypad.scan a.bitvalue (k :: (post ++ t :: rest)) (0 + pre.length) none = .ok (q :: (post ++ t :: rest), some pre.length) →
      q.value = decide (a.bitvalue = k.bitvalue) → q.oldvalue = k.oldvalue →
      ∃ k' c e, Keypad.routine (pre ++ k :: (post ++ t :: rest)) a = .ok (pre ++ k' :: (post ++ t :: rest), c, e) ∧
      k'.bitvalue = k.bitvalue ∧ k'.code = k.code ∧ k'.value = k'.oldvalue ∧ k'.oldvalue = decide (a.bitvalue = k.bitvalue) ∧
      ((c, e) = (k.code, Keypad.Event.press) ↔ (decide (a.bitvalue = k.bitvalue) && !k.oldvalue) = true) := by
    intro q e1 e2 e3 e4 e5
    obtain ⟨p1, p2, p3⟩ := process_edge a q
    obtain ⟨q1, q2⟩ := Keypad.process_id a q
    refine ⟨(Keypad.process a q).1, q.code, (Keypad.process a q).2, ?_, q1.trans e1, q2.trans e2, by rw [p1, p2], by rw [p2, e4], ?_⟩
    · rw [Keypad.routine, scan_pre ha _ pre 0 none hpre, e3]
      simp only [Res.ok_bind, Res.pure_eq, hrd, hwr]
    · rw [Prod.mk.injEq, p3, e2, e4, e5]
      simp
  by_cases h1 : k.bitvalue = a.bitvalue
  · refine hend { k with value := true } rfl rfl ?_ (decide_eq_true h1.symm).symm rfl
    rw [Keypad.scan, if_neg hk, if_pos h1, hs _ _ hpost, Nat.zero_add]
    rfl
  · have h1' : decide (a.bitvalue = k.bitvalue) = false := decide_eq_false fun h => h1 h.symm
    by_cases h2 : k.oldvalue = true
    · refine hend { k with value := false } rfl rfl ?_ h1'.symm rfl
      rw [Keypad.scan, if_neg hk, if_neg h1, if_pos h2, Nat.zero_add]
    · have h2' : k.oldvalue = false := by simpa using h2
      by_cases h3 : k.lastevent ≠ .release ∧ k.lastevent ≠ .nothing
      · refine hend k rfl rfl ?_ (by rw [h1', hv, h2']) rfl
        rw [Keypad.scan, if_neg hk, if_neg h1, if_neg h2, if_pos h3, Nat.zero_add]
      · refine ⟨k, 0, .nothing, ?_, rfl, rfl, hv, by rw [h1', h2'], by simp [h1']⟩
        rw [Keypad.routine, scan_pre ha _ pre 0 none hpre, Keypad.scan, if_neg hk, if_neg h1, if_neg h2, if_neg h3, hs _ _ hpost]
        rfl

/-- If the inputs are always 0 or the key's bitmap, PRESS of the key comes in exactly the calls with its bitmap that follow one without. -/
theorem press_edge (pre post : List (Keypad.Key w)) (k t : Keypad.Key w) (rest : List (Keypad.Key w)) (hk : k.bitvalue ≠ 0) (ht : t.bitvalue = 0)
    (hpre : ∀ q ∈ pre, q.bitvalue ≠ 0 ∧ q.bitvalue ≠ k.bitvalue) (hpost : ∀ q ∈ post, q.bitvalue ≠ 0 ∧ q.bitvalue ≠ k.bitvalue)
    (as : Nat → Keypad.Args w) (ha : ∀ n, (as n).bitvalue = 0 ∨ (as n).bitvalue = k.bitvalue)
    (n : Nat) : ∃ c e, Keypad.out (pre ++ k :: (post ++ t :: rest)) as n = .ok (c, e) ∧ ((c, e) = (k.code, Keypad.Event.press) ↔
      (decide ((as n).bitvalue = k.bitvalue) && !before (fun n => decide ((as n).bitvalue = k.bitvalue)) n) = true) := by
  have hi : ∀ l : List (Keypad.Key w), (∀ q ∈ l, q.bitvalue ≠ 0 ∧ q.bitvalue ≠ k.bitvalue) → ∀ q ∈ l.map Keypad.fresh, Untouched k.bitvalue q := by
    intro l hl q hq
    obtain ⟨q', h1, rfl⟩ := List.mem_map.1 hq
    exact ⟨(hl q' h1).1, (hl q' h1).2, rfl, rfl⟩
  have key : ∀ n, ∃ k' : Keypad.Key w, Keypad.run (pre ++ k :: (post ++ t :: rest)) as n =
      .ok (pre.map Keypad.fresh ++ k' :: (post.map Keypad.fresh ++ t :: rest)) ∧ k'.bitvalue = k.bitvalue ∧ k'.code = k.code ∧
      k'.value = k'.oldvalue ∧ k'.oldvalue = before (fun n => decide ((as n).bitvalue = k.bitvalue)) n := by
    intro n
    induction n with
    | zero =>
      refine ⟨Keypad.fresh k, ?_, rfl, rfl, rfl, rfl⟩
      have := Keypad.reset_eq t rest ht (pre ++ k :: post) (by
        intro q hq
        rcases List.mem_append.1 hq with h | h
        · exact (hpre q h).1
        · rcases List.mem_cons.1 h with rfl | h
          · exact hk
          · exact (hpost q h).1)
      rw [Keypad.run]; simpa using this
    | succ n ih =>
      obtain ⟨k', e, hb, hcd, hv, ho⟩ := ih
      obtain ⟨k2, c, ev, e2, hb2, hcd2, hv2, ho2, -⟩ := one_call _ _ k' t rest (by rw [hb]; exact hk) ht (as n) (by rw [hb]; exact hi pre hpre)
        (by rw [hb]; exact hi post hpost) (by rw [hb]; exact ha n) hv
      refine ⟨k2, ?_, hb2.trans hb, hcd2.trans hcd, hv2, ?_⟩
      · rw [Keypad.run, e, Res.ok_bind, e2]; rfl
      · rw [before_succ, ho2, hb]
  obtain ⟨k', e, hb, hcd, hv, ho⟩ := key n
  obtain ⟨k2, c, ev, e2, -, -, -, -, hp⟩ := one_call _ _ k' t rest (by rw [hb]; exact hk) ht (as n) (by rw [hb]; exact hi pre hpre)
    (by rw [hb]; exact hi post hpost) (by rw [hb]; exact ha n) hv
  refine ⟨c, ev, by rw [Keypad.out, e, Res.ok_bind, e2]; rfl, ?_⟩
  rw [hcd, hb, ho] at hp
  exact hp

/-- How many of the first `n` results are KEY_PRESS of a code. -/
def pressEvents (ev : Nat → Res (Int × Keypad.Event)) (code : Int) : Nat → Nat
  | 0 => 0
  | n + 1 => pressEvents ev code n + match ev n with
    | .ok (c, .press) => if c = code then 1 else 0
    | _ => 0

/-- The raw inputs: the contact at input `i`, the others open. -/
def wires (v i : Nat) (raw : Nat → Bool) (n : Nat) : BitVec v := if raw n then BitVec.twoPow v i else 0

/-- The table has exactly one key with the bitmap of input `i`, and it has this code. -/
def OneKey (i : Nat) (tbl : List (Keypad.Key w)) (code : Int) : Prop :=
  ∃ pre k post t rest, tbl = pre ++ k :: (post ++ t :: rest) ∧ k.bitvalue = BitVec.twoPow w i ∧ k.code = code ∧ t.bitvalue = 0 ∧
    (∀ q ∈ pre, q.bitvalue ≠ 0 ∧ q.bitvalue ≠ k.bitvalue) ∧ ∀ q ∈ post, q.bitvalue ≠ 0 ∧ q.bitvalue ≠ k.bitvalue

theorem device (hvw : v ≤ w) (i : Nat) (hi : i < v) (f g : Debounce.Filter v) (hl : f.count.length = v) (hg : Debounce.init f = .ok g)
    (tbl : List (Keypad.Key w)) (code : Int) (ht : OneKey i tbl code) (raw : Nat → Bool) (d : BitVec v) (ts : Nat → Times w) :
    ∃ lev : Nat → Bool, lev 0 = false ∧ (∀ k, Rule d.toNat raw lev k) ∧
      ∀ n, ∃ c e, event f tbl (wires v i raw) d ts n = .ok (c, e) ∧ ((c, e) = (code, Keypad.Event.press) ↔ lev n = false ∧ lev (n + 1) = true) := by
  obtain ⟨pre, k, post, t, rest, rfl, hk, rfl, ht, hpre, hpost⟩ := ht
  have hk0 : k.bitvalue ≠ 0 := by
    rw [hk]
    intro h
    have := congrArg (fun b : BitVec w => b.getLsbD i) h
    simp at this
    omega
  have hnz : ∀ q ∈ pre ++ k :: post, q.bitvalue ≠ 0 := by
    intro q hq
    rcases List.mem_append.1 hq with h | h
    · exact (hpre q h).1
    · rcases List.mem_cons.1 h with rfl | h
      · exact hk0
      · exact (hpost q h).1
  obtain ⟨fs, h0, hrule, hn⟩ := loop_eq f g hl hg (pre ++ k :: (post ++ t :: rest)) (pre ++ k :: post) ⟨hnz, t, rest, ht, by simp⟩ (wires v i raw) d ts
  have hwire : ∀ n j, j < v → (wires v i raw n).getLsbD j = (raw n && decide (j = i)) := by
    intro n j hj
    rw [wires]
    split
    · rename_i h; simp [h, BitVec.getLsbD_twoPow, hj, eq_comm]
    · rename_i h; simp [h]
  have hquiet : ∀ j, j < v → j ≠ i → ∀ n, (Debounce.value (fs n)).getLsbD j = false := by
    intro j hj hji n
    induction n with
    | zero => rw [h0]; simp
    | succ n ih =>
      by_contra hne
      have h1 := (hrule j hj n).1 (by simp only [ih]; exact hne)
      have h2 := (h1.2 n (by omega) (Nat.le_refl _)).2
      simp only [ih, hwire n j hj, decide_eq_false hji, Bool.and_false] at h2
      exact h2 rfl
  have hval : ∀ n, decide ((Debounce.value (fs n)).setWidth w = k.bitvalue) = (Debounce.value (fs n)).getLsbD i := by
    intro n
    cases hb : (Debounce.value (fs n)).getLsbD i
    · rw [decide_eq_false_iff_not]
      intro h
      have := congrArg (fun b : BitVec w => b.getLsbD i) h
      simp only [BitVec.getLsbD_setWidth, hb, Bool.and_false, hk, BitVec.getLsbD_twoPow] at this
      simp at this
      omega
    · rw [decide_eq_true_iff, hk]
      apply BitVec.eq_of_getLsbD_eq
      intro j hj
      rw [BitVec.getLsbD_setWidth, BitVec.getLsbD_twoPow]
      by_cases hji : j = i
      · subst hji; simp [hb, hj]
      · by_cases hjv : j < v
        · rw [hquiet j hjv hji]; simp; omega
        · rw [BitVec.getLsbD_of_ge _ _ (by omega)]; simp; omega
  have hzero : ∀ n, (args (ts n) (Debounce.value (fs (n + 1)))).bitvalue = 0 ∨ (args (ts n) (Debounce.value (fs (n + 1)))).bitvalue = k.bitvalue := by
    intro n
    show (Debounce.value (fs (n + 1))).setWidth w = 0 ∨ (Debounce.value (fs (n + 1))).setWidth w = k.bitvalue
    cases hb : (Debounce.value (fs (n + 1))).getLsbD i
    · left
      apply BitVec.eq_of_getLsbD_eq
      intro j hj
      rw [BitVec.getLsbD_setWidth]
      by_cases hji : j = i
      · subst hji; simp [hb]
      · by_cases hjv : j < v
        · rw [hquiet j hjv hji]; simp
        · rw [BitVec.getLsbD_of_ge _ _ (by omega)]; simp
    · right
      exact of_decide_eq_true ((hval (n + 1)).trans hb)
  refine ⟨fun n => (Debounce.value (fs n)).getLsbD i, by simp [h0], fun k => ?_, fun n => ?_⟩
  · have h1 := hrule i hi k
    have h2 : (fun k => (wires v i raw k).getLsbD i) = raw := funext fun n => by rw [hwire n i hi]; simp
    rw [h2] at h1
    exact h1
  · obtain ⟨c, e, h1, h2⟩ := press_edge pre post k t rest hk0 ht hpre hpost (fun n => args (ts n) (Debounce.value (fs (n + 1)))) hzero n
    refine ⟨c, e, by rw [(hn n).2]; exact h1, h2.trans ?_⟩
    have h3 : before (fun n => (Debounce.value (fs (n + 1))).getLsbD i) n = (Debounce.value (fs n)).getLsbD i := by
      rw [before]; split
      · rename_i h; rw [h, h0]; simp
      · rw [show n - 1 + 1 = n by omega]
    have h4 : (fun n => decide ((args (ts n) (Debounce.value (fs (n + 1)))).bitvalue = k.bitvalue)) =
        fun n => (Debounce.value (fs (n + 1))).getLsbD i := funext fun n => (decide_eq_decide.2 Iff.rfl).trans (hval (n + 1))
    rw [h4, h3, congrFun h4 n]
    simp [and_comm]

theorem count_edges {ev : Nat → Res (Int × Keypad.Event)} {code : Int} {lev : Nat → Bool} (h0 : lev 0 = false)
    (h : ∀ n, ∃ c e, ev n = .ok (c, e) ∧ ((c, e) = (code, Keypad.Event.press) ↔ lev n = false ∧ lev (n + 1) = true)) :
    ∀ n, pressEvents ev code n = presses (fun k => lev (k + 1)) n := by
  intro n
  induction n with
  | zero => rfl
  | succ n ih =>
    have h3 : before (fun n => lev (n + 1)) n = lev n := by
      rw [before]; split
      · rename_i h; rw [h, h0]
      · rw [show n - 1 + 1 = n by omega]
    rw [pressEvents, presses, ih, h3]
    congr 1
    obtain ⟨c, e, h1, h2⟩ := h n
    rw [h1]
    by_cases hp : (c, e) = (code, Keypad.Event.press)
    · obtain ⟨g1, g2⟩ := h2.1 hp
      obtain ⟨rfl, rfl⟩ := Prod.mk.inj hp
      simp [g1, g2]
    · have : ¬ (lev (n + 1) && !lev n) = true := fun hh => hp (h2.2 (by simpa [and_comm] using hh))
      rw [if_neg this]
      split
      · rename_i c' hc
        obtain ⟨rfl, rfl⟩ := Prod.mk.inj (Res.ok.inj hc)
        rw [if_neg (fun hh => hp (by rw [hh]))]
      · rfl

theorem det {d : Nat} {raw l l' : Nat → Bool} (h0 : l 0 = l' 0) (h : ∀ k, Rule d raw l k) (h' : ∀ k, Rule d raw l' k) : ∀ k, l k = l' k := by
  have key : ∀ k j, j ≤ k → l j = l' j := by
    intro k
    induction k with
    | zero => intro j hj; rw [show j = 0 by omega]; exact h0
    | succ k ih =>
      intro j hj
      by_cases hj' : j ≤ k
      · exact ih j hj'
      rw [show j = k + 1 by omega]
      have h1 : (l (k + 1) ≠ l k) ↔ (l' (k + 1) ≠ l' k) := by
        refine (h k).trans (Iff.trans ?_ (h' k).symm)
        refine and_congr_right fun _ => forall_congr' fun j => forall_congr' fun _ => forall_congr' fun hj => ?_
        rw [ih j hj, ih k (Nat.le_refl _)]
      rw [ih k (Nat.le_refl _)] at h1
      revert h1
      cases l (k + 1) <;> cases l' (k + 1) <;> cases l' k <;> simp
  exact fun k => key k k (Nat.le_refl _)

/-- The contact of the counterexample, and the level of the filter. -/
def badRaw (d n : Nat) : Bool := decide (n ≤ d) || decide (2 * d + 1 < n)
def badLev (d n : Nat) : Bool := (decide (d < n) && decide (n ≤ 2 * d + 1)) || decide (3 * d + 2 < n)

theorem bad_rule (d k : Nat) : Rule d (badRaw d) (badLev d) k := by
  have l1 : ∀ n, badLev d n = true ↔ (d < n ∧ n ≤ 2 * d + 1) ∨ 3 * d + 2 < n := fun n => by simp [badLev]
  have l0 : ∀ n, badLev d n = false ↔ ¬ ((d < n ∧ n ≤ 2 * d + 1) ∨ 3 * d + 2 < n) := fun n => by rw [← l1]; simp
  have r1 : ∀ n, badRaw d n = true ↔ n ≤ d ∨ 2 * d + 1 < n := fun n => by simp [badRaw]
  have r0 : ∀ n, badRaw d n = false ↔ ¬ (n ≤ d ∨ 2 * d + 1 < n) := fun n => by rw [← r1]; simp
  unfold Rule
  rcases Nat.lt_or_ge k d with h | h
  · rw [(l0 (k + 1)).2 (by omega), (l0 k).2 (by omega)]
    simp; omega
  rcases Nat.lt_or_eq_of_le h with h | rfl
  swap
  · rw [(l1 (d + 1)).2 (by omega), (l0 d).2 (by omega)]
    simp only [ne_eq, Bool.true_eq_false, not_false_eq_true, true_iff]
    exact ⟨h, fun j _ b => ⟨(l0 j).2 (by omega), by rw [(r1 j).2 (by omega)]; simp⟩⟩
  rcases Nat.lt_or_ge k (2 * d + 1) with h2 | h2
  · rw [(l1 (k + 1)).2 (by omega), (l1 k).2 (by omega)]
    simp only [ne_eq, not_true_eq_false, false_iff]
    intro hh
    have := (hh.2 (k - d) (Nat.le_refl _) (by omega)).1
    rw [(l0 (k - d)).2 (by omega)] at this; cases this
  rcases Nat.lt_or_eq_of_le h2 with h2 | rfl
  swap
  · rw [(l0 (2 * d + 1 + 1)).2 (by omega), (l1 (2 * d + 1)).2 (by omega)]
    simp only [ne_eq, Bool.false_eq_true, not_false_eq_true, true_iff]
    exact ⟨by omega, fun j _ b => ⟨(l1 j).2 (by omega), by rw [(r0 j).2 (by omega)]; simp⟩⟩
  rcases Nat.lt_or_ge k (3 * d + 2) with h3 | h3
  · rw [(l0 (k + 1)).2 (by omega), (l0 k).2 (by omega)]
    simp only [ne_eq, not_true_eq_false, false_iff]
    intro hh
    have := (hh.2 (k - d) (Nat.le_refl _) (by omega)).1
    rw [(l1 (k - d)).2 (by omega)] at this; cases this
  rcases Nat.lt_or_eq_of_le h3 with h3 | rfl
  swap
  · rw [(l1 (3 * d + 2 + 1)).2 (by omega), (l0 (3 * d + 2)).2 (by omega)]
    simp only [ne_eq, Bool.true_eq_false, not_false_eq_true, true_iff]
    exact ⟨by omega, fun j _ b => ⟨(l0 j).2 (by omega), by rw [(r1 j).2 (by omega)]; simp⟩⟩
  · rw [(l1 (k + 1)).2 (by omega), (l1 k).2 (by omega)]
    simp only [ne_eq, not_true_eq_false, false_iff]
    intro hh
    exact (hh.2 k (by omega) (Nat.le_refl _)).2 ((r1 k).2 (by omega))

theorem bad_count (d n : Nat) :
    presses (fun k => badLev d (k + 1)) n = (if d < n then 1 else 0) + if 3 * d + 2 < n then 1 else 0 := by
  induction n with
  | zero => rfl
  | succ n ih =>
    have h3 : before (fun k => badLev d (k + 1)) n = badLev d n := by
      rw [before]; split
      · rename_i h; rw [h]; simp [badLev]
      · rw [show n - 1 + 1 = n by omega]
    have h4 : ((badLev d (n + 1) && !badLev d n) = true) ↔ n = d ∨ n = 3 * d + 2 := by
      simp only [badLev, Bool.and_eq_true, Bool.or_eq_true, decide_eq_true_eq, Bool.not_eq_true', Bool.or_eq_false_iff, Bool.and_eq_false_iff,
        decide_eq_false_iff_not]
      omega
    rw [presses, ih, h3]
    simp only [h4]
    split_ifs <;> omega

section
variable (hvw : v ≤ w) (i : Nat) (hi : i < v) (f g : Debounce.Filter v) (hl : f.count.length = v) (hg : Debounce.init f = .ok g)
  (tbl : List (Keypad.Key w)) (code : Int) (ht : OneKey i tbl code) (d : BitVec v) (ts : Nat → Times w)
include hvw hi hl hg ht

/-- **C231.** A contact that bounces for at most `2 d + 1` cycles, whatever it does meanwhile, and that is pressed and let go with more than the
bouncing time and `d` cycles in between: at every moment there have been as many KEY_PRESS as the finger has pressed, or one less; exactly
as many when it has not moved for that time. -/
theorem C231_once {B : Nat} (hB : B ≤ 2 * d.toNat + 1) {T raw : Nat → Bool} (hc : Contact B T raw) (hs : Slow (B + d.toNat) T) (n : Nat) :
    pressEvents (event f tbl (wires v i raw) d ts) code n ≤ presses T n ∧
    presses T n ≤ pressEvents (event f tbl (wires v i raw) d ts) code n + 1 ∧
    ((∀ m, m < n → Changes T m → m + (B + d.toNat) < n) → pressEvents (event f tbl (wires v i raw) d ts) code n = presses T n) := by
  obtain ⟨lev, h0, hr, hev⟩ := device hvw i hi f g hl hg tbl code ht raw d ts
  have hf := follows hB hc hs h0 hr n
  rw [count_edges h0 hev]
  rcases hf.now with ⟨-, h⟩ | ⟨m, h1, h2, -, h3, -, h4⟩
  · rw [h]; exact ⟨Nat.le_refl _, by omega, fun _ => rfl⟩
  · refine ⟨by omega, by split at h4 <;> omega, fun h => ?_⟩
    have := h m h1 h2
    omega

/-- **C231.** The KEY_PRESS for a press of the finger at cycle `m` comes in one of the cycles `m + d` to `m + B + d`. -/
theorem C231_when {B : Nat} (hB : B ≤ 2 * d.toNat + 1) {T raw : Nat → Bool} (hc : Contact B T raw) (hs : Slow (B + d.toNat) T) (m : Nat)
    (hm : Changes T m) (hp : T m = true) :
    ∃ n, m + d.toNat ≤ n ∧ n ≤ m + B + d.toNat ∧ event f tbl (wires v i raw) d ts n = .ok (code, .press) := by
  obtain ⟨lev, h0, hr, hev⟩ := device hvw i hi f g hl hg tbl code ht raw d ts
  have hf := follows hB hc hs h0 hr (m + B + d.toNat + 1)
  have hb : before T m = false := by
    rw [Changes, hp] at hm
    revert hm; cases before T m <;> simp
  have h1 : lev (m + d.toNat) = false := by rw [hf.old m (by omega) hm (m + d.toNat) (by omega) (Nat.le_refl _) (by omega), hb]
  have hq : ∀ j, m < j → j ≤ m + B + d.toNat → ¬ Changes T j := fun j a b c => by have := hs m j a hm c; omega
  have h2 : lev (m + B + d.toNat + 1) = true := by
    rcases hf.now with ⟨h, -⟩ | ⟨m', a, b, -, c, -⟩
    · rw [h, before_succ, same_between (by omega) hq, hp]
    · exfalso
      exact hq m' (by omega) (by omega) b
  have key : ∀ N, m + d.toNat ≤ N → lev N = true → ∃ n, m + d.toNat ≤ n ∧ n < N ∧ lev n = false ∧ lev (n + 1) = true := by
    intro N
    induction N with
    | zero => intro hN hl; rw [h0] at hl; cases hl
    | succ N ih =>
      intro hN hl
      by_cases hlt : m + d.toNat ≤ N
      · cases hc' : lev N
        · exact ⟨N, hlt, by omega, hc', hl⟩
        · obtain ⟨n, a, b, c⟩ := ih hlt hc'
          exact ⟨n, a, by omega, c⟩
      · rw [show N + 1 = m + d.toNat by omega, h1] at hl; cases hl
  obtain ⟨n, a, b, c1, c2⟩ := key _ (by omega) h2
  obtain ⟨c, e, e1, e2⟩ := hev n
  exact ⟨n, a, by omega, by rw [e1, e2.2 ⟨c1, c2⟩]⟩

/-- **C231**, why `2 d + 1`: for every `d` a contact that bounces for `2 d + 2` cycles (closed for `d + 1` of them, then open for `d + 1`)
gives two KEY_PRESS for one press of the finger. -/
theorem C231_long_wrong : ∃ T raw, Contact (2 * d.toNat + 2) T raw ∧ (∀ gap, Slow gap T) ∧
    ∀ n, 3 * d.toNat + 3 ≤ n → presses T n = 1 ∧ pressEvents (event f tbl (wires v i raw) d ts) code n = 2 := by
  have hch : ∀ m, Changes (fun _ => true) m ↔ m = 0 := by
    intro m
    rw [Changes, before]
    by_cases h : m = 0 <;> simp [h]
  refine ⟨fun _ => true, badRaw d.toNat, fun n hn => ?_, fun gap m m' h a b => ?_, fun n hn => ⟨?_, ?_⟩⟩
  · have h1 : ¬ n < 2 * d.toNat + 2 := fun h => hn 0 (by omega) (by omega) ((hch 0).2 rfl)
    simp [badRaw]; omega
  · rw [hch] at a b; omega
  · have key : ∀ n, presses (fun _ => true) (n + 1) = 1 := by
      intro n
      induction n with
      | zero => rfl
      | succ n ih => rw [presses, ih, before_succ]; rfl
    rw [show n = n - 1 + 1 by omega]; exact key _
  · obtain ⟨lev, h0, hr, hev⟩ := device hvw i hi f g hl hg tbl code ht (badRaw d.toNat) d ts
    have e : lev = badLev d.toNat := funext (det (by rw [h0]; simp [badLev]) hr (bad_rule d.toNat))
    rw [count_edges h0 hev, e, bad_count, if_pos (by omega), if_pos (by omega)]

end

/-! ## Example: input 2, debounce 2

The finger presses at cycle 2 and lets go at cycle 12; the contact bounces for up to 4 cycles. -/

def exTable : List (Keypad.Key 8) := [⟨1, 5, 0, 0, false, false, false, .nothing⟩, ⟨4, 7, 0, 0, false, false, false, .nothing⟩,
  ⟨6, 9, 0, 0, false, false, false, .nothing⟩, ⟨0, 0, 0, 0, false, false, false, .nothing⟩]
def exFinger (n : Nat) : Bool := decide (2 ≤ n) && decide (n < 12)
def exRaw (n : Nat) : Bool := [false, false, true, false, true, false, true, true, true, true, true, true, false, true, false, true].getD n false
def exTimes (n : Nat) : Times 8 := ⟨50, 90, 5, BitVec.ofNat 8 n⟩

example : OneKey 2 exTable 7 := ⟨[_], _, [_], _, [], rfl, rfl, rfl, rfl, by decide, by decide⟩
example : Slow (4 + 2) exFinger := by
  intro m m' h a b
  have hch : ∀ m, Changes exFinger m → m = 2 ∨ m = 12 := by
    intro m hm
    by_contra hne
    apply hm
    simp only [before, exFinger]
    split_ifs
    · subst_vars; rfl
    · have e1 : decide (2 ≤ m) = decide (2 ≤ m - 1) := decide_eq_decide.2 (by omega)
      have e2 : decide (m < 12) = decide (m - 1 < 12) := decide_eq_decide.2 (by omega)
      rw [e1, e2]
  have := hch m a
  have := hch m' b
  omega
example : Contact 4 exFinger exRaw := by
  intro n hn
  by_cases h : n < 16
  · have h1 := hn 2
    have h2 := hn 12
    have c1 : Changes exFinger 2 := by unfold Changes; decide
    have c2 : Changes exFinger 12 := by unfold Changes; decide
    simp only [c1, c2, not_true_eq_false, imp_false] at h1 h2
    have : n < 2 ∨ n = 6 ∨ n = 7 ∨ n = 8 ∨ n = 9 ∨ n = 10 ∨ n = 11 := by omega
    rcases this with h | h | h | h | h | h | h
    · have : n = 0 ∨ n = 1 := by omega
      rcases this with rfl | rfl <;> rfl
    all_goals subst h; rfl
  · have e : exFinger n = false := by simp [exFinger]; omega
    rw [e, exRaw, List.getD_eq_getElem?_getD, List.getElem?_eq_none (by simp; omega)]
    rfl
example : presses exFinger 20 = 1 ∧
    pressEvents (event ⟨0, 0, List.replicate 8 0⟩ exTable (wires 8 2 exRaw) 2 exTimes) 7 20 = 1 ∧
    event ⟨0, 0, List.replicate 8 0⟩ exTable (wires 8 2 exRaw) 2 exTimes 8 = .ok (7, .press) := by
  decide +kernel
/-- Without the filter's delay the same contact gives five. -/
example : pressEvents (event ⟨0, 0, List.replicate 8 0⟩ exTable (wires 8 2 exRaw) 0 exTimes) 7 20 = 5 := by
  decide +kernel
/-- Six cycles of bouncing: two KEY_PRESS, as in `C231_long_wrong`. -/
example : pressEvents (event ⟨0, 0, List.replicate 8 0⟩ exTable (wires 8 2 (badRaw 2)) 2 exTimes) 7 20 = 2 := by
  decide +kernel

end Gel.Combined
