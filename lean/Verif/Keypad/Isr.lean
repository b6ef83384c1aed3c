import Verif.Keypad.Many

/-!
# Keypad: `keypad_routine` called by an interrupt handler during `keypad_reset_keys` (C211)

The reset as a sequence of stores with a handler before each of them that runs to its end; point `(i, j)` is before store `j` of key `i`,
and `(n, 0)` with `n` keys is after the last one. Bitmaps never change, so loading them needs no points of its own.
-/
namespace Gel.Keypad

open Time Spec

/-- The six stores to a key, keypad.c:90-95. -/
def stores : List (Key w → Key w) :=
  [fun k => { k with timeState := 0 }, fun k => { k with timePeriod := 0 }, fun k => { k with lastevent := .nothing },
    fun k => { k with oldvalue := false }, fun k => { k with value := false }, fun k => { k with ignore := true }]

/-- The body of the loop of `keypad_reset_keys`, keypad.c:90-95, from store `j` on. -/
def storesI (H : Nat × Nat → List (Key w) → List (Key w)) (i : Nat) : Nat → List (Key w → Key w) → List (Key w) → Res (List (Key w))
  | _, [], tbl => .ok tbl
  | j, f :: fs, tbl => do
    let tbl := H (i, j) tbl
    let k ← rd tbl i
    let tbl ← wr tbl i (f k)
    storesI H i (j + 1) fs tbl

/-- The loop of `keypad_reset_keys`, keypad.c:89-98, from key `i` on. -/
def resetLoopI (H : Nat × Nat → List (Key w) → List (Key w)) : Nat → Nat → List (Key w) → Res (List (Key w))
  | 0, _, _ => .diverge
  | fuel + 1, i, tbl => do
    let k ← rd tbl i
    if k.bitvalue = 0 then .ok (H (i, 0) tbl)
    else do
      let tbl ← storesI H i 0 stores tbl
      resetLoopI H fuel (i + 1) tbl

/-- `keypad_reset_keys`, keypad.c:87-99. A table without an end is run off before the bound is reached. -/
def resetI (H : Nat × Nat → List (Key w) → List (Key w)) (tbl : List (Key w)) : Res (List (Key w)) := resetLoopI H (tbl.length + 1) 0 tbl

/-- A key after the first `j` stores. -/
def firstStores (j : Nat) (k : Key w) : Key w := (stores.take j).foldl (fun k f => f k) k

/-- A key after the stores from `j` on. -/
def lastStores (j : Nat) (k : Key w) : Key w := (stores.drop j).foldl (fun k f => f k) k

/-- The handler does `f` at point `p` and nothing at the others. -/
def onceAt (p : Nat × Nat) (f : List (Key w) → List (Key w)) : Nat × Nat → List (Key w) → List (Key w) :=
  fun q tbl => if q = p then f tbl else tbl

/-- The handler's `keypad_routine`. -/
def routineH (a : Args w) (tbl : List (Key w)) : List (Key w) :=
  match routine tbl a with
  | .ok (tbl, _) => tbl
  | _ => tbl

theorem upd_mid {pre tl : List (Key w)} {k : Key w} (f : Key w → Key w) (g : List (Key w) → Res (List (Key w))) :
    (do let x ← rd (pre ++ k :: tl) pre.length; let tbl ← wr (pre ++ k :: tl) pre.length (f x); g tbl) = g (pre ++ f k :: tl) := by
  rw [rd, List.getElem?_append_right (by simp)]
  simp only [Nat.sub_self, List.getElem?_cons_zero, Res.ok_bind]
  rw [wr, if_pos (by simp), List.set_append_right _ _ (by simp)]
  simp

/-- Stores without a handler. -/
theorem storesI_quiet {H : Nat × Nat → List (Key w) → List (Key w)} {pre tl : List (Key w)} : ∀ (fs : List (Key w → Key w)) (j : Nat) (k : Key w),
    (∀ m tbl, j ≤ m → H (pre.length, m) tbl = tbl) →
    storesI H pre.length j fs (pre ++ k :: tl) = .ok (pre ++ fs.foldl (fun k f => f k) k :: tl) := by
  intro fs
  induction fs with
  | nil => intro j k _; rfl
  | cons f fs ih =>
    intro j k h
    rw [storesI]
    simp only [h j _ (Nat.le_refl _)]
    rw [upd_mid f (storesI H pre.length (j + 1) fs)]
    rw [ih (j + 1) (f k) fun m tbl hm => h m tbl (by omega)]
    rfl

theorem fresh_stores (k : Key w) : stores.foldl (fun k f => f k) k = fresh k := rfl

/-- The loop without a handler from key `i` on. -/
theorem resetLoopI_quiet {H : Nat × Nat → List (Key w) → List (Key w)} {t : Key w} {rest : List (Key w)} (ht : t.bitvalue = 0) :
    ∀ (ks pre : List (Key w)) (fuel : Nat), (∀ k ∈ ks, k.bitvalue ≠ 0) → ks.length < fuel →
      (∀ p tbl, pre.length ≤ p.1 → H p tbl = tbl) →
      resetLoopI H fuel pre.length (pre ++ (ks ++ t :: rest)) = .ok (pre ++ (ks.map fresh ++ t :: rest)) := by
  intro ks
  induction ks with
  | nil =>
    intro pre fuel _ hf h
    obtain ⟨fuel, rfl⟩ : ∃ f, fuel = f + 1 := ⟨fuel - 1, by simp at hf; omega⟩
    rw [resetLoopI, rd, List.getElem?_append_right (by simp)]
    simp only [Nat.sub_self, List.nil_append, List.getElem?_cons_zero, Res.ok_bind, if_pos ht, h (pre.length, 0) _ (Nat.le_refl _), List.map_nil]
  | cons k ks ih =>
    intro pre fuel hk hf h
    obtain ⟨fuel, rfl⟩ : ∃ f, fuel = f + 1 := ⟨fuel - 1, by simp at hf; omega⟩
    rw [resetLoopI, rd, List.getElem?_append_right (by simp)]
    simp only [Nat.sub_self, List.cons_append, List.getElem?_cons_zero, Res.ok_bind, if_neg (hk k (by simp))]
    rw [storesI_quiet _ _ _ fun m tbl _ => h _ _ (Nat.le_refl _), Res.ok_bind, fresh_stores]
    have := ih (pre ++ [fresh k]) fuel (fun x hx => hk x (by simp [hx])) (by simp at hf; omega)
      (fun p tbl hp => h p tbl (by simp at hp; omega))
    simpa using this

/-- **C211.** Without a handler this is the reset of the first model (of a table with an end). -/
theorem C211_quiet (tbl ks : List (Key w)) (h : Table tbl ks) : resetI (fun _ tbl => tbl) tbl = reset tbl := by
  obtain ⟨hk, t, rest, ht, rfl⟩ := h
  rw [reset_eq t rest ht ks hk, resetI]
  exact resetLoopI_quiet ht ks [] _ hk (by simp; omega) fun _ _ _ => rfl

/-- Stores with a handler before store `m`. -/
theorem storesI_once {f : List (Key w) → List (Key w)} {pre pre' tl tl' : List (Key w)} {k' : Key w} (hl : pre'.length = pre.length) :
    ∀ (fs : List (Key w → Key w)) (j m : Nat) (k : Key w), m < fs.length →
    f (pre ++ (fs.take m).foldl (fun k f => f k) k :: tl) = pre' ++ k' :: tl' →
    storesI (onceAt (pre.length, j + m) f) pre.length j fs (pre ++ k :: tl) = .ok (pre' ++ (fs.drop m).foldl (fun k f => f k) k' :: tl') := by
  intro fs
  induction fs with
  | nil => intro j m k hm; simp at hm
  | cons g fs ih =>
    intro j m k hm h
    rw [storesI]
    cases m with
    | zero =>
      simp only [Nat.add_zero, onceAt, if_true]
      simp only [List.take_zero, List.foldl_nil] at h
      rw [h, ← hl, upd_mid g]
      exact storesI_quiet fs (j + 1) (g k') fun m' tbl hm' => if_neg (by simp; omega)
    | succ m =>
      have hq : onceAt (pre.length, j + (m + 1)) f (pre.length, j) (pre ++ k :: tl) = pre ++ k :: tl := if_neg (by simp)
      simp only [hq]
      rw [upd_mid g, show j + (m + 1) = j + 1 + m by omega]
      exact ih (j + 1) m (g k) (by simpa using hm) (by simpa using h)

/-- **C211.** What the table is after a reset with a handler at point `(i, j)` which makes `pre' ++ k' :: (post' ++ t' :: rest')` of the
table it finds, with the same bitmaps: earlier keys are as the handler left them, key `i` as it left it with the stores that were missing,
later keys are reset. -/
theorem C211_exact {f : List (Key w) → List (Key w)} (pre post pre' post' rest rest' : List (Key w)) (k k' t t' : Key w) (j : Nat) (hj : j < 6)
    (hpre : ∀ x ∈ pre, x.bitvalue ≠ 0) (hk : k.bitvalue ≠ 0) (hpost : ∀ x ∈ post', x.bitvalue ≠ 0) (ht : t'.bitvalue = 0)
    (hl : pre'.length = pre.length) (hl' : post'.length = post.length)
    (h : f (pre.map fresh ++ firstStores j k :: (post ++ t :: rest)) = pre' ++ k' :: (post' ++ t' :: rest')) :
    resetI (onceAt (pre.length, j) f) (pre ++ k :: (post ++ t :: rest)) =
      .ok (pre' ++ lastStores j k' :: (post'.map fresh ++ t' :: rest')) := by
  have main : ∀ (ks dn : List (Key w)) (fuel : Nat), (∀ x ∈ ks, x.bitvalue ≠ 0) → dn.length + ks.length = pre.length →
      f (dn ++ (ks.map fresh ++ firstStores j k :: (post ++ t :: rest))) = pre' ++ k' :: (post' ++ t' :: rest') →
      ks.length + post.length + 2 ≤ fuel →
      resetLoopI (onceAt (pre.length, j) f) fuel dn.length (dn ++ (ks ++ k :: (post ++ t :: rest))) =
        .ok (pre' ++ lastStores j k' :: (post'.map fresh ++ t' :: rest')) := by
    intro ks
    induction ks with
    | nil =>
      intro dn fuel _ hd hf hfu
      obtain ⟨fuel, rfl⟩ : ∃ f, fuel = f + 1 := ⟨fuel - 1, by omega⟩
      rw [resetLoopI, rd, List.getElem?_append_right (by simp)]
      simp only [Nat.sub_self, List.nil_append, List.getElem?_cons_zero, Res.ok_bind, if_neg hk]
      have hdl : pre.length = dn.length := by simpa using hd.symm
      have e := storesI_once (f := f) (pre := dn) (pre' := pre') (tl := post ++ t :: rest) (tl' := post' ++ t' :: rest') (k' := k')
        (by omega) stores 0 j k (by exact hj) (by simpa [firstStores] using hf)
      rw [Nat.zero_add, ← hdl] at e
      rw [← hdl, e, Res.ok_bind]
      have e2 := resetLoopI_quiet (H := onceAt (pre.length, j) f) (t := t') (rest := rest') ht post' (pre' ++ [lastStores j k']) fuel hpost
        (by simp at hfu; omega) (fun p tbl hp => if_neg (fun h => by
          rw [h] at hp
          simp at hp
          omega))
      rw [List.length_append, hl] at e2
      simpa [lastStores] using e2
    | cons x ks ih =>
      intro dn fuel hx hd hf hfu
      obtain ⟨fuel, rfl⟩ : ∃ f, fuel = f + 1 := ⟨fuel - 1, by omega⟩
      rw [resetLoopI, rd, List.getElem?_append_right (by simp)]
      simp only [Nat.sub_self, List.cons_append, List.getElem?_cons_zero, Res.ok_bind, if_neg (hx x (by simp))]
      simp only [List.length_cons] at hd hfu
      rw [storesI_quiet _ _ _ fun m tbl _ => if_neg (by simp; omega), Res.ok_bind, fresh_stores]
      have := ih (dn ++ [fresh x]) fuel (fun y hy => hx y (by simp [hy])) (by simp; omega) (by simpa using hf) (by omega)
      simpa using this
  have := main pre [] ((pre ++ k :: (post ++ t :: rest)).length + 1) hpre (by simp) (by simpa using h) (by simp; omega)
  rw [resetI]
  simpa using this

/-- **C211.** A handler after the last store runs after the reset. -/
theorem C211_end {f : List (Key w) → List (Key w)} (tbl ks : List (Key w)) (h : Table tbl ks) :
    ∃ tbl', reset tbl = .ok tbl' ∧ resetI (onceAt (ks.length, 0) f) tbl = .ok (f tbl') := by
  obtain ⟨hk, t, rest, ht, rfl⟩ := h
  refine ⟨_, reset_eq t rest ht ks hk, ?_⟩
  have main : ∀ (ks' dn : List (Key w)) (fuel : Nat), (∀ x ∈ ks', x.bitvalue ≠ 0) → dn.length + ks'.length = ks.length → ks'.length + 1 ≤ fuel →
      resetLoopI (onceAt (ks.length, 0) f) fuel dn.length (dn ++ (ks' ++ t :: rest)) = .ok (f (dn ++ (ks'.map fresh ++ t :: rest))) := by
    intro ks'
    induction ks' with
    | nil =>
      intro dn fuel _ hd hfu
      obtain ⟨fuel, rfl⟩ : ∃ f, fuel = f + 1 := ⟨fuel - 1, by omega⟩
      have hdl : dn.length = ks.length := by simpa using hd
      rw [resetLoopI, rd, List.getElem?_append_right (by simp)]
      simp only [Nat.sub_self, List.nil_append, List.getElem?_cons_zero, Res.ok_bind, if_pos ht, onceAt, hdl, if_true, List.map_nil]
    | cons x ks' ih =>
      intro dn fuel hx hd hfu
      obtain ⟨fuel, rfl⟩ : ∃ f, fuel = f + 1 := ⟨fuel - 1, by omega⟩
      rw [resetLoopI, rd, List.getElem?_append_right (by simp)]
      simp only [Nat.sub_self, List.cons_append, List.getElem?_cons_zero, Res.ok_bind, if_neg (hx x (by simp))]
      simp only [List.length_cons] at hd hfu
      rw [storesI_quiet _ _ _ fun m tbl _ => if_neg (by simp; omega), Res.ok_bind, fresh_stores]
      have := ih (dn ++ [fresh x]) fuel (fun y hy => hx y (by simp [hy])) (by simp; omega) (by omega)
      simpa using this
  have := main ks [] ((ks ++ t :: rest).length + 1) hk (by simp) (by simp)
  rw [resetI]
  simpa using this

/-! ## Calls after a reset -/

/-- The table after `n` more calls. -/
def runFrom (tbl : List (Key w)) (as : Nat → Args w) : Nat → Res (List (Key w))
  | 0 => .ok tbl
  | n + 1 => do
    let tbl ← runFrom tbl as n
    let (tbl, _) ← routine tbl (as n)
    pure tbl

/-- What call `n` of them returns. -/
def outFrom (tbl : List (Key w)) (as : Nat → Args w) (n : Nat) : Res (Int × Event) := do
  let tbl ← runFrom tbl as n
  let (_, r) ← routine tbl (as n)
  pure r

/-- The keypad of the specification before call `n`, from a state on. -/
def padFrom (bits : List (BitVec w)) (as : Nat → Args w) (τ : Nat → Nat) (s : Pad) : Nat → Pad
  | 0 => s
  | n + 1 => ((padFrom bits as τ s n).call bits as τ n).1

/-- As `Calls`, from a state on. -/
structure CallsFrom (ks : List (Key w)) (as : Nat → Args w) (τ : Nat → Nat) (s : Pad) : Prop where
  mono : ∀ n, τ n ≤ τ (n + 1)
  stamp : ∀ n, (as n).timestamp = BitVec.ofNat w (τ n)
  click : ∀ n, (as n).click.toNat ≤ (as n).longclick.toNat
  long : ∀ n, 2 * (as n).longclick.toNat < 2 ^ w
  period : ∀ n, 2 * (as n).period.toNat < 2 ^ w
  near : ∀ n, ∀ r ∈ (padFrom (ks.map (·.bitvalue)) as τ s n).2.refs, 2 * τ n ≤ 2 * r + 2 ^ w

theorem ref_from {ks sts rest : List (Key w)} {tm : Key w} (ht : tm.bitvalue = 0) (hnz : ∀ k ∈ ks, k.bitvalue ≠ 0)
    (hnd : (ks.map (·.bitvalue)).Nodup) {as : Nat → Args w} {τ : Nat → Nat} {s : Pad} {sh : Nat → Bool} (hr : Ref ks sts s sh (τ 0))
    (hc : CallsFrom ks as τ s) (n : Nat) :
    ∃ c, outFrom (sts ++ tm :: rest) as n =
        .ok (c, ((padFrom (ks.map (·.bitvalue)) as τ s n).call (ks.map (·.bitvalue)) as τ n).2.2) ∧
      (((padFrom (ks.map (·.bitvalue)) as τ s n).call (ks.map (·.bitvalue)) as τ n).2.2 ≠ .nothing →
        ks[((padFrom (ks.map (·.bitvalue)) as τ s n).call (ks.map (·.bitvalue)) as τ n).2.1]?.map (·.code) = some c) := by
  have main : ∀ n, ∃ sts' sh', runFrom (sts ++ tm :: rest) as n = .ok (sts' ++ tm :: rest) ∧
      Ref ks sts' (padFrom (ks.map (·.bitvalue)) as τ s n) sh' (τ n) := by
    intro n
    induction n with
    | zero => exact ⟨sts, sh, rfl, hr⟩
    | succ n ih =>
      obtain ⟨sts', sh', e, hr⟩ := ih
      obtain ⟨sts'', c, e', _, hr'⟩ := ref_step (as n) tm rest ht hnz hnd (τ n) (Nat.le_refl _) (hc.stamp n) (hc.near n)
        (hc.click n) (hc.long n) (hc.period n) hr
      refine ⟨sts'', showNext (ks.map (·.bitvalue)) (padFrom (ks.map (·.bitvalue)) as τ s n) (as n).bitvalue sh',
        by rw [runFrom, e, Res.ok_bind, e']; rfl, ?_⟩
      exact ⟨hr'.len, hr'.lt, hr'.key, hr'.val, fun r h => Nat.le_trans (hr'.refs r h) (hc.mono n)⟩
  obtain ⟨sts', sh', e, hr'⟩ := main n
  obtain ⟨_, c, e', hcode, _⟩ := ref_step (as n) tm rest ht hnz hnd (τ n) (Nat.le_refl _) (hc.stamp n) (hc.near n)
    (hc.click n) (hc.long n) (hc.period n) hr'
  exact ⟨c, by rw [outFrom, e, Res.ok_bind, e']; rfl, hcode⟩

/-- A key that was reset, after a call. -/
theorem fresh_step {a : Args w} {k k' : Key w} {t : Nat} (hts : a.timestamp = BitVec.ofNat w t) :
    (passed a.bitvalue (fresh k) k' → Rel k k' .idle) ∧
    (∀ k1 e, seen a.bitvalue (fresh k) k1 → process a k1 = (k', e) → k.bitvalue = a.bitvalue ∧ e = .press ∧ Rel k k' (.pressed t)) := by
  constructor
  · rintro (h | ⟨_, h⟩) <;> subst h <;> exact ⟨rfl, rfl, rfl, Or.inl rfl⟩
  · intro k1 e h hp
    rcases h with ⟨hb, h⟩ | ⟨_, h, _⟩ | ⟨_, _, _, h, _⟩
    · subst h
      have hp' : process a { fresh k with value := true } =
          ({ fresh k with value := true, ignore := false, oldvalue := true, timeState := a.timestamp, lastevent := .press }, .press) := by
        simp [process, fresh]
      rw [hp'] at hp
      injection hp with h1 h2
      subst h1
      exact ⟨hb, h2.symm, rfl, rfl, rfl, rfl, rfl, hts⟩
    · cases h
    · exact absurd rfl h

/-- The key that is being reset, after a call and the missing stores. -/
theorem mid_step {a : Args w} {k k' : Key w} {j : Nat} (hj : j < 6) (hsafe : j ≤ 2 ∨ k.bitvalue ≠ a.bitvalue ∨ j = 3 ∧ k.oldvalue = true)
    (h : passed a.bitvalue (firstStores j k) k' ∨ ∃ k1 e, seen a.bitvalue (firstStores j k) k1 ∧ process a k1 = (k', e)) :
    Rel k (lastStores j k') .idle := by
  have hid : k'.bitvalue = k.bitvalue ∧ k'.code = k.code := by
    have h0 : (firstStores j k).bitvalue = k.bitvalue ∧ (firstStores j k).code = k.code := by
      have : j = 0 ∨ j = 1 ∨ j = 2 ∨ j = 3 ∨ j = 4 ∨ j = 5 := by omega
      rcases this with rfl | rfl | rfl | rfl | rfl | rfl <;> exact ⟨rfl, rfl⟩
    rcases h with h | ⟨k1, e, h, hp⟩
    · exact ⟨(passed_id h).1.trans h0.1, (passed_id h).2.trans h0.2⟩
    · have h1 := seen_id h
      have h2 := process_id a k1
      rw [hp] at h2
      exact ⟨h2.1.trans (h1.1.trans h0.1), h2.2.trans (h1.2.trans h0.2)⟩
  obtain ⟨i1, i2⟩ := hid
  have hj' : j = 0 ∨ j = 1 ∨ j = 2 ∨ j = 3 ∨ j = 4 ∨ j = 5 := by omega
  rcases hj' with rfl | rfl | rfl | rfl | rfl | rfl
  · exact ⟨i1, i2, rfl, Or.inl rfl⟩
  · exact ⟨i1, i2, rfl, Or.inl rfl⟩
  · exact ⟨i1, i2, rfl, Or.inl rfl⟩
  · refine ⟨i1, i2, rfl, Or.inl ?_⟩
    have hb : k.bitvalue = a.bitvalue → k.oldvalue = true := fun h => by
      rcases hsafe with h' | h' | h'
      · omega
      · exact absurd h h'
      · exact h'.2
    show k'.lastevent = .nothing
    rcases h with (h | ⟨_, h⟩) | ⟨k1, e, (⟨hb', h⟩ | ⟨_, ho, h⟩ | ⟨_, _, _, h, _⟩), hp⟩
    · rw [h]; rfl
    · rw [h]; rfl
    · have ho' : k.oldvalue = true := hb hb'
      have : (process a k1).1.lastevent = .nothing := by
        rw [h]
        simp only [process, firstStores, stores, ho']
        cases k.ignore <;> simp [ho']
      rw [hp] at this
      exact this
    · have ho' : k.oldvalue = true := ho
      have : (process a k1).1.lastevent = .nothing := by
        rw [h]
        simp [process, firstStores, stores, ho']
      rw [hp] at this
      exact this
    · exact absurd rfl h
  · have hb : k.bitvalue ≠ a.bitvalue := by simpa using hsafe
    rcases h with (h | ⟨h, _⟩) | ⟨k1, e, (⟨h, _⟩ | ⟨_, ho, h⟩ | ⟨_, _, _, h, _⟩), hp⟩
    · rw [h]; exact ⟨rfl, rfl, rfl, Or.inl rfl⟩
    · exact absurd h hb
    · exact absurd h hb
    · cases ho
    · exact absurd rfl h
  · have hb : k.bitvalue ≠ a.bitvalue := by simpa using hsafe
    rcases h with (h | ⟨h, _⟩) | ⟨k1, e, (⟨h, _⟩ | ⟨_, ho, h⟩ | ⟨_, _, _, h, _⟩), hp⟩
    · rw [h]; exact ⟨rfl, rfl, rfl, Or.inl rfl⟩
    · exact absurd h hb
    · exact absurd h hb
    · cases ho
    · exact absurd rfl h

theorem stores_id (j : Nat) (hj : j < 6) (k : Key w) : (firstStores j k).bitvalue = k.bitvalue := by
  have : j = 0 ∨ j = 1 ∨ j = 2 ∨ j = 3 ∨ j = 4 ∨ j = 5 := by omega
  rcases this with rfl | rfl | rfl | rfl | rfl | rfl <;> rfl

/-- **C211** (partial). A reset with a call of `keypad_routine` by a handler before one of the first three stores to a key, or with a bitmap
that is not that of the key being reset, or before the fourth store to a key that was down: all calls afterwards report exactly what is due (C120) from the state in which no key is reported
on, or one that the handler's call reported PRESS for. Missing: the bitmap of the key that is being reset comes at the other points, for
which it is false (`C211_stuck_wrong`, `C211_click_wrong`). -/
theorem C211_partial (pre post rest : List (Key w)) (k t : Key w) (a : Args w) (j t0 : Nat) (hj : j < 6)
    (hnz : ∀ x ∈ pre ++ k :: post, x.bitvalue ≠ 0) (hnd : ((pre ++ k :: post).map (·.bitvalue)).Nodup) (ht : t.bitvalue = 0)
    (hts : a.timestamp = BitVec.ofNat w t0) (hsafe : j ≤ 2 ∨ k.bitvalue ≠ a.bitvalue ∨ j = 3 ∧ k.oldvalue = true) :
    ∃ tbl' s, resetI (onceAt (pre.length, j) (routineH a)) (pre ++ k :: (post ++ t :: rest)) = .ok tbl' ∧
      (s.2 = .idle ∨ s.2 = .pressed t0 ∧ (pre ++ k :: post)[s.1]?.map (·.bitvalue) = some a.bitvalue) ∧
      ∀ as τ, t0 ≤ τ 0 → CallsFrom (pre ++ k :: post) as τ s → ∀ n, ∃ c, outFrom tbl' as n =
          .ok (c, ((padFrom ((pre ++ k :: post).map (·.bitvalue)) as τ s n).call ((pre ++ k :: post).map (·.bitvalue)) as τ n).2.2) ∧
        (((padFrom ((pre ++ k :: post).map (·.bitvalue)) as τ s n).call ((pre ++ k :: post).map (·.bitvalue)) as τ n).2.2 ≠ .nothing →
          (pre ++ k :: post)[((padFrom ((pre ++ k :: post).map (·.bitvalue)) as τ s n).call
            ((pre ++ k :: post).map (·.bitvalue)) as τ n).2.1]?.map (·.code) = some c) := by
  have hk : k.bitvalue ≠ 0 := hnz k (by simp)
  have hpre : ∀ x ∈ pre, x.bitvalue ≠ 0 := fun x hx => hnz x (by simp [hx])
  have hpost : ∀ x ∈ post, x.bitvalue ≠ 0 := fun x hx => hnz x (by simp [hx])
  -- the handler's call
  obtain ⟨ks', c, e, hrt, hlen, hcase⟩ := routine_eq a (pre.map fresh ++ firstStores j k :: post) t rest ht (by
    intro x hx
    rcases List.mem_append.1 hx with hx | hx
    · obtain ⟨y, hy, rfl⟩ := List.mem_map.1 hx
      exact hpre y hy
    · rcases List.mem_cons.1 hx with rfl | hx
      · rw [stores_id j hj]; exact hk
      · exact hpost x hx)
  -- what it does to a key, and that it reports on one key only
  have hst : ∃ f : Option Nat, ∀ m x x', (pre.map fresh ++ firstStores j k :: post)[m]? = some x → ks'[m]? = some x' →
      (f ≠ some m → passed a.bitvalue x x') ∧
      (passed a.bitvalue x x' ∨ ∃ k1 e, seen a.bitvalue x k1 ∧ process a k1 = (x', e)) ∧ (f = some m → ∃ k1 e, seen a.bitvalue x k1 ∧ process a k1 = (x', e)) := by
    rcases hcase with ⟨_, hp⟩ | ⟨f, kf, hf, _, hs, hp⟩
    · exact ⟨none, fun m x x' h1 h2 => ⟨fun _ => hp m x x' h1 h2, Or.inl (hp m x x' h1 h2), fun h => by cases h⟩⟩
    · refine ⟨some f, fun m x x' h1 h2 => ?_⟩
      by_cases hm : m = f
      · subst hm
        rw [hf] at h1
        cases h1
        obtain ⟨k1, hk1, hk2⟩ := hs x' h2
        exact ⟨fun h => absurd rfl h, Or.inr ⟨k1, e, hk1, hk2⟩, fun _ => ⟨k1, e, hk1, hk2⟩⟩
      · exact ⟨fun _ => hp m x x' hm h1 h2, Or.inl (hp m x x' hm h1 h2), fun h => absurd (Option.some.inj h).symm hm⟩
  obtain ⟨f, hst⟩ := hst
  simp only [List.length_append, List.length_map, List.length_cons] at hlen
  have hi : pre.length < ks'.length := by omega
  have hsplit : ks' = ks'.take pre.length ++ ks'[pre.length] :: ks'.drop (pre.length + 1) := by
    rw [← List.drop_eq_getElem_cons hi, List.take_append_drop]
  have hid : ∀ (m : Nat) (x x' : Key w), (pre.map fresh ++ firstStores j k :: post)[m]? = some x → ks'[m]? = some x' → x'.bitvalue = x.bitvalue ∧ x'.code = x.code := by
    intro m x x' h1 h2
    rcases (hst m x x' h1 h2).2.1 with h | ⟨k1, e, h, hp⟩
    · exact passed_id h
    · have g1 := seen_id h
      have g2 := process_id a k1
      rw [hp] at g2
      exact ⟨g2.1.trans g1.1, g2.2.trans g1.2⟩
  have hpost' : ∀ m, (ks'.drop (pre.length + 1))[m]? = ks'[pre.length + 1 + m]? := fun m => by rw [List.getElem?_drop]
  have hget : ∀ m, (pre.map fresh ++ firstStores j k :: post)[pre.length + 1 + m]? = post[m]? := by
    intro m
    rw [List.getElem?_append_right (by simp; omega)]
    simp only [List.length_map, show pre.length + 1 + m - pre.length = m + 1 by omega, List.getElem?_cons_succ]
  have hgi : (pre.map fresh ++ firstStores j k :: post)[pre.length]? = some (firstStores j k) := by
    rw [List.getElem?_append_right (by simp)]
    simp
  have hgl : ∀ m, m < pre.length → (pre.map fresh ++ firstStores j k :: post)[m]? = pre[m]?.map fresh := by
    intro m hm
    rw [List.getElem?_append_left (by simpa using hm), List.getElem?_map]
  have ex := C211_exact (f := routineH a) pre post (ks'.take pre.length) (ks'.drop (pre.length + 1)) rest rest k ks'[pre.length] t t j hj hpre hk
    (by
      intro x hx
      obtain ⟨m, hm⟩ := List.getElem?_of_mem hx
      rw [hpost'] at hm
      have hm' : m < post.length := by
        obtain ⟨h, _⟩ := List.getElem?_eq_some_iff.1 hm
        omega
      have := (hid _ post[m] x (by rw [hget, List.getElem?_eq_getElem hm']) hm).1
      rw [this]
      exact hpost _ (List.getElem_mem _)) ht (by rw [List.length_take]; omega) (by rw [List.length_drop]; omega)
    (by
      rw [routineH]
      have : pre.map fresh ++ firstStores j k :: (post ++ t :: rest) = (pre.map fresh ++ firstStores j k :: post) ++ t :: rest := by simp
      rw [this, hrt]
      show ks' ++ t :: rest = _
      have h := congrArg (· ++ t :: rest) hsplit
      simpa only [List.append_assoc, List.cons_append] using h)
  refine ⟨_, if hf : ∃ m, f = some m ∧ m < pre.length then (hf.choose, .pressed t0) else (0, .idle), ex, ?_, ?_⟩
  · split_ifs with hf
    · right
      obtain ⟨h1, h2⟩ := hf.choose_spec
      refine ⟨rfl, ?_⟩
      have h2' : hf.choose < ks'.length := by omega
      obtain ⟨k1, e', hs, hp⟩ := (hst hf.choose (fresh pre[hf.choose]) ks'[hf.choose] (by rw [hgl _ h2, List.getElem?_eq_getElem h2]; rfl)
        (List.getElem?_eq_getElem h2')).2.2 h1
      have := ((fresh_step (k := pre[hf.choose]) (k' := ks'[hf.choose]) hts).2 k1 e' hs hp).1
      simp only
      rw [List.getElem?_append_left h2, List.getElem?_eq_getElem h2, Option.map_some, this]
    · exact Or.inl rfl
  · intro as τ htau hc n
    have hR : Ref (pre ++ k :: post) (ks'.take pre.length ++ lastStores j ks'[pre.length] :: (ks'.drop (pre.length + 1)).map fresh)
        (if hf : ∃ m, f = some m ∧ m < pre.length then (hf.choose, .pressed t0) else (0, .idle))
        (fun m => ((ks'.take pre.length ++ lastStores j ks'[pre.length] :: (ks'.drop (pre.length + 1)).map fresh)[m]?.map (·.value)).getD false) (τ 0) := by
      have hlt : (ks'.take pre.length).length = pre.length := by rw [List.length_take]; omega
      have hother : ∀ m (h : m < (pre ++ k :: post).length)
          (h' : m < (ks'.take pre.length ++ lastStores j ks'[pre.length] :: (ks'.drop (pre.length + 1)).map fresh).length),
          (f ≠ some m ∨ pre.length ≤ m) → Rel (pre ++ k :: post)[m] (ks'.take pre.length ++ lastStores j ks'[pre.length] ::
            (ks'.drop (pre.length + 1)).map fresh)[m] .idle := by
        intro m h h' hm
        rcases Nat.lt_trichotomy m pre.length with hlt' | heq | hgt
        · have hm' : m < ks'.length := by omega
          have hp := (hst m (fresh pre[m]) ks'[m] (by rw [hgl _ hlt', List.getElem?_eq_getElem hlt']; rfl) (List.getElem?_eq_getElem hm')).1
            (by rcases hm with hm | hm; exact hm; omega)
          have := (fresh_step (k := pre[m]) (k' := ks'[m]) hts).1 hp
          simp only [List.getElem_append_left hlt', List.getElem_append_left (show m < (ks'.take pre.length).length by omega), List.getElem_take]
          exact this
        · subst heq
          have := mid_step hj hsafe ((hst pre.length _ _ hgi (List.getElem?_eq_getElem hi)).2.1)
          have e1 : (ks'.take pre.length ++ lastStores j ks'[pre.length] :: (ks'.drop (pre.length + 1)).map fresh)[pre.length] =
              lastStores j ks'[pre.length] := by
            rw [List.getElem_append_right (by omega)]
            simp [hlt]
          rw [e1]
          simpa using this
        · obtain ⟨q, rfl⟩ : ∃ q, m = pre.length + 1 + q := ⟨m - pre.length - 1, by omega⟩
          have hq : q < post.length := by simp at h; omega
          have hq' : pre.length + 1 + q < ks'.length := by omega
          have e1 : (ks'.take pre.length ++ lastStores j ks'[pre.length] :: (ks'.drop (pre.length + 1)).map fresh)[pre.length + 1 + q] =
              fresh ks'[pre.length + 1 + q] := by
            rw [List.getElem_append_right (by omega)]
            simp only [hlt, show pre.length + 1 + q - pre.length = q + 1 by omega, List.getElem_cons_succ, List.getElem_map, List.getElem_drop]
          have e2 : (pre ++ k :: post)[pre.length + 1 + q] = post[q] := by
            rw [List.getElem_append_right (by omega)]
            simp only [show pre.length + 1 + q - pre.length = q + 1 by omega, List.getElem_cons_succ]
          rw [e1, e2]
          have := hid (pre.length + 1 + q) post[q] ks'[pre.length + 1 + q] (by rw [hget, List.getElem?_eq_getElem hq]) (List.getElem?_eq_getElem hq')
          exact ⟨this.1, this.2, rfl, Or.inl rfl⟩
      refine ⟨by simp [hlt]; omega, ?_, ?_, ?_, ?_⟩
      · split_ifs with hf
        · intro _
          have := hf.choose_spec.2
          simp
          omega
        · intro h
          exact absurd rfl h
      · intro m h h'
        split_ifs with hf hm hm
        · subst hm
          obtain ⟨h1, h2⟩ := hf.choose_spec
          have h2' : hf.choose < ks'.length := by omega
          obtain ⟨k1, e', hs, hp⟩ := (hst hf.choose (fresh pre[hf.choose]) ks'[hf.choose] (by rw [hgl _ h2, List.getElem?_eq_getElem h2]; rfl)
            (List.getElem?_eq_getElem h2')).2.2 h1
          have := ((fresh_step (k := pre[hf.choose]) (k' := ks'[hf.choose]) hts).2 k1 e' hs hp).2.2
          simp only [List.getElem_append_left h2, List.getElem_append_left (show hf.choose < (ks'.take pre.length).length by omega), List.getElem_take]
          exact this
        · refine hother m h h' (Or.inl fun hfm => hm ?_)
          exact (Option.some.inj (hfm.symm.trans hf.choose_spec.1)).symm
        · refine hother m h h' ?_
          by_cases hml : m < pre.length
          · exact Or.inl fun hfm => hf ⟨m, hfm, hml⟩
          · exact Or.inr (by omega)
        · refine hother m h h' ?_
          by_cases hml : m < pre.length
          · exact Or.inl fun hfm => hf ⟨m, hfm, hml⟩
          · exact Or.inr (by omega)
      · intro m h'
        rw [List.getElem?_eq_getElem h']
        rfl
      · split_ifs with hf
        · intro r hr
          simp [Phase.refs] at hr
          omega
        · intro r hr
          simp [Phase.refs] at hr
    have := ref_from (rest := rest) ht hnz hnd hR hc n
    simpa using this

/-- After a reset all keys are in rest. -/
theorem fresh_idle {ks : List (Key w)} (h : ∀ x ∈ ks, x.bitvalue ≠ 0) : ∀ x ∈ ks.map fresh, x.bitvalue ≠ 0 ∧ Idle x := by
  intro x hx
  obtain ⟨y, hy, rfl⟩ := List.mem_map.1 hx
  exact ⟨h y hy, rfl, Or.inl rfl⟩

theorem touch_idle {bv : BitVec w} {ks : List (Key w)} (h : ∀ x ∈ ks, x.bitvalue ≠ 0 ∧ Idle x) :
    ∀ x ∈ ks.map (touch bv), x.bitvalue ≠ 0 ∧ Idle x := by
  intro x hx
  obtain ⟨y, hy, rfl⟩ := List.mem_map.1 hx
  rw [touch]
  split
  · exact h y hy
  · exact h y hy

/-- The call by the handler, with the bitmap of the key that is being reset. -/
theorem handler_press (pre post rest : List (Key w)) (k t : Key w) (a : Args w) (j : Nat) (hj : j = 3 ∨ j = 4 ∨ j = 5) (ht : t.bitvalue = 0)
    (hpre : ∀ x ∈ pre, x.bitvalue ≠ 0) (hpost : ∀ x ∈ post, x.bitvalue ≠ 0 ∧ Idle x) (hk : k.bitvalue ≠ 0) (hb : k.bitvalue = a.bitvalue)
    (hd : ∀ x ∈ pre ++ post, x.bitvalue ≠ a.bitvalue) (ho : j = 3 → k.oldvalue = false) :
    routine (pre.map fresh ++ firstStores j k :: (post ++ t :: rest)) a =
      .ok (pre.map fresh ++ { firstStores j k with value := true, ignore := false, oldvalue := true, timeState := a.timestamp, lastevent := .press } ::
        (post ++ t :: rest), k.code, .press) := by
  have hid : (firstStores j k).bitvalue = k.bitvalue ∧ (firstStores j k).code = k.code ∧ (firstStores j k).oldvalue = false := by
    rcases hj with rfl | rfl | rfl
    · exact ⟨rfl, rfl, ho rfl⟩
    · exact ⟨rfl, rfl, rfl⟩
    · exact ⟨rfl, rfl, rfl⟩
  have hd' : ∀ x ∈ pre.map fresh, x.bitvalue ≠ a.bitvalue := by
    intro x hx
    obtain ⟨y, hy, rfl⟩ := List.mem_map.1 hx
    exact hd y (by simp [hy])
  have := routine_active a (pre.map fresh) post (firstStores j k) t rest ht (fresh_idle hpre) hpost (by rw [hid.1]; exact hk)
    (Or.inl ⟨hid.1.trans hb, fun x hx => by
      rcases List.mem_append.1 hx with hx | hx
      · exact hd' x hx
      · exact hd x (by simp [hx])⟩)
  rw [this, touch_none _ _ hd']
  generalize firstStores j k = k3 at hid
  have hp : one a k3 = ({ k3 with value := true, ignore := false, oldvalue := true, timeState := a.timestamp, lastevent := .press }, k3.code, .press) := by
    simp [one, process, hid.2.2, hid.1.trans hb]
  rw [hp]
  simp only [hid.2.1]

/-- A key that is up, with an event of a key that is down: it is found by every call with another bitmap, and nothing is reported. -/
theorem stuck_calls {pre post rest : List (Key w)} {k k2 t : Key w} (ht : t.bitvalue = 0) (hpre : ∀ x ∈ pre, x.bitvalue ≠ 0 ∧ Idle x)
    (hpost : ∀ x ∈ post, x.bitvalue ≠ 0 ∧ Idle x) (s1 : k2.bitvalue = k.bitvalue) (s2 : k2.code = k.code) (hk : k.bitvalue ≠ 0)
    (s3 : k2.oldvalue = false) (s4 : k2.value = false) (s5 : k2.ignore = true) (s6 : k2.lastevent ≠ .nothing) (s7 : k2.lastevent ≠ .release)
    (as : Nat → Args w) (has : ∀ n, (as n).bitvalue ≠ k.bitvalue) (n : Nat) :
    outFrom (pre ++ k2 :: (post ++ t :: rest)) as n = .ok (k.code, .nothing) := by
  have call : ∀ n pre', (∀ x ∈ pre', x.bitvalue ≠ 0 ∧ Idle x) →
      routine (pre' ++ k2 :: (post ++ t :: rest)) (as n) =
        .ok (pre'.map (touch (as n).bitvalue) ++ k2 :: (post ++ t :: rest), k.code, .nothing) := by
    intro n pre' hp
    have hne : ¬ k.bitvalue = (as n).bitvalue := fun h => has n h.symm
    rw [routine_active (as n) pre' post k2 t rest ht hp hpost (s1 ▸ hk) (Or.inr ⟨s1 ▸ hne, by simp [Idle, s6, s7]⟩)]
    simp [one, process, s1, s2, s3, s4, s5, s6, s7, hne]
  have inv : ∀ n, ∃ pre', (∀ x ∈ pre', x.bitvalue ≠ 0 ∧ Idle x) ∧
      runFrom (pre ++ k2 :: (post ++ t :: rest)) as n = .ok (pre' ++ k2 :: (post ++ t :: rest)) := by
    intro n
    induction n with
    | zero => exact ⟨pre, hpre, rfl⟩
    | succ n ih =>
      obtain ⟨pre', hp, e⟩ := ih
      refine ⟨_, touch_idle (bv := (as n).bitvalue) hp, ?_⟩
      rw [runFrom, e, Res.ok_bind, call n pre' hp]
      rfl
  obtain ⟨pre', hp, e⟩ := inv n
  rw [outFrom, e, Res.ok_bind, call n pre' hp]
  rfl

/-- **C211** (what is false). The handler's call comes before the fourth store (`oldvalue`) to a key that was up and finds it pressed: it
reports PRESS, and afterwards no call with any other bitmap, or none, reports anything for any key: not the RELEASE of this key, not the
PRESS of another. -/
theorem C211_stuck_wrong (pre post rest : List (Key w)) (k t : Key w) (a : Args w) (ht : t.bitvalue = 0)
    (hpre : ∀ x ∈ pre, x.bitvalue ≠ 0) (hpost : ∀ x ∈ post, x.bitvalue ≠ 0 ∧ Idle x) (hk : k.bitvalue ≠ 0) (hb : k.bitvalue = a.bitvalue)
    (hd : ∀ x ∈ pre ++ post, x.bitvalue ≠ a.bitvalue) (ho : k.oldvalue = false) :
    (∃ tbl, routine (pre.map fresh ++ firstStores 3 k :: (post ++ t :: rest)) a = .ok (tbl, k.code, .press)) ∧
    ∃ tbl', resetI (onceAt (pre.length, 3) (routineH a)) (pre ++ k :: (post ++ t :: rest)) = .ok tbl' ∧
      ∀ as, (∀ n, (as n).bitvalue ≠ k.bitvalue) → ∀ n, outFrom tbl' as n = .ok (k.code, .nothing) := by
  have hr := handler_press pre post rest k t a 3 (Or.inl rfl) ht hpre hpost hk hb hd fun _ => ho
  refine ⟨⟨_, hr⟩, _, C211_exact (f := routineH a) pre post (pre.map fresh) post rest rest k _ t t 3 (by omega) hpre hk (fun x hx => (hpost x hx).1)
    ht (by simp) rfl (by rw [routineH, hr]), ?_⟩
  obtain ⟨k2, hk2⟩ : ∃ k2, k2 = lastStores 3 { firstStores 3 k with
    value := true, ignore := false, oldvalue := true, timeState := a.timestamp, lastevent := .press } := ⟨_, rfl⟩
  have hs : k2.bitvalue = k.bitvalue ∧ k2.code = k.code ∧ k2.oldvalue = false ∧ k2.value = false ∧ k2.ignore = true ∧ k2.lastevent = .press := by
    subst hk2
    exact ⟨rfl, rfl, rfl, rfl, rfl, rfl⟩
  rw [← hk2]
  obtain ⟨s1, s2, s3, s4, s5, s6⟩ := hs
  clear hk2 hr
  exact stuck_calls ht (fresh_idle hpre) (fresh_idle fun x hx => (hpost x hx).1) s1 s2 hk s3 s4 s5 (by rw [s6]; decide) (by rw [s6]; decide)

/-- **C211** (what is false). The handler's call comes before one of the last two stores to a key and finds it pressed: it reports PRESS,
but however long the key is held no CLICK or anything else follows; when it is let go RELEASE is reported at once. -/
theorem C211_click_wrong (pre post rest : List (Key w)) (k t : Key w) (a : Args w) (j : Nat) (hj : j = 4 ∨ j = 5) (ht : t.bitvalue = 0)
    (hpre : ∀ x ∈ pre, x.bitvalue ≠ 0) (hpost : ∀ x ∈ post, x.bitvalue ≠ 0 ∧ Idle x) (hk : k.bitvalue ≠ 0) (hb : k.bitvalue = a.bitvalue)
    (hd : ∀ x ∈ pre ++ post, x.bitvalue ≠ a.bitvalue) :
    (∃ tbl, routine (pre.map fresh ++ firstStores j k :: (post ++ t :: rest)) a = .ok (tbl, k.code, .press)) ∧
    ∃ tbl', resetI (onceAt (pre.length, j) (routineH a)) (pre ++ k :: (post ++ t :: rest)) = .ok tbl' ∧
      ∀ as N, (∀ n < N, (as n).bitvalue = k.bitvalue) → (∀ n < N, outFrom tbl' as n = .ok (k.code, .nothing)) ∧
        ((as N).bitvalue ≠ k.bitvalue → outFrom tbl' as N = .ok (k.code, .release)) := by
  have hr := handler_press pre post rest k t a j (Or.inr hj) ht hpre hpost hk hb hd fun h => by omega
  refine ⟨⟨_, hr⟩, _, C211_exact (f := routineH a) pre post (pre.map fresh) post rest rest k _ t t j (by omega) hpre hk (fun x hx => (hpost x hx).1)
    ht (by simp) rfl (by rw [routineH, hr]), ?_⟩
  obtain ⟨k2, hk2⟩ : ∃ k2, k2 = lastStores j { firstStores j k with
    value := true, ignore := false, oldvalue := true, timeState := a.timestamp, lastevent := .press } := ⟨_, rfl⟩
  have hs : k2.bitvalue = k.bitvalue ∧ k2.code = k.code ∧ k2.oldvalue = true ∧ k2.ignore = true ∧ k2.lastevent = .press := by
    rcases hj with rfl | rfl <;> subst hk2 <;> exact ⟨rfl, rfl, rfl, rfl, rfl⟩
  rw [← hk2]
  obtain ⟨s1, s2, s3, s4, s5⟩ := hs
  clear hk2 hr
  intro as N has
  have hf := fresh_idle hpre
  have hf' := fresh_idle (fun x hx => (hpost x hx).1 : ∀ x ∈ post, x.bitvalue ≠ 0)
  have hdf : ∀ x ∈ pre.map fresh ++ post.map fresh, x.bitvalue ≠ k.bitvalue := by
    intro x hx
    rw [← List.map_append] at hx
    obtain ⟨y, hy, rfl⟩ := List.mem_map.1 hx
    rw [hb]
    exact hd y hy
  have call : ∀ n < N, ∀ v, routine (pre.map fresh ++ { k2 with value := v } :: (post.map fresh ++ t :: rest)) (as n) =
      .ok (pre.map fresh ++ { k2 with value := true } :: (post.map fresh ++ t :: rest), k.code, .nothing) := by
    intro n hn v
    have hbn := has n hn
    rw [routine_active (as n) (pre.map fresh) (post.map fresh) { k2 with value := v } t rest ht hf hf' (by exact s1 ▸ hk)
      (Or.inl ⟨s1.trans hbn.symm, fun x hx => by rw [hbn]; exact hdf x hx⟩),
      touch_none _ _ fun x hx => by rw [hbn]; exact hdf x (by simp [hx])]
    simp [one, process, s1, s2, s3, s4, hbn]
  have inv : ∀ n ≤ N, ∃ v, runFrom (pre.map fresh ++ k2 :: (post.map fresh ++ t :: rest)) as n =
      .ok (pre.map fresh ++ { k2 with value := v } :: (post.map fresh ++ t :: rest)) := by
    intro n
    induction n with
    | zero => intro _; exact ⟨k2.value, rfl⟩
    | succ n ih =>
      intro hn
      obtain ⟨v, e⟩ := ih (by omega)
      refine ⟨true, ?_⟩
      rw [runFrom, e, Res.ok_bind, call n (by omega) v]
      rfl
  constructor
  · intro n hn
    obtain ⟨v, e⟩ := inv n (by omega)
    rw [outFrom, e, Res.ok_bind, call n hn v]
    rfl
  · intro hne
    obtain ⟨v, e⟩ := inv N (Nat.le_refl _)
    rw [outFrom, e, Res.ok_bind, routine_active (as N) (pre.map fresh) (post.map fresh) { k2 with value := v } t rest ht hf hf' (by exact s1 ▸ hk)
      (Or.inr ⟨fun h => hne (h.symm.trans s1), by simp [Idle, s3]⟩)]
    have hne' : ¬ k.bitvalue = (as N).bitvalue := fun h => hne h.symm
    simp [one, process, s1, s2, s3, s4, s5, hne']

/-- A key that is up. -/
def upKey (b : BitVec 8) (c : Int) : Key 8 := ⟨b, c, 0, 0, false, false, false, .nothing⟩

-- A call by a handler with key 2 pressed, while key 2 is reset: before store 3 the press of key 1 afterwards is not seen; before store 2 it is.
example : (do
    let tbl ← resetI (onceAt (1, 3) (routineH ⟨10, 20, 5, 7, 2⟩)) [upKey 1 11, upKey 2 12, upKey 0 0]
    outFrom tbl (fun _ => ⟨10, 20, 5, 100, 1⟩) 3) = .ok (12, .nothing) := by decide +kernel

example : (do
    let tbl ← resetI (onceAt (1, 2) (routineH ⟨10, 20, 5, 7, 2⟩)) [upKey 1 11, upKey 2 12, upKey 0 0]
    outFrom tbl (fun _ => ⟨10, 20, 5, 100, 1⟩) 0) = .ok (11, .press) := by decide +kernel

-- Before store 5 the key is held for long and no CLICK comes.
example : (do
    let tbl ← resetI (onceAt (1, 5) (routineH ⟨10, 20, 5, 7, 2⟩)) [upKey 1 11, upKey 2 12, upKey 0 0]
    outFrom tbl (fun _ => ⟨10, 20, 5, 100, 2⟩) 3) = .ok (12, .nothing) := by decide +kernel

-- A call for a key that is already reset is as one after the reset: CLICK comes.
example : (do
    let tbl ← resetI (onceAt (1, 5) (routineH ⟨10, 20, 5, 7, 1⟩)) [upKey 1 11, upKey 2 12, upKey 0 0]
    outFrom tbl (fun _ => ⟨10, 20, 5, 100, 1⟩) 0) = .ok (11, .click) := by decide +kernel

example : resetI (fun _ tbl => tbl) [{ upKey 1 11 with value := true, oldvalue := true, lastevent := .click }, upKey 0 0] =
    .ok [{ upKey 1 11 with ignore := true }, upKey 0 0] := by decide +kernel

end Gel.Keypad
