import Verif.Wear.Restart

/-!
# Wear leveling: how often each block is written, over restarts (C240)

`C45_even` counts the block writes of one run of the program. Here the restarts are included, also those that lose data:
the block that is written next is the one after the active block, and a restart may choose another active block.
-/
namespace Gel.Wear

namespace Spec

/-- The blocks written by a history on the lossy memory: one for each changing write, the next active one. -/
def Lossy.wear (n : Nat) : Lossy → List Op → List Nat
  | _, [] => []
  | s, o :: os =>
    match o with
    | .write x =>
      if x = s.data then Lossy.wear n (s.step n o) os else (s.phase.write n).pos :: Lossy.wear n (s.step n o) os
    | .restart => Lossy.wear n (s.step n o) os

/-- Every restart of the history keeps the active block. -/
def Lossy.Kept (n : Nat) : Lossy → List Op → Prop
  | _, [] => True
  | s, o :: os =>
    (match o with
      | .write _ => True
      | .restart => (s.phase.restart n).pos = s.phase.pos) ∧ Lossy.Kept n (s.step n o) os

end Spec

open Spec

/-- The blocks written by a history of writes and restarts, in order (the calls of `write_block`, wearleveling.c:60). -/
def writtenR (dev : Dev D) : D × Wlm → List Op → Res (List Nat)
  | _, [] => .ok []
  | s, o :: os => do
    let s' ← step dev s o
    let l ← writtenR dev s' os
    match o with
    | .write x => pure (if (dev.readBlock s.1 s.2.last x.length).2 = x then l else s'.2.last :: l)
    | .restart => pure l

theorem relL_written {size n len : Nat} (hn : n < 256) (h0 : 0 < len) (hl : len ≤ size) (os : List Op) :
    ∀ (s : List Block × Wlm) (r : Lossy), RelL size n len s r → (∀ x, Op.write x ∈ os → x.length = len) →
      writtenR (flash size) s os = .ok (r.wear n os) := by
  induction os with
  | nil => intro s r _ _; rfl
  | cons o os ih =>
    intro s r h hx
    cases o with
    | write x =>
      have hlx := hx x (by simp)
      obtain ⟨s1, e1, h1⟩ := relL_write hn h0 hl h x hlx
      have e2 := ih s1 _ h1 (fun y hy => hx y (by simp [hy]))
      have hrd : ((flash size).readBlock s.1 s.2.last x.length).2 = r.data := by
        have := holds_read hl h.1
        rw [read] at this
        rw [hlx, this]
      rw [writtenR, e1]
      simp only [Res.ok_bind, e2, Res.pure_eq, Lossy.wear, hrd]
      by_cases he : x = r.data
      · rw [if_pos he, if_pos he.symm]
      · rw [if_neg he, if_neg (fun h => he h.symm), h1.2.2.1, Lossy.step, if_neg he]
    | restart =>
      obtain ⟨s1, e1, h1⟩ := relL_restart hn h
      have e2 := ih s1 _ h1 (fun y hy => hx y (by simp [hy]))
      rw [writtenR, e1]
      simp only [Res.ok_bind, e2, Res.pure_eq, Lossy.wear]

/-- **C240.** On a device with `n` blocks whose markers are all equal, the blocks written by any history of writes and
restarts are those of the lossy memory. -/
theorem C240_exact (size n len : Nat) (d : List Block) (hd : Fits size n d) (hn0 : 0 < n) (hn : n < 256) (h0 : 0 < len)
    (hl : len ≤ size) (mk : Byte) (hm : ∀ b ∈ d, b.marker = mk) (os : List Op)
    (hx : ∀ x, Op.write x ∈ os → x.length = len) :
    ∃ w x0, init (flash size) d n = .ok w ∧ read (flash size) d w len = (0, x0) ∧
      writtenR (flash size) (d, w) os = .ok (Lossy.wear n ⟨x0, x0, .healthy 0⟩ os) := by
  obtain ⟨w, e, h, hh, hc, b, hm1, hm2⟩ := rel_start len hd hn0 hn mk hm
  have hlast : w.last = 0 := by rw [hc]; simp
  simp only [hlast] at hm1 hm2
  have hr : RelL size n len (d, w) ⟨d[0].data.take len, d[0].data.take len, .healthy 0⟩ :=
    ⟨hh, ⟨h, rfl⟩, hlast, b, hn0, hm1, hm2⟩
  exact ⟨w, _, e, holds_read hl hh, relL_written hn h0 hl os (d, w) _ hr hx⟩

theorem ok_pos_write {n : Nat} {ph : Phase} (h : ph.Ok n) : (ph.write n).pos = (ph.pos + 1) % n := by
  cases ph with
  | healthy p =>
    have h : p < n := h
    simp only [Phase.write]
    split_ifs with hc
    · exact (Nat.mod_eq_of_lt hc).symm
    · show 0 = (p + 1) % n
      rw [show p + 1 = n by omega, Nat.mod_self]
  | flat p =>
    have h : p < n := h
    simp only [Phase.write]
    split_ifs with hc
    · exact (Nat.mod_eq_of_lt hc).symm
    · show 0 = (p + 1) % n
      rw [show p + 1 = n by omega, Nat.mod_self]
  | shifted p =>
    have h : p < n := h
    simp only [Phase.write]
    split_ifs with hc
    · exact (Nat.mod_eq_of_lt hc).symm
    · show 0 = (p + 1) % n
      rw [show p + 1 = n by omega, Nat.mod_self]
  | mixed j k =>
    obtain ⟨h1, h2⟩ : j < k ∧ k < n := h
    simp only [Phase.write]
    split_ifs with hc
    · show j + 1 = (j + 1) % n
      rw [Nat.mod_eq_of_lt (by omega)]
    · show k = (j + 1) % n
      rw [Nat.mod_eq_of_lt (by omega)]; omega

/-- With restarts that keep the active block the blocks are written cyclically. -/
theorem wear_cyclic {n : Nat} (os : List Op) : ∀ s : Lossy, s.phase.Ok n → s.Kept n os →
    ∃ k, s.wear n os = (List.range k).map fun j => (s.phase.pos + 1 + j) % n := by
  induction os with
  | nil => intro s _ _; exact ⟨0, rfl⟩
  | cons o os ih =>
    intro s hs hk
    obtain ⟨k, e⟩ := ih _ (ok_step hs o) hk.2
    cases o with
    | write x =>
      by_cases he : x = s.data
      · refine ⟨k, ?_⟩
        simp only [Lossy.wear, if_pos he, e]
        rw [show s.step n (.write x) = s from if_pos he]
      · refine ⟨k + 1, ?_⟩
        simp only [Lossy.wear, if_neg he, e]
        rw [show s.step n (.write x) = ⟨x, if (s.phase.write n).pos = 0 then x else s.first, s.phase.write n⟩ from
          if_neg he, List.range_succ_eq_map, List.map_cons, List.map_map]
        simp only [ok_pos_write hs, Nat.add_zero]
        congr 1
        apply List.map_congr_left
        intro j _
        simp only [Function.comp]
        rw [show (s.phase.pos + 1) % n + 1 + j = (s.phase.pos + 1) % n + (1 + j) by omega, Nat.mod_add_mod]
        congr 1; omega
    | restart =>
      refine ⟨k, ?_⟩
      simp only [Lossy.wear, e]
      have : (s.step n .restart).phase.pos = s.phase.pos := hk.1
      rw [this]

/-- **C240** (partial): over a history of which every restart keeps the active block (`C239_keeps` says which do), also one
in which data was lost before, the numbers of times two blocks are written differ by at most one. Missing: the histories
with other restarts, for which it is false (`C240_wrong`). -/
theorem C240_even_partial (n : Nat) (os : List Op) (s : Lossy) (hs : s.phase.Ok n) (hk : s.Kept n os) (i j : Nat)
    (hi : i < n) (hj : j < n) : (s.wear n os).count i ≤ (s.wear n os).count j + 1 := by
  obtain ⟨k, e⟩ := wear_cyclic os s hs hk
  rw [e, count_cyclic n _ i hi, count_cyclic n _ j hj]
  have hn : 0 < n := by omega
  have a1 : (i + n - (s.phase.pos + 1) % n) % n < n := Nat.mod_lt _ hn
  have a2 : (j + n - (s.phase.pos + 1) % n) % n < n := Nat.mod_lt _ hn
  rw [← Nat.add_div_right _ hn]
  exact Nat.div_le_div_right (by omega)

/-- **C240** (partial), on the device: the same for the calls of `write_block`, beginning with equal markers. Missing: as
above. -/
theorem C240_device_partial (size n len : Nat) (d : List Block) (hd : Fits size n d) (hn0 : 0 < n) (hn : n < 256)
    (h0 : 0 < len) (hl : len ≤ size) (mk : Byte) (hm : ∀ b ∈ d, b.marker = mk) (os : List Op)
    (hx : ∀ x, Op.write x ∈ os → x.length = len) :
    ∃ w x0, init (flash size) d n = .ok w ∧ read (flash size) d w len = (0, x0) ∧
      (Lossy.Kept n ⟨x0, x0, .healthy 0⟩ os → ∃ l, writtenR (flash size) (d, w) os = .ok l ∧
        ∀ i j, i < n → j < n → l.count i ≤ l.count j + 1) := by
  obtain ⟨w, x0, e1, e2, e3⟩ := C240_exact size n len d hd hn0 hn h0 hl mk hm os hx
  exact ⟨w, x0, e1, e2, fun hk => ⟨_, e3, fun i j hi hj =>
    C240_even_partial n os ⟨x0, x0, .healthy 0⟩ hn0 hk i j hi hj⟩⟩

/-! ## Runs after a loss -/

theorem wear_append {n : Nat} (as bs : List Op) : ∀ s : Lossy,
    s.wear n (as ++ bs) = s.wear n as ++ (as.foldl (Lossy.step n) s).wear n bs := by
  induction as with
  | nil => intro s; rfl
  | cons a as ih =>
    intro s
    cases a with
    | write x =>
      simp only [List.cons_append, Lossy.wear, List.foldl_cons, ih]
      split_ifs <;> rfl
    | restart => simp only [List.cons_append, Lossy.wear, List.foldl_cons, ih]

/-- The blocks written by changing writes. -/
theorem wear_writes {n : Nat} (xs : List (List Byte)) : ∀ s : Lossy, s.phase.Ok n → AllChange s.data xs →
    s.phase.pos + xs.length < n → s.wear n (xs.map Op.write) = List.range' (s.phase.pos + 1) xs.length := by
  induction xs with
  | nil => intro s _ _ _; rfl
  | cons x xs ih =>
    intro s hs h hl
    have hne : x ≠ s.data := h.1
    rw [List.length_cons] at hl
    have hp : (s.phase.write n).pos = s.phase.pos + 1 := by rw [ok_pos_write hs, Nat.mod_eq_of_lt (by omega)]
    simp only [List.map_cons, Lossy.wear, if_neg hne]
    have e : s.step n (.write x) = ⟨x, if (s.phase.write n).pos = 0 then x else s.first, s.phase.write n⟩ := if_neg hne
    rw [e, ih _ (ok_write hs) h.2 (by simp only [hp]; omega)]
    simp only [hp, List.length_cons, List.range'_succ]

theorem count_range' {m : Nat} (i : Nat) : ∀ a, a ≤ i ∧ i < a + m → (List.range' a m).count i = 1 := by
  induction m with
  | zero => intro a h; omega
  | succ m ih =>
    intro a h
    rw [List.range'_succ, List.count_cons]
    by_cases hc : a = i
    · rw [List.count_eq_zero_of_not_mem (by rw [List.mem_range'_1]; omega), if_pos (by simp [hc])]
    · rw [ih (a + 1) (by omega), if_neg (by simp [hc])]

/-- One run after a loss: the memory comes back as it was. -/
theorem session_back (n m : Nat) (hm0 : 0 < m) (hmn : m < n) (xs : List (List Byte)) (s : Lossy)
    (hph : s.phase = .shifted 0 ∨ s.phase = .mixed 0 m) (hlen : xs.length = m) (hc : AllChange s.data xs) :
    ∃ q, (q = .shifted 0 ∨ q = .mixed 0 m) ∧ (session xs).foldl (Lossy.step n) s = ⟨s.first, s.first, q⟩ := by
  have h1 := writes_phase n xs s hc
  have h2 : ((xs.map Op.write).foldl (Lossy.step n) s).first = s.first := by
    apply writes_first n xs s hc
    intro i hi
    rcases hph with hph | hph
    · rw [hph, iter_shifted _ _ (by omega)]; simp [Phase.pos]
    · rw [hph, mixed_pos hmn _ _ hm0 (by omega) (by omega)]; omega
  rw [session, List.foldl_append]
  generalize (xs.map Op.write).foldl (Lossy.step n) s = t at *
  obtain ⟨a, b, c⟩ := t
  simp only at h1 h2
  subst h1 h2
  rcases hph with hph | hph
  · refine ⟨.mixed 0 m, Or.inr rfl, ?_⟩
    rw [hph, hlen, iter_shifted _ _ (by omega), Nat.zero_add]
    have : m ≠ 0 := by omega
    simp [Lossy.step, Phase.restart, this, Phase.pos, this.symm]
  · refine ⟨.shifted 0, Or.inl rfl, ?_⟩
    obtain ⟨k, rfl⟩ : ∃ k, m = k + 1 := ⟨m - 1, by omega⟩
    rw [hph, hlen, iter_mixed _ _ (by omega)]
    simp [Lossy.step, Phase.restart, Phase.pos]

/-- **C240** fails: once a restart has brought back block 0, a program that makes the same number `m` of changing writes in
every run (`0 < m < n`) writes the blocks 1 to `m` once in every run and the others never, for ever. -/
theorem C240_wrong (n m : Nat) (hm0 : 0 < m) (hmn : m < n) (xss : List (List (List Byte))) : ∀ (s : Lossy),
    s.phase = .shifted 0 ∨ s.phase = .mixed 0 m → s.data = s.first → (∀ xs ∈ xss, xs.length = m ∧ AllChange s.first xs) →
    ∀ i, (s.wear n (xss.flatMap session)).count i = if 1 ≤ i ∧ i ≤ m then xss.length else 0 := by
  induction xss with
  | nil => intro s _ _ _ i; simp [Lossy.wear]
  | cons xs xss ih =>
    intro s hph hd hx i
    obtain ⟨hlen, hc⟩ := hx xs (by simp)
    rw [← hd] at hc
    obtain ⟨q, hq, hk⟩ := session_back n m hm0 hmn xs s hph hlen hc
    have hok : s.phase.Ok n := by
      rcases hph with h | h <;> rw [h]
      · show 0 < n; omega
      · exact ⟨hm0, hmn⟩
    have hp0 : s.phase.pos = 0 := by rcases hph with h | h <;> rw [h] <;> rfl
    rw [List.flatMap_cons, wear_append, List.count_append, hk,
      ih ⟨s.first, s.first, q⟩ hq rfl (fun ys hys => hx ys (by simp [hys])) i, session, wear_append, List.count_append,
      wear_writes xs s hok hc (by omega), hp0, hlen]
    have h1 : ((xs.map Op.write).foldl (Lossy.step n) s).wear n [Op.restart] = [] := rfl
    rw [h1, List.count_nil, Nat.add_zero, Nat.zero_add, List.length_cons]
    by_cases hi : 1 ≤ i ∧ i ≤ m
    · rw [if_pos hi, if_pos hi, count_range' _ _ (by omega)]
      omega
    · rw [if_neg hi, if_neg hi, List.count_eq_zero_of_not_mem (by rw [List.mem_range'_1]; omega)]

/-- Another record. -/
def other (len : Nat) (x : List Byte) : List Byte :=
  if x = List.replicate len 0 then List.replicate len 1 else List.replicate len 0

theorem other_length (len : Nat) (x : List Byte) : (other len x).length = len := by
  rw [other]; split_ifs <;> simp

theorem other_ne {len : Nat} (h : 0 < len) (x : List Byte) : other len x ≠ x := by
  rw [other]
  split_ifs with hc
  · rw [hc]
    obtain ⟨k, rfl⟩ : ∃ k, len = k + 1 := ⟨len - 1, by omega⟩
    rw [List.replicate_succ, List.replicate_succ]
    intro hh
    have := (List.cons.inj hh).1
    revert this; decide
  · exact fun h => hc h.symm

/-- Alternating records. -/
def alternate (len : Nat) (x : List Byte) : Nat → List (List Byte)
  | 0 => []
  | k + 1 => other len x :: alternate len (other len x) k

theorem alternate_spec {len : Nat} (h : 0 < len) (k : Nat) : ∀ x, (alternate len x k).length = k ∧
    AllChange x (alternate len x k) ∧ ∀ y ∈ alternate len x k, y.length = len := by
  induction k with
  | zero => intro x; exact ⟨rfl, trivial, by simp [alternate]⟩
  | succ k ih =>
    intro x
    obtain ⟨a, b, c⟩ := ih (other len x)
    refine ⟨by simp [alternate, a], ⟨other_ne h x, b⟩, ?_⟩
    intro y hy
    rw [alternate, List.mem_cons] at hy
    rcases hy with rfl | hy
    · exact other_length _ _
    · exact c y hy

theorem session_restarts (xs : List (List Byte)) : (session xs).count .restart = 1 := by
  rw [session, List.count_append, List.count_eq_zero_of_not_mem (by simp)]
  simp

theorem sessions_restarts (xss : List (List (List Byte))) : (xss.flatMap session).count .restart = xss.length := by
  induction xss with
  | nil => rfl
  | cons xs xss ih => rw [List.flatMap_cons, List.count_append, session_restarts, ih, List.length_cons, Nat.add_comm]

theorem mem_session {x : List Byte} {xs : List (List Byte)} (h : Op.write x ∈ session xs) : x ∈ xs := by
  rw [session, List.mem_append] at h
  rcases h with h | h
  · rw [List.mem_map] at h
    obtain ⟨y, hy, e⟩ := h
    cases e; exact hy
  · simp at h

/-- **C240** fails, from a new device of several blocks: for every `k` there is a history with `k + 1` restarts that writes
block 1 `k + 1` times, and block 0 never. -/
theorem C240_new_wrong (size n len : Nat) (d : List Block) (hd : Fits size n d) (hn1 : 1 < n) (hn : n < 256)
    (h0 : 0 < len) (hl : len ≤ size) (mk : Byte) (hm : ∀ b ∈ d, b.marker = mk) (k : Nat) :
    ∃ os l w, (os.count .restart = k + 1 ∧ ∀ x, Op.write x ∈ os → x.length = len) ∧ init (flash size) d n = .ok w ∧
      writtenR (flash size) (d, w) os = .ok l ∧ l.count 1 = k + 1 ∧ l.count 0 = 0 := by
  obtain ⟨w, x0, ei, er, _⟩ := C240_exact size n len d hd (by omega) hn h0 hl mk hm [] (by simp)
  obtain ⟨a1, a2, a3⟩ := alternate_spec h0 (n - 1) x0
  generalize alternate len x0 (n - 1) = ys at *
  have hx : ∀ x, Op.write x ∈ session ys ++ (List.replicate k [other len x0]).flatMap session → x.length = len := by
    intro x h
    rw [List.mem_append, List.mem_flatMap] at h
    rcases h with h | ⟨xs, h, h'⟩
    · exact a3 x (mem_session h)
    · have := mem_session h'
      rw [List.eq_of_mem_replicate h, List.mem_singleton] at this
      rw [this]; exact other_length _ _
  obtain ⟨w', x0', ei', er', e⟩ := C240_exact size n len d hd (by omega) hn h0 hl mk hm _ hx
  obtain rfl : w = w' := by rw [ei] at ei'; exact Res.ok.inj ei'
  obtain rfl : x0 = x0' := by rw [er] at er'; exact (Prod.mk.inj er').2
  have hok : (Phase.healthy 0).Ok n := by show 0 < n; omega
  have h1 := writes_phase n ys ⟨x0, x0, .healthy 0⟩ a2
  have h2 : ((ys.map Op.write).foldl (Lossy.step n) ⟨x0, x0, .healthy 0⟩).first = x0 := by
    apply writes_first n ys ⟨x0, x0, .healthy 0⟩ a2
    intro i hi
    rw [iter_healthy _ _ (by omega), Phase.pos, Nat.mod_eq_of_lt (by omega)]
    omega
  have hs : (session ys).foldl (Lossy.step n) ⟨x0, x0, .healthy 0⟩ = ⟨x0, x0, .shifted 0⟩ := by
    rw [session, List.foldl_append]
    generalize (ys.map Op.write).foldl (Lossy.step n) ⟨x0, x0, .healthy 0⟩ = t at *
    obtain ⟨a, b, c⟩ := t
    simp only at h1 h2
    subst h1 h2
    have h3 : ¬ n - 1 + 1 < n := by omega
    have h4 : 0 ≠ n - 1 := by omega
    rw [iter_healthy _ _ (by omega), a1, Nat.zero_add, Nat.mod_eq_of_lt (by omega)]
    simp [Lossy.step, Phase.restart, Phase.pos, h3, h4]
  have hw := C240_wrong n 1 (by omega) hn1 (List.replicate k [other len x0]) ⟨x0, x0, .shifted 0⟩ (Or.inl rfl) rfl (by
    intro xs h
    rw [List.eq_of_mem_replicate h]
    exact ⟨rfl, other_ne h0 x0, trivial⟩)
  have hf : Lossy.wear n ⟨x0, x0, .healthy 0⟩ (session ys) = List.range' 1 (n - 1) := by
    rw [session, wear_append, wear_writes ys ⟨x0, x0, .healthy 0⟩ hok a2 (by rw [a1]; show 0 + (n - 1) < n; omega), a1]
    simp [Lossy.wear, Phase.pos]
  refine ⟨_, _, w, ⟨?_, hx⟩, ei, e, ?_, ?_⟩
  · rw [List.count_append, session_restarts, sessions_restarts, List.length_replicate, Nat.add_comm]
  · rw [wear_append, List.count_append, hs, hw, hf, count_range' _ _ (by omega), if_pos (by omega),
      List.length_replicate, Nat.add_comm]
  · rw [wear_append, List.count_append, hs, hw, hf, List.count_eq_zero_of_not_mem (by rw [List.mem_range'_1]; omega),
      if_neg (by omega)]

-- three blocks: with restarts that keep the active block the writes go round; after a loss, one write per run always goes
-- to block 1
example : (do let w ← init (flash 3) (blank 3) 3
              writtenR (flash 3) (blank 3, w) [.write [1], .restart, .write [2], .write [3], .restart, .write [4]]) =
      .ok [1, 2, 0, 1] ∧
    (do let w ← init (flash 3) (blank 3) 3
        writtenR (flash 3) (blank 3, w) ([Op.write [1], .write [2], .restart] ++
          [[[5]], [[6]], [[7]], [[8]]].flatMap session)) = .ok [1, 2, 1, 1, 1, 1] := by decide

end Gel.Wear
