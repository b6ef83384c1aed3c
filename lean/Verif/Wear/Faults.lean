import Verif.Wear.Props

/-!
# Wear leveling: initialization on any content, and a device that fails at times (C142-C144)
-/
namespace Gel.Wear

open Spec

/-! ## C142 -/

/-- The first `p` blocks have consecutive markers (modulo 256). -/
def Spec.Consecutive (d : List Block) (p : Nat) : Prop :=
  ∀ i, i + 1 < p → ∀ b c, d[i]? = some b → d[i + 1]? = some c → c.marker = b.marker + 1

/-- **C142.** Initialization on a working device with any content: if all blocks have consecutive markers, block 0 becomes
the active one; otherwise the last one of the longest sequence of consecutive markers that begins with block 0. The marker
is that of the last block of the sequence. -/
theorem C142_init (size n : Nat) (d : List Block) (hd : Fits size n d) (hn0 : 0 < n) (hn : n < 256) :
    ∃ (p : Nat) (b : Block) (w : Wlm), init (flash size) d n = .ok w ∧ 0 < p ∧ p ≤ n ∧ Consecutive d p ∧
      (p < n → ¬ Consecutive d (p + 1)) ∧ d[p - 1]? = some b ∧ w.marker = b.marker ∧ w.n = n ∧
      w.last = if p = n then 0 else p - 1 := by
  have hlen := hd.1
  have loop : ∀ k i lm, i + k = n → 1 ≤ i → Consecutive d i → (∃ b, d[i - 1]? = some b ∧ lm = b.marker) →
      ∃ (p : Nat) (b : Block), 0 < p ∧ p ≤ n ∧ Consecutive d p ∧ (p < n → ¬ Consecutive d (p + 1)) ∧
        d[p - 1]? = some b ∧ searchLoop (flash size) d k i lm = (((if p = n then 0 else p - 1 : Nat) : Int), b.marker) := by
    intro k
    induction k with
    | zero =>
      intro i lm h1 h2 h3 h4
      obtain ⟨b, hb, rfl⟩ := h4
      refine ⟨i, b, by omega, by omega, h3, by omega, hb, ?_⟩
      rw [searchLoop, if_pos (by omega)]; rfl
    | succ k ih =>
      intro i lm h1 h2 h3 h4
      obtain ⟨b, hb, rfl⟩ := h4
      have hi : i < d.length := by omega
      rw [searchLoop, flash_marker size n d hd i hi]
      simp only [ne_eq, not_true_eq_false, if_false]
      by_cases hc : d[i].marker = b.marker + 1
      · rw [if_neg (not_not.2 hc)]
        refine ih (i + 1) _ (by omega) (by omega) ?_ ⟨d[i], by simp [hi], rfl⟩
        intro j hj x y hx hy
        by_cases hji : j + 1 = i
        · subst hji
          rw [Nat.add_sub_cancel, hx] at hb
          cases hb
          rw [List.getElem?_eq_getElem hi] at hy
          cases hy
          exact hc
        · exact h3 j (by omega) x y hx hy
      · rw [if_pos hc]
        refine ⟨i, b, by omega, by omega, h3, fun _ h => hc ?_, hb, ?_⟩
        · have := h (i - 1) (by omega) b d[i] hb (by rw [Nat.sub_add_cancel h2]; simp [hi])
          exact this
        · rw [if_neg (by omega)]
          congr 1
          omega
  have h0 : 0 < d.length := by omega
  obtain ⟨p, b, p1, p2, p3, p4, p5, p6⟩ := loop (n - 1) 1 d[0].marker (by omega) (by omega)
    (by intro i hi; omega) ⟨d[0], by simp [h0], rfl⟩
  refine ⟨p, b, _, init_eq _ _ _ hn, p1, p2, p3, p4, p5, ?_, rfl, ?_⟩
  · simp only [searchLast, flash_marker size n d hd 0 h0, ne_eq, not_true_eq_false, if_false]
    rw [p6]
  · simp only [searchLast, flash_marker size n d hd 0 h0, ne_eq, not_true_eq_false, if_false]
    rw [p6]
    simp only
    rw [asSize_nat _ (by split_ifs <;> omega)]

/-- Markers 254, 255, 0, 7, 8: block 2 is the last of the sequence. -/
example : init (flash 1) [⟨254, [1]⟩, ⟨255, [2]⟩, ⟨0, [3]⟩, ⟨7, [4]⟩, ⟨8, [5]⟩] 5 = .ok ⟨5, 2, 0⟩ ∧
    init (flash 1) [⟨254, [1]⟩, ⟨255, [2]⟩, ⟨0, [3]⟩] 3 = .ok ⟨3, 0, 0⟩ := by decide

/-! ## C143, C144: faults -/

/-- What goes wrong in a call: codes other than 0 returned by the callbacks, with what is then in the buffer; a write that
reports an error may have been done or not. -/
structure Spec.Fault where
  read : Int
  junk : List Byte
  write : Int
  done : Bool
  marker : Nat → Int

/-- No fault. -/
def Spec.Fault.none : Fault := ⟨0, [], 0, true, fun _ => 0⟩

/-- A device with a fault. Writing a block is atomic: done or not done. -/
def Spec.faulty (size : Nat) (f : Fault) : Dev (List Block) where
  readBlock d i len := if f.read ≠ 0 then (f.read, f.junk) else (flash size).readBlock d i len
  writeBlock d i marker buf :=
    if f.write ≠ 0 then (f.write, if f.done then ((flash size).writeBlock d i marker buf).2 else d)
    else (flash size).writeBlock d i marker buf
  readMarker d i := if f.marker i ≠ 0 then (f.marker i, 0) else (flash size).readMarker d i

/-- A history of calls, each with its fault. -/
def runF (size : Nat) : List Block × Wlm → List (Fault × Op) → Res (List Block × Wlm)
  | s, [] => .ok s
  | s, o :: os => do
    let s ← step (faulty size o.1) s o.2
    runF size s os

/-- Every block holds, in its first `len` bytes, a record of `l`. -/
def Records (size n len : Nat) (l : List Byte → Prop) (d : List Block) : Prop :=
  Fits size n d ∧ ∀ b ∈ d, l (b.data.take len)

theorem records_write {size n len : Nat} {l : List Byte → Prop} {d : List Block} (h : Records size n len l d)
    (i : Nat) (m : Byte) (x : List Byte) (hx : x.length = len) (hl : len ≤ size) (hlx : l x) :
    Records size n len l ((flash size).writeBlock d i m x).2 := by
  obtain ⟨hf, hr⟩ := h
  by_cases hi : i < d.length
  · rw [flash_write size d i m x hi (by omega)]
    refine ⟨fits_set hf i hi m x (by omega), ?_⟩
    intro b hb
    rcases List.mem_or_eq_of_mem_set hb with hb | rfl
    · exact hr b hb
    · simp only
      rw [← hx, List.take_left]
      exact hlx
  · have : ((flash size).writeBlock d i m x) = (-1, d) := by
      simp [flash, List.getElem?_eq_none (Nat.le_of_not_lt hi)]
    rw [this]
    exact ⟨hf, hr⟩

theorem write_faulty {size n len : Nat} {l : List Byte → Prop} {s : List Block × Wlm} (h : Records size n len l s.1)
    (hn0 : 0 < s.2.n) (f : Fault) (x : List Byte) (hx : x.length = len) (h0 : 0 < len) (hl : len ≤ size) (hlx : l x) :
    ∃ d w r, write (faulty size f) s.1 s.2 x = .ok (d, w, r) ∧ w.n = s.2.n ∧ Records size n len l d := by
  rw [write, if_neg (by omega)]
  simp only
  split_ifs with h1 h2
  · exact ⟨_, _, _, rfl, rfl, h⟩
  · rw [nextBlock, if_neg (by omega), Res.ok_bind]
    refine ⟨_, _, _, rfl, rfl, ?_⟩
    simp only [faulty]
    split_ifs
    · exact records_write h _ _ x hx hl hlx
    · exact h
    · exact records_write h _ _ x hx hl hlx
  · exact ⟨_, _, _, rfl, rfl, h⟩

theorem run_faulty {size n len : Nat} {l : List Byte → Prop} (hn : n < 256) (hn0 : 0 < n) (h0 : 0 < len) (hl : len ≤ size) :
    ∀ (os : List (Fault × Op)) (s : List Block × Wlm), Records size n len l s.1 → s.2.n = n →
      (∀ f x, (f, Op.write x) ∈ os → x.length = len ∧ l x) →
      ∃ s', runF size s os = .ok s' ∧ Records size n len l s'.1 ∧ s'.2.n = n := by
  intro os
  induction os with
  | nil => intro s h hw _; exact ⟨s, rfl, h, hw⟩
  | cons o os ih =>
    intro s h hw hx
    have hx' : ∀ f x, (f, Op.write x) ∈ os → x.length = len ∧ l x := fun f x hm => hx f x (List.mem_cons_of_mem _ hm)
    obtain ⟨f, op⟩ := o
    cases op with
    | write x =>
      obtain ⟨hxl, hlx⟩ := hx f x List.mem_cons_self
      obtain ⟨d, w, r, e, e1, e2⟩ := write_faulty h (by omega) f x hxl h0 hl hlx
      obtain ⟨s', e3, e4⟩ := ih (d, w) e2 (by simpa [hw] using e1) hx'
      exact ⟨s', by rw [runF, step, e]; exact e3, e4⟩
    | restart =>
      have := init_eq (faulty size f) s.1 s.2.n (by omega)
      obtain ⟨s', e3, e4⟩ := ih (s.1, ⟨s.2.n, asSize (searchLast (faulty size f) s.1 s.2.n).1,
        (searchLast (faulty size f) s.1 s.2.n).2⟩) h hw hx'
      exact ⟨s', by rw [runF, step, this]; exact e3, e4⟩

/-- **C143.** Whatever happens — reads, writes and searches that fail with any code, writes that are done although they
report an error, restarts at any time — a read that reports success returns a record as it was passed to a write, or as it
was in a block at the beginning, never a mixture. -/
theorem C143_integrity (size n len : Nat) (d : List Block) (hd : Fits size n d) (hn0 : 0 < n) (hn : n < 256) (h0 : 0 < len)
    (hl : len ≤ size) (f : Fault) (os : List (Fault × Op)) (hx : ∀ f x, (f, Op.write x) ∈ os → x.length = len) :
    ∃ w s, init (faulty size f) d n = .ok w ∧ runF size (d, w) os = .ok s ∧
      ∀ (g : Fault) (y : List Byte), read (faulty size g) s.1 s.2 len = (0, y) →
        (∃ f, (f, Op.write y) ∈ os) ∨ ∃ b ∈ d, y = b.data.take len := by
  let l : List Byte → Prop := fun y => (∃ f, (f, Op.write y) ∈ os) ∨ ∃ b ∈ d, y = b.data.take len
  have hrec : Records size n len l d := ⟨hd, fun b hb => Or.inr ⟨b, hb, rfl⟩⟩
  obtain ⟨s, e, h1, h2⟩ := run_faulty (l := l) hn hn0 h0 hl os (d, ⟨n, _, _⟩) hrec rfl
    (fun f x hm => ⟨hx f x hm, Or.inl ⟨f, hm⟩⟩)
  refine ⟨_, s, init_eq _ _ _ hn, e, ?_⟩
  intro g y hy
  rw [read] at hy
  simp only [faulty] at hy
  split_ifs at hy with hg
  · exact absurd (congrArg Prod.fst hy) hg
  · by_cases hi : s.2.last < s.1.length
    · rw [flash_read size n s.1 h1.1 _ _ hi hl] at hy
      cases hy
      exact h1.2 _ (List.getElem_mem _)
    · simp [flash, List.getElem?_eq_none (Nat.le_of_not_lt hi)] at hy

/-- **C144.** A write that reports success is read back, whatever went wrong before it. -/
theorem C144_success (size n len : Nat) (d : List Block) (hd : Fits size n d) (hn0 : 0 < n) (hn : n < 256) (h0 : 0 < len)
    (hl : len ≤ size) (f g : Fault) (os : List (Fault × Op)) (hx : ∀ f x, (f, Op.write x) ∈ os → x.length = len)
    (x : List Byte) (hlen : x.length = len) :
    ∃ w s d' w' r, init (faulty size f) d n = .ok w ∧ runF size (d, w) os = .ok s ∧
      write (faulty size g) s.1 s.2 x = .ok (d', w', r) ∧ (r = 0 → read (flash size) d' w' len = (0, x)) := by
  obtain ⟨s, e, h1, h2⟩ := run_faulty (l := fun _ => True) hn hn0 h0 hl os (d, ⟨n, _, _⟩) ⟨hd, fun _ _ => trivial⟩ rfl
    (fun f x hm => ⟨hx f x hm, trivial⟩)
  obtain ⟨d', w', r, e1, e2, e3⟩ := write_faulty h1 (by omega) g x hlen h0 hl trivial
  refine ⟨_, s, d', w', r, init_eq _ _ _ hn, e, e1, ?_⟩
  rintro rfl
  obtain ⟨hf, -⟩ := h1
  have hlen' := hf.1
  rw [write, if_neg (by omega)] at e1
  simp only at e1
  have hok : ∀ i, ((faulty size g).readBlock s.1 i x.length).1 = 0 →
      ∃ h : i < s.1.length, (faulty size g).readBlock s.1 i x.length = (0, s.1[i].data.take x.length) := by
    intro i hi
    simp only [faulty] at hi ⊢
    split_ifs at hi with hg
    · exact absurd hi hg
    · rw [if_neg hg]
      by_cases hlt : i < s.1.length
      · exact ⟨hlt, flash_read size n s.1 hf _ _ hlt (by omega)⟩
      · simp [flash, List.getElem?_eq_none (Nat.le_of_not_lt hlt)] at hi
  split_ifs at e1 with c1 c2
  · simp only [Res.pure_eq, Res.ok.injEq, Prod.mk.injEq] at e1
    exact absurd e1.2.2 c1
  · rw [nextBlock, if_neg (by omega), Res.ok_bind] at e1
    have hb : (s.2.last + 1) % 2 ^ 64 % s.2.n < s.1.length := by
      rw [hlen', ← h2]; exact Nat.mod_lt _ (by omega)
    simp only [faulty, Res.pure_eq, Res.ok.injEq, Prod.mk.injEq] at e1
    obtain ⟨a1, a2, a3⟩ := e1
    by_cases hg : g.write ≠ 0
    · rw [if_pos hg] at a3
      exact absurd a3 hg
    · rw [if_neg hg] at a1 a3
      rw [flash_write size _ _ _ _ hb (by omega)] at a1
      subst a1 a2
      rw [read, flash_read size n _ e3.1 _ _ (by simpa using hb) hl]
      simp only [List.getElem_set_self]
      rw [← hlen, List.take_left]
  · cases e1
    obtain ⟨hlt, hr⟩ := hok s.2.last (by simpa using c1)
    have c2 : ((faulty size g).readBlock s.1 s.2.last x.length).2 = x := not_not.1 c2
    rw [hr] at c2
    simp only at c2
    rw [read, flash_read size n _ hf _ _ hlt hl, ← hlen, c2]

/-- A failed search (code -5) makes every call fail until the next restart; a write that fails but is done is read. -/
example : (do
    let w ← init (faulty 3 { Fault.none with marker := fun i => if i = 1 then -5 else 0 }) [⟨9, [1, 1, 1]⟩, ⟨10, [2, 2, 2]⟩, ⟨4, [3, 3, 3]⟩] 3
    let s ← runF 3 ([⟨9, [1, 1, 1]⟩, ⟨10, [2, 2, 2]⟩, ⟨4, [3, 3, 3]⟩], w)
      [(.none, .write [7, 7]), (.none, .restart), ({ Fault.none with write := 1 }, .write [8, 8])]
    pure (read (flash 3) s.1 w 2, read (flash 3) s.1 s.2 2)) = .ok ((-1, []), (0, [8, 8])) := by decide

end Gel.Wear
