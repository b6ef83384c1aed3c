import Verif.Param.Format
import Verif.Param.FloatProps
import Mathlib.Data.Nat.Digits.Lemmas

/-!
# Parameter: theorems on `parameter_to_string_format`
-/
namespace Gel.Param
open Gel.Ieee Spec

/-! ## Digits -/

theorem digit_char : ∀ d < 16, ∀ u, digit (digitChar u d) = some d ∧ digitChar u d ≠ ' ' ∧ digitChar u d ≠ '-' ∧
    digitChar u d ≠ '+' ∧ digitChar u d ≠ '.' := by decide

theorem readMore_append (b : Nat) (s t : List Char) (acc : Nat) :
    readMore b acc (s ++ t) = (readMore b acc s).bind fun n => readMore b n t := by
  induction s generalizing acc with
  | nil => rfl
  | cons c s ih =>
    simp only [List.cons_append, readMore]
    cases digit c with
    | none => rfl
    | some d =>
      by_cases h : d < b
      · simp only [h, if_true]; exact ih _
      · simp only [h, if_false]; rfl

theorem readMore_digits (u : Bool) (b : Nat) (hb : b ≤ 16) (l : List Nat) (hl : ∀ d ∈ l, d < b) (acc : Nat) :
    readMore b acc (l.reverse.map (digitChar u)) = some (acc * b ^ l.length + Nat.ofDigits b l) := by
  induction l generalizing acc with
  | nil => simp [readMore]
  | cons d l ih =>
    have hd : d < b := hl d (by simp)
    rw [List.reverse_cons, List.map_append, readMore_append, ih (fun e he => hl e (by simp [he]))]
    simp only [Option.bind_some, List.map_cons, List.map_nil, readMore, (digit_char d (by omega) u).1, hd, if_true]
    rw [Nat.ofDigits_cons, List.length_cons, pow_succ]
    congr 1
    ring

theorem readMore_zeros (b : Nat) (hb : 0 < b) (k : Nat) (s : List Char) :
    readMore b 0 (List.replicate k '0' ++ s) = readMore b 0 s := by
  induction k with
  | zero => rfl
  | succ k ih =>
    rw [List.replicate_succ, List.cons_append, readMore, show digit '0' = some 0 by decide]
    simp only [hb, if_true, Nat.mul_zero, Nat.add_zero]
    exact ih

theorem readNat_numeral (u : Bool) (b p n k : Nat) (h2 : 2 ≤ b) (hb : b ≤ 16)
    (hne : List.replicate k '0' ++ numeral u b p n ≠ []) :
    readNat b (List.replicate k '0' ++ numeral u b p n) = some n := by
  rw [readNat, if_neg hne, readMore_zeros _ (by omega), numeral, readMore_zeros _ (by omega),
    readMore_digits u b hb _ (fun d hd => Nat.digits_lt_base (by omega) hd), Nat.zero_mul, Nat.zero_add,
    Nat.ofDigits_digits]

theorem numeral_chars (u : Bool) (b p n : Nat) (h2 : 2 ≤ b) (hb : b ≤ 16) :
    ∀ c ∈ numeral u b p n, c ≠ ' ' ∧ c ≠ '-' ∧ c ≠ '+' ∧ c ≠ '.' := by
  intro c hc
  rw [numeral, List.mem_append, List.mem_replicate, List.mem_map] at hc
  rcases hc with ⟨_, rfl⟩ | ⟨d, hd, rfl⟩
  · decide
  · have := Nat.digits_lt_base (by omega) (List.mem_reverse.1 hd)
    exact (digit_char d (by omega) u).2

theorem numeral_ne (u : Bool) (b p n : Nat) (h : 0 < p ∨ n ≠ 0) : numeral u b p n ≠ [] := by
  intro e
  rw [numeral, List.append_eq_nil_iff] at e
  have e2 : Nat.digits b n = [] := by simpa using e.2
  rw [e2] at e
  rcases h with h | h
  · simp at e; omega
  · exact h (Nat.digits_eq_nil_iff_eq_zero.1 e2)

theorem numeral_length (u : Bool) (b p n : Nat) : (numeral u b p n).length = max p (Nat.digits b n).length := by
  simp [numeral]; omega

/-! ## Fields -/

theorem field_form (c : Conv) (z : Bool) (sign body : List Char) : ∃ i k j,
    field c z sign body = List.replicate i ' ' ++ (sign ++ (List.replicate k '0' ++ body)) ++ List.replicate j ' ' ∧
      (z = false → k = 0) ∧ (field c z sign body).length = max c.width (sign.length + body.length) := by
  unfold field
  by_cases hl : c.left
  · refine ⟨0, 0, c.width - (sign.length + body.length), ?_, fun _ => rfl, ?_⟩
    · simp [hl]
    · simp [hl]; omega
  · by_cases hz : c.zero && z
    · refine ⟨0, c.width - (sign.length + body.length), 0, ?_, ?_, ?_⟩
      · simp only [hl, hz]; simp
      · intro h; simp [h] at hz
      · simp only [hl, hz]; simp; omega
    · refine ⟨c.width - (sign.length + body.length), 0, 0, ?_, fun _ => rfl, ?_⟩
      · simp only [hl, hz]; simp
      · simp only [hl, hz]; simp; omega

theorem dropWhile_spaces (i : Nat) (s : List Char) (h : ∀ c t, s = c :: t → c ≠ ' ') :
    (List.replicate i ' ' ++ s).dropWhile (· == ' ') = s := by
  induction i with
  | zero =>
    cases s with
    | nil => rfl
    | cons c t => simp [h c t rfl]
  | succ i ih => rw [List.replicate_succ, List.cons_append, List.dropWhile_cons_of_pos (by simp)]; exact ih

theorem trim_spaces (i j : Nat) (s : List Char) (hne : s ≠ []) (h : ∀ c ∈ s, c ≠ ' ') :
    trim (List.replicate i ' ' ++ s ++ List.replicate j ' ') = s := by
  unfold trim
  rw [List.append_assoc, dropWhile_spaces i, List.reverse_append, List.reverse_replicate, dropWhile_spaces j,
    List.reverse_reverse]
  · intro c t e
    exact h c (List.mem_reverse.1 (by rw [e]; simp))
  · intro c t e
    cases s with
    | nil => exact absurd rfl hne
    | cons x s =>
      rw [List.cons_append] at e
      injection e with e1 _
      exact e1 ▸ h x (by simp)

/-- Reading a field back. -/
theorem read_field {α : Type} [Neg α] (read : List Char → Option α) (c : Conv) (z : Bool) (neg plus : Bool)
    (body : List Char) (hne : body ≠ []) (h : ∀ c ∈ body, c ≠ ' ' ∧ c ≠ '-' ∧ c ≠ '+') (r : α)
    (hr : ∀ k, (z = false → k = 0) → read (List.replicate k '0' ++ body) = some r) :
    readSigned read (field c z (if neg then ['-'] else if plus then ['+'] else []) body) =
      some (if neg then -r else r) := by
  obtain ⟨i, k, j, e, hk, _⟩ := field_form c z (if neg then ['-'] else if plus then ['+'] else []) body
  have hb : ∀ c ∈ List.replicate k '0' ++ body, c ≠ ' ' ∧ c ≠ '-' ∧ c ≠ '+' := by
    intro c hc
    rcases List.mem_append.1 hc with hc | hc
    · rw [(List.mem_replicate.1 hc).2]; decide
    · exact h c hc
  rw [readSigned, e, trim_spaces i j]
  · cases neg <;> cases plus
    · simp only [Bool.false_eq_true, if_false, List.nil_append]
      rw [← hr k hk]
      cases hs : List.replicate k '0' ++ body with
      | nil => simp at hs; exact absurd hs.2 hne
      | cons x t =>
        have := hb x (by rw [hs]; simp)
        split
        · next heq => injection heq with h1; exact absurd h1 this.2.1
        · next heq => injection heq with h1; exact absurd h1 this.2.2
        · rfl
    · simpa using hr k hk
    · simp [hr k hk]
    · simp [hr k hk]
  · simp [hne]
  · intro c hc
    rcases List.mem_append.1 hc with hc | hc
    · revert hc; cases neg <;> cases plus <;> simp <;> rintro rfl <;> decide
    · exact (hb c hc).1

theorem formatInt_read (c : Conv) (hf : c.kind ≠ .f) (v : Int) (hp : c.prec ≠ some 0) :
    readInt c.kind.base (formatInt c v) = some v := by
  have hb : 2 ≤ c.kind.base ∧ c.kind.base ≤ 16 := by cases c.kind <;> decide
  have hp1 : 0 < c.prec.getD 1 := by
    cases h : c.prec with
    | none => simp
    | some p => cases p with
      | zero => exact absurd h hp
      | succ p => simp
  have hne := numeral_ne (c.kind == .X) c.kind.base (c.prec.getD 1) v.natAbs (.inl hp1)
  have key := read_field (fun s => (readNat c.kind.base s).map Int.ofNat) c c.prec.isNone (decide (v < 0))
    (c.plus && c.kind == .d) (numeral (c.kind == .X) c.kind.base (c.prec.getD 1) v.natAbs) hne
    (fun x hx => let h := numeral_chars _ _ _ _ hb.1 hb.2 x hx; ⟨h.1, h.2.1, h.2.2.1⟩) (Int.ofNat v.natAbs)
    (fun k _ => by
      rw [readNat_numeral _ _ _ _ _ hb.1 hb.2 (by simp [hne])]
      rfl)
  simp only [decide_eq_true_eq] at key
  rw [readInt, formatInt]
  refine key.trans ?_
  congr 1
  split <;> simp only [Int.ofNat_eq_natCast] <;> omega

/-! ## The whole string -/

/-- Text without conversions. -/
def text (s : List Char) : List Piece := s.map .lit

theorem sprintf_text (lw : Nat) (s : List Char) (as : List Arg) : sprintf lw (text s) as = .ok s := by
  induction s with
  | nil => rfl
  | cons c s ih =>
    rw [show text (c :: s) = .lit c :: text s from rfl, sprintf, ih]
    rfl

theorem sprintf_one (lw : Nat) (pre post : List Char) (c : Conv) (a : Arg) :
    sprintf lw (text pre ++ .conv c :: text post) [a] =
      (convert lw c a >>= fun r => pure (pre ++ r ++ post)) := by
  induction pre with
  | nil =>
    rw [show text [] = [] from rfl, List.nil_append, sprintf]
    cases convert lw c a <;> try rfl
    simp [sprintf_text]
  | cons x s ih =>
    rw [show text (x :: s) = .lit x :: text s from rfl, List.cons_append, sprintf, ih]
    cases convert lw c a <;> rfl

theorem holds_putStr (m : Mem) (a : Nat) (s : List Char) : Holds (putStr m a s) a s := by
  constructor
  · intro i c h
    obtain ⟨hi, e⟩ := List.getElem?_eq_some_iff.1 h
    rw [putStr, if_pos (by omega), List.getD_eq_getElem?_getD, show a + i - a = i by omega, h]
    rfl
  · rw [putStr, if_neg (by omega), if_pos rfl]

theorem putStr_frame (m : Mem) (a : Nat) (s : List Char) (b : Nat) (h : b < a ∨ a + s.length < b) : putStr m a s b = m b := by
  rw [putStr, if_neg (by omega), if_neg (by omega)]

/-- The promoted type. -/
theorem argument_int (m : Mem) (h : Handle) (ht : h.type.isInt = true) :
    argument m h = .int (h.type.signed || decide (h.type.size < 4)) (max 32 (8 * h.type.size)) (rdv m h.pointer h.type) := by
  unfold argument
  revert ht
  cases h.type <;> intro ht <;> first | rfl | cases ht

/-- The outcome of the call is the string `s` at `result`, with nothing else changed. -/
def Wrote (m : Mem) (result : Nat) (s : List Char) (r : Res Mem) : Prop :=
  ∃ m', r = .ok m' ∧ Holds m' result s ∧ ∀ b, b < result ∨ result + s.length < b → m' b = m b

/-- The conversion expects the type that the parameter is promoted to, or the one of the other signedness with a value of
both. -/
def Expects (lw : Nat) (t : Ty) (c : Conv) (v : Int) : Prop :=
  c.kind ≠ .f ∧ max 32 (8 * t.size) = (lenBits lw c.len).1 ∧
    (((t.signed || decide (t.size < 4)) = (c.kind == .d)) ∨ 0 ≤ v ∧ v < 2 ^ (max 32 (8 * t.size) - 1))

theorem wrapS_range (w : Nat) (hw : 0 < w) (x : Int) : InRange true w (wrapS w x) := by
  obtain ⟨w, rfl⟩ : ∃ k, w = k + 1 := ⟨w - 1, by omega⟩
  rw [InRange, if_pos rfl, wrapS]
  have h1 := BitVec.le_toInt (BitVec.ofInt (w + 1) x)
  have h2 := BitVec.toInt_lt (x := BitVec.ofInt (w + 1) x)
  exact ⟨h1, h2⟩

theorem wrapU_range (w : Nat) (x : Int) : InRange false w (wrapU w x) := by
  rw [InRange, if_neg (by decide), wrapU]
  exact ⟨Int.emod_nonneg _ (by positivity), Int.emod_lt_of_pos _ (by positivity)⟩

theorem wrapS_mod (w : Nat) (x : Int) : wrapS w x % 2 ^ w = x % 2 ^ w := by
  rw [wrapS, BitVec.toInt_ofInt]
  have := Int.bmod_emod (x := x) (m := 2 ^ w)
  simpa using this

theorem wrapU_mod (w : Nat) (x : Int) : wrapU w x % 2 ^ w = x % 2 ^ w := Int.emod_emod_of_dvd _ dvd_rfl

/-- **C161.** The call for every format with one conversion: either undefined, or the text with the number that the
parameter's value becomes in the type that the conversion names. -/
theorem C161_exact (lw : Nat) (hlw : 0 < lw) (m : Mem) (h : Handle) (ht : h.type.isInt = true) (result : Nat)
    (pre post : List Char) (c : Conv) (hp : c.prec ≠ some 0) :
    (¬ Expects lw h.type c (rdv m h.pointer h.type) →
      toStringFormat lw m (some h) result (text pre ++ .conv c :: text post) = .ub) ∧
    (Expects lw h.type c (rdv m h.pointer h.type) → ∃ body v,
      Wrote m result (pre ++ body ++ post) (toStringFormat lw m (some h) result (text pre ++ .conv c :: text post)) ∧
      readInt c.kind.base body = some v ∧ c.width ≤ body.length ∧
      InRange (c.kind == .d) (lenBits lw c.len).2 v ∧
      v % 2 ^ (lenBits lw c.len).2 = rdv m h.pointer h.type % 2 ^ (lenBits lw c.len).2) := by
  rw [toStringFormat, argument_int m h ht, sprintf_one]
  generalize rdv m h.pointer h.type = v
  constructor
  · intro hn
    rw [convert]
    by_cases h1 : c.kind = .f ∨ max 32 (8 * h.type.size) ≠ (lenBits lw c.len).1
    · rw [if_pos h1]; rfl
    · rw [if_neg h1, if_pos]
      · rfl
      · push_neg at h1
        constructor
        · intro e; exact hn ⟨h1.1, h1.2, .inl e⟩
        · intro e; exact hn ⟨h1.1, h1.2, .inr e⟩
  · rintro ⟨h1, h2, h3⟩
    have h4 : ¬ (c.kind = .f ∨ max 32 (8 * h.type.size) ≠ (lenBits lw c.len).1) := by
      rintro (e | e)
      · exact h1 e
      · exact e h2
    have h5 : ¬ ((h.type.signed || decide (h.type.size < 4)) ≠ (c.kind == .d) ∧
        ¬ (0 ≤ v ∧ v < 2 ^ (max 32 (8 * h.type.size) - 1))) := by
      rintro ⟨e1, e2⟩
      exact h3.elim e1 e2
    rw [convert, if_neg h4, if_neg h5]
    refine ⟨_, _, ⟨_, rfl, holds_putStr _ _ _, putStr_frame _ _ _⟩, formatInt_read c h1 _ hp, ?_, ?_, ?_⟩
    · unfold formatInt
      obtain ⟨_, _, _, _, _, e⟩ := field_form c c.prec.isNone _ _
      rw [e]
      exact le_max_left _ _
    · by_cases hd : c.kind = .d
      · rw [if_pos hd, hd]
        exact wrapS_range _ (by cases c.len <;> simp [lenBits, hlw]) _
      · rw [if_neg hd, show (c.kind == Kind.d) = false by simpa using hd]
        exact wrapU_range _ _
    · split
      · exact wrapS_mod _ _
      · exact wrapU_mod _ _

/-- A value of the type is the only one of its residue class. -/
theorem InRange.unique {s : Bool} {w : Nat} (hw : 0 < w) {x y : Int} (hx : InRange s w x) (hy : InRange s w y)
    (h : x % 2 ^ w = y % 2 ^ w) : x = y := by
  obtain ⟨w, rfl⟩ : ∃ k, w = k + 1 := ⟨w - 1, by omega⟩
  obtain ⟨k, hk⟩ : (2 : Int) ^ (w + 1) ∣ x - y := Int.ModEq.dvd (show y ≡ x [ZMOD 2 ^ (w + 1)] from h.symm)
  have e : (2 : Int) ^ (w + 1) = 2 * 2 ^ w := by rw [pow_succ]; ring
  have hpos : (0 : Int) < 2 ^ w := by positivity
  rw [InRange] at hx hy
  rw [show w + 1 - 1 = w by omega, e] at hx hy
  rw [e] at hk
  have : k = 0 := by
    by_contra hk0
    rcases lt_or_gt_of_ne hk0 with h' | h'
    · have : 2 * 2 ^ w * k ≤ -(2 * 2 ^ w) := by nlinarith
      split at hx <;> split at hy <;> first | omega | simp_all
    · have : 2 * 2 ^ w ≤ 2 * 2 ^ w * k := by nlinarith
      split at hx <;> split at hy <;> first | omega | simp_all
  rw [this] at hk
  omega

/-- **C161.** The number written is the parameter's value exactly if that is a value of the type that the conversion names. -/
theorem C161_value (lw : Nat) (hlw : 0 < lw) (m : Mem) (h : Handle) (ht : h.type.isInt = true) (result : Nat)
    (pre post : List Char) (c : Conv) (hp : c.prec ≠ some 0) (he : Expects lw h.type c (rdv m h.pointer h.type)) :
    ∃ body v,
      Wrote m result (pre ++ body ++ post) (toStringFormat lw m (some h) result (text pre ++ .conv c :: text post)) ∧
      readInt c.kind.base body = some v ∧ c.width ≤ body.length ∧
      (v = rdv m h.pointer h.type ↔ InRange (c.kind == .d) (lenBits lw c.len).2 (rdv m h.pointer h.type)) := by
  obtain ⟨body, v, h1, h2, h3, h4, h5⟩ := (C161_exact lw hlw m h ht result pre post c hp).2 he
  refine ⟨body, v, h1, h2, h3, fun e => e ▸ h4, fun h => InRange.unique ?_ h4 h h5⟩
  cases c.len <;> simp [lenBits, hlw]

/-- The length modifier of the type itself (`PRId8` and the like). -/
def own : Ty → Len
  | .u8 | .i8 => .hh
  | .u16 | .i16 => .h
  | .u32 | .i32 => .none
  | _ => .ll

/-- **C161.** With the conversion of the parameter's own type, the string holds the value, whatever it is. -/
theorem C161 (lw : Nat) (hlw : 0 < lw) (m : Mem) (h : Handle) (ht : h.type.isInt = true) (result : Nat)
    (pre post : List Char) (c : Conv) (hp : c.prec ≠ some 0) (hl : c.len = own h.type)
    (hk : if h.type.signed then c.kind = .d else c.kind = .u ∨ c.kind = .o ∨ c.kind = .x ∨ c.kind = .X) :
    ∃ body,
      Wrote m result (pre ++ body ++ post) (toStringFormat lw m (some h) result (text pre ++ .conv c :: text post)) ∧
      readInt c.kind.base body = some (rdv m h.pointer h.type) ∧ c.width ≤ body.length := by
  have hr := rdv_range m h.pointer h.type
  have hd : (c.kind == .d) = h.type.signed := by
    cases hs : h.type.signed
    · rw [hs] at hk
      rcases hk with e | e | e | e <;> rw [e] <;> rfl
    · rw [hs] at hk
      rw [show c.kind = .d from hk]
      rfl
  have hw : (lenBits lw c.len).2 = 8 * h.type.size := by
    rw [hl]; revert ht; cases h.type <;> intro ht <;> first | rfl | cases ht
  have he : Expects lw h.type c (rdv m h.pointer h.type) := by
    refine ⟨?_, ?_, ?_⟩
    · intro e
      rw [e] at hk
      revert hk
      cases h.type.signed <;> simp
    · rw [hl]; revert ht; cases h.type <;> intro ht <;> first | rfl | cases ht
    · rw [hd]
      generalize rdv m h.pointer h.type = v at hr
      revert ht hr
      cases h.type <;> intro ht hr <;> simp [Ty.signed, Ty.size, InRange] at hr ⊢ <;> omega
  obtain ⟨body, v, h1, h2, h3, h4⟩ := C161_value lw hlw m h ht result pre post c hp he
  refine ⟨body, h1, ?_, h3⟩
  rw [h2, h4.2 (by rw [hd, hw]; exact hr)]

/-- **C161.** Without a handle nothing is written, not even a terminator. -/
theorem C161_null (lw : Nat) (m : Mem) (result : Nat) (f : List Piece) : toStringFormat lw m none result f = .ok m := rfl

/-- **C161.** No single conversion does for all types: `%d` is undefined for every 64 bit parameter, and for a `uint32_t`
above `INT32_MAX`. -/
theorem C161_plain (lw : Nat) (hlw : 0 < lw) (m : Mem) (h : Handle) (ht : h.type.isInt = true) (result : Nat)
    (pre post : List Char) :
    toStringFormat lw m (some h) result (text pre ++ .conv { kind := .d } :: text post) = .ub ↔
      h.type.size = 8 ∨ h.type = .u32 ∧ 2 ^ 31 ≤ rdv m h.pointer h.type := by
  have hr := rdv_range m h.pointer h.type
  have key := C161_exact lw hlw m h ht result pre post { kind := .d } (by simp)
  have hE : Expects lw h.type { kind := .d } (rdv m h.pointer h.type) ↔
      ¬ (h.type.size = 8 ∨ h.type = .u32 ∧ 2 ^ 31 ≤ rdv m h.pointer h.type) := by
    unfold Expects
    generalize rdv m h.pointer h.type = v at hr
    revert ht hr
    cases h.type <;> intro ht hr <;> simp [Ty.signed, Ty.size, InRange, lenBits, Ty.isInt] at ht hr ⊢ <;> omega
  by_cases hc : h.type.size = 8 ∨ h.type = .u32 ∧ 2 ^ 31 ≤ rdv m h.pointer h.type
  · exact iff_of_true (key.1 (fun e => hE.1 e hc)) hc
  · refine iff_of_false ?_ hc
    obtain ⟨_, _, ⟨_, e, _⟩, _⟩ := key.2 (hE.2 hc)
    rw [e]
    exact fun h => nomatch h

/-- A memory with a value at 100. -/
def formatted (t : Ty) (x : Int) (f : List Piece) : Option (List Nat) :=
  match toStringFormat 64 (wrv (mem 0) 100 t x) (some (hnd t 0 0 1)) 300 f with
  | .ok m => some ((List.range 10).map fun i => (m (300 + i)).toNat)
  | _ => none

-- "T=%05hdC" of -42; "%5hhd|" of 200, which is cut to -56; "%d" of 3000000000; "%X".
example : formatted .i16 (-42) (text "T=".toList ++ .conv { zero := true, width := 5, len := .h, kind := .d } :: text ['C']) =
      some [84, 61, 45, 48, 48, 52, 50, 67, 0, 0xEE] ∧
    formatted .u8 200 [.conv { width := 5, len := .hh, kind := .d }, .lit '|'] =
      some [32, 32, 45, 53, 54, 124, 0, 0xEE, 0xEE, 0xEE] ∧
    formatted .u32 3000000000 [.conv { kind := .d }] = none ∧
    formatted .i32 305419896 [.conv { kind := .X }] = some [49, 50, 51, 52, 53, 54, 55, 56, 0, 0xEE] := by decide +kernel

/-! ## The size of the buffer -/

/-- The bytes that a decimal conversion of the own type can take, with the terminator. -/
def maxBytes : Ty → Nat
  | .u8 => 4
  | .i8 => 5
  | .u16 => 6
  | .i16 => 7
  | .u32 => 11
  | .i32 => 12
  | _ => 21

/-- The decimal conversion of the own type. -/
def plain (t : Ty) : Conv := { len := own t, kind := if t.signed then .d else .u }

theorem plain_string (lw : Nat) (m : Mem) (h : Handle) (ht : h.type.isInt = true) (result : Nat) :
    toStringFormat lw m (some h) result [.conv (plain h.type)] =
      .ok (putStr m result (formatInt (plain h.type) (rdv m h.pointer h.type))) := by
  have hr := rdv_range m h.pointer h.type
  have e := sprintf_one lw [] [] (plain h.type) (argument m h)
  rw [show text [] = [] from rfl, List.nil_append] at e
  rw [toStringFormat, e, argument_int m h ht, convert, if_neg, if_neg]
  · simp only [Res.ok_bind, Res.pure_eq, List.nil_append, List.append_nil]
    congr 3
    generalize rdv m h.pointer h.type = v at hr
    revert ht hr
    cases h.type <;> intro ht hr <;>
      simp [plain, own, lenBits, Ty.signed, Ty.isInt, Ty.size, InRange, wrapS, wrapU, BitVec.toInt_ofInt, Int.bmod] at ht hr ⊢ <;>
      omega
  · generalize rdv m h.pointer h.type = v at hr
    revert ht hr
    cases h.type <;> intro ht hr <;> simp [plain, Ty.signed, Ty.isInt, Ty.size, InRange] at ht hr ⊢ <;> omega
  · revert ht
    cases h.type <;> intro ht <;> simp [plain, own, lenBits, Ty.signed, Ty.isInt, Ty.size] at ht ⊢

theorem digits_length_le (n k : Nat) (h : n < 10 ^ k) : (Nat.digits 10 n).length ≤ k := by
  rw [Nat.digits_length_le_iff (by norm_num)]
  exact h

/-- **C162.** How many bytes a decimal conversion of the own type writes at most. -/
theorem C162 (lw : Nat) (m : Mem) (h : Handle) (ht : h.type.isInt = true) (result : Nat) : ∃ s,
    Wrote m result s (toStringFormat lw m (some h) result [.conv (plain h.type)]) ∧ s.length + 1 ≤ maxBytes h.type := by
  have hr := rdv_range m h.pointer h.type
  refine ⟨_, ⟨_, plain_string lw m h ht result, holds_putStr _ _ _, putStr_frame _ _ _⟩, ?_⟩
  generalize rdv m h.pointer h.type = v at hr
  unfold formatInt
  obtain ⟨_, _, _, _, _, e⟩ := field_form (plain h.type) (plain h.type).prec.isNone
    (if v < 0 then ['-'] else if (plain h.type).plus && (plain h.type).kind == .d then ['+'] else [])
    (numeral ((plain h.type).kind == .X) (plain h.type).kind.base ((plain h.type).prec.getD 1) v.natAbs)
  simp only at e ⊢
  rw [e, numeral_length]
  have hb : (plain h.type).kind.base = 10 := by simp only [plain]; split <;> rfl
  rw [hb]
  have hd : ∀ k, v.natAbs < 10 ^ k → (Nat.digits 10 v.natAbs).length ≤ k := fun k => digits_length_le _ k
  revert ht hr
  cases h.type <;> intro ht hr <;> simp [plain, Ty.signed, Ty.isInt, Ty.size, InRange, maxBytes] at ht hr ⊢
  · have := hd 3 (by norm_num; omega)
    rw [if_neg (by omega)]; simp; omega
  · have := hd 3 (by norm_num; omega)
    split <;> simp <;> omega
  · have := hd 5 (by norm_num; omega)
    rw [if_neg (by omega)]; simp; omega
  · have := hd 5 (by norm_num; omega)
    split <;> simp <;> omega
  · have := hd 10 (by norm_num; omega)
    rw [if_neg (by omega)]; simp; omega
  · have := hd 10 (by norm_num; omega)
    split <;> simp <;> omega
  · have := hd 20 (by norm_num; omega)
    rw [if_neg (by omega)]; simp; omega
  · have := hd 19 (by norm_num; omega)
    split <;> simp <;> omega

/-- The value that takes most. -/
def longest : Ty → Int
  | .u8 => 255
  | .i8 => -128
  | .u16 => 65535
  | .i16 => -32768
  | .u32 => 4294967295
  | .i32 => -2147483648
  | .u64 => 18446744073709551615
  | _ => -9223372036854775808

/-- **C162.** The bound is met: no smaller buffer does for all values. -/
theorem C162_tight (lw : Nat) (m : Mem) (h : Handle) (ht : h.type.isInt = true) (result : Nat)
    (hv : rdv m h.pointer h.type = longest h.type) : ∃ s,
    Wrote m result s (toStringFormat lw m (some h) result [.conv (plain h.type)]) ∧ s.length + 1 = maxBytes h.type := by
  refine ⟨_, ⟨_, plain_string lw m h ht result, holds_putStr _ _ _, putStr_frame _ _ _⟩, ?_⟩
  rw [hv]
  revert ht
  cases h.type <;> intro ht <;> first | decide +kernel | cases ht

example : ∀ t : Ty, t.isInt = true → rdv (wrv (mem 0) 100 t (longest t)) 100 t = longest t := by
  intro t; cases t <;> decide +kernel

/-! ## Floating point -/

theorem natAbs_nearest {x : ℚ} (h : 0 ≤ x) : ((Round.nearest x).natAbs : ℚ) = Round.nearest x := by
  have h0 : 0 ≤ Round.nearest x := by
    have := Round.nearest_err x
    rw [abs_le] at this
    by_contra hn
    have h1 : Round.nearest x ≤ -1 := by omega
    have h2 : (Round.nearest x : ℚ) ≤ -1 := by exact_mod_cast h1
    linarith
  rw [Nat.cast_natAbs, abs_of_nonneg h0]

theorem readFixed_point (k p n : Nat) :
    readFixed p (List.replicate k '0' ++ (numeral false 10 1 (n / 10 ^ p) ++
      if p = 0 then [] else '.' :: numeral false 10 p (n % 10 ^ p))) = some ((n : ℚ) / 10 ^ p) := by
  have hne : List.replicate k '0' ++ numeral false 10 1 (n / 10 ^ p) ≠ [] := by
    simp [numeral_ne false 10 1 (n / 10 ^ p) (.inl (by norm_num))]
  by_cases hp : p = 0
  · subst hp
    rw [readFixed, if_pos rfl, if_pos rfl, List.append_nil, readNat_numeral _ _ _ _ _ (by norm_num) (by norm_num) hne]
    simp
  · rw [readFixed, if_neg hp, if_neg hp, ← List.append_assoc]
    have hlt : n % 10 ^ p < 10 ^ p := Nat.mod_lt _ (by positivity)
    have hlen : (numeral false 10 p (n % 10 ^ p)).length = p := by
      rw [numeral_length]
      have := digits_length_le _ _ hlt
      omega
    have hl : (List.replicate k '0' ++ numeral false 10 1 (n / 10 ^ p) ++ '.' :: numeral false 10 p (n % 10 ^ p)).length -
        (p + 1) = (List.replicate k '0' ++ numeral false 10 1 (n / 10 ^ p)).length := by
      rw [List.length_append (bs := '.' :: _), List.length_cons, hlen]
      omega
    rw [hl, List.take_left' rfl, List.drop_left' rfl]
    have e2 := readNat_numeral false 10 p (n % 10 ^ p) 0 (by norm_num) (by norm_num)
      (by simpa using numeral_ne false 10 p (n % 10 ^ p) (.inl (by omega)))
    rw [List.replicate_zero, List.nil_append] at e2
    simp only [readNat_numeral _ _ _ _ _ (by norm_num) (by norm_num) hne, e2]
    have h10 : (10 : ℚ) ^ p ≠ 0 := by positivity
    have : (n : ℚ) = 10 ^ p * (n / 10 ^ p : Nat) + (n % 10 ^ p : Nat) := by
      exact_mod_cast (Nat.div_add_mod n (10 ^ p)).symm
    change some _ = _
    congr 1
    field_simp
    rw [this]
    push_cast
    ring

/-- The sign bit is the sign. -/
theorem decode_signed (f : Fmt) (b : Nat) (hb : b < 2 * f.sign) (x : ℚ) (h : decode f b = .fin x) :
    x = if decide (f.sign ≤ b) then -|x| else |x| := by
  have hs : 0 < f.sign := by unfold Fmt.sign; positivity
  have hd : (b / f.sign % 2 = 1) ↔ f.sign ≤ b := by
    have h2 : b / f.sign < 2 := by rw [Nat.div_lt_iff_lt_mul hs]; omega
    constructor
    · intro e
      by_contra hn
      rw [Nat.div_eq_of_lt (by omega)] at e
      omega
    · intro e
      have := (Nat.le_div_iff_mul_le hs).2 (by omega : 1 * f.sign ≤ b)
      omega
  rw [decode] at h
  split at h
  · cases h
  · split at h
    · cases h
    · injection h with h
      have hm := mag_nonneg (f := f) (b % f.sign)
      by_cases hc : f.sign ≤ b
      · rw [if_pos (by simpa using hd.2 hc)] at h
        rw [if_pos (by simpa using hc), ← h, abs_neg, abs_of_nonneg hm]
      · rw [if_neg (by simpa using fun e => hc (hd.1 e))] at h
        rw [if_neg (by simpa using hc), ← h, abs_of_nonneg hm]

/-- The promoted `double`. -/
theorem argument_float (m : Mem) (h : Handle) (ht : h.type.isInt = false) : ∃ neg, argument m h = .dbl neg (valueOf m h) ∧
    ∀ x, valueOf m h = .fin x → x = if neg then -|x| else |x| := by
  refine ⟨decide ((fmt h.type).sign ≤ rdv m h.pointer h.type), ?_, ?_⟩
  · unfold argument valueOf
    revert ht
    cases h.type <;> intro ht <;> first | rfl | cases ht
  · intro x hx
    have hr := rdv_range m h.pointer h.type
    have hu : h.type.signed = false := by
      revert ht; cases h.type <;> intro ht <;> first | rfl | cases ht
    rw [hu, InRange, if_neg (by decide)] at hr
    have hsz := sign_size ht
    have key := decode_signed (fmt h.type) (rdv m h.pointer h.type).toNat (by
      rw [hsz]
      have := hr.2
      have h2 : ((2 ^ (8 * h.type.size) : Nat) : ℤ) = 2 ^ (8 * h.type.size) := by push_cast; rfl
      omega) x hx
    rw [key]
    have : ((fmt h.type).sign ≤ (rdv m h.pointer h.type).toNat) ↔ (((fmt h.type).sign : ℤ) ≤ rdv m h.pointer h.type) := by omega
    simp only [this]
    split <;> simp

/-- **C163.** A finite `float` or `double` printed with `%.pf` reads as the decimal fraction with `p` places that is
nearest to the value: it is wrong by at most half a unit of the last place. -/
theorem C163 (lw : Nat) (m : Mem) (h : Handle) (ht : h.type.isInt = false) (result : Nat) (pre post : List Char)
    (c : Conv) (hk : c.kind = .f) (hl : c.len = .none ∨ c.len = .l) (x : ℚ) (hx : valueOf m h = .fin x) : ∃ body y,
    Wrote m result (pre ++ body ++ post) (toStringFormat lw m (some h) result (text pre ++ .conv c :: text post)) ∧
    readDec (c.prec.getD 6) body = some y ∧ |y - x| ≤ 1 / 2 / 10 ^ c.prec.getD 6 ∧ c.width ≤ body.length := by
  obtain ⟨neg, ha, hs⟩ := argument_float m h ht
  have hs := hs x hx
  have h10 : (0 : ℚ) < 10 ^ c.prec.getD 6 := by positivity
  rw [toStringFormat, ha, hx, sprintf_one, convert, if_pos ⟨hk, hl⟩]
  refine ⟨_, _, ⟨_, rfl, holds_putStr _ _ _, putStr_frame _ _ _⟩, read_field (readFixed (c.prec.getD 6)) c true neg c.plus _
    ?_ ?_ _ (fun k _ => readFixed_point k (c.prec.getD 6) _), ?_, ?_⟩
  · simp [numeral_ne false 10 1 _ (.inl (by norm_num))]
  · intro d hd
    rcases List.mem_append.1 hd with hd | hd
    · have := numeral_chars _ _ _ _ (by norm_num) (by norm_num) d hd
      exact ⟨this.1, this.2.1, this.2.2.1⟩
    · split at hd
      · cases hd
      · rcases List.mem_cons.1 hd with rfl | hd
        · decide
        · have := numeral_chars _ _ _ _ (by norm_num) (by norm_num) d hd
          exact ⟨this.1, this.2.1, this.2.2.1⟩
  · rw [natAbs_nearest (by positivity)]
    have he := Round.nearest_err (|x| * 10 ^ c.prec.getD 6)
    have e1 : (Round.nearest (|x| * 10 ^ c.prec.getD 6) : ℚ) / 10 ^ c.prec.getD 6 - |x| =
        (Round.nearest (|x| * 10 ^ c.prec.getD 6) - |x| * 10 ^ c.prec.getD 6) / 10 ^ c.prec.getD 6 := by
      field_simp
    have e2 : |(Round.nearest (|x| * 10 ^ c.prec.getD 6) : ℚ) / 10 ^ c.prec.getD 6 - (|x|)| ≤ 1 / 2 / 10 ^ c.prec.getD 6 := by
      rw [e1, abs_div, abs_of_pos h10]
      exact div_le_div_of_nonneg_right he h10.le
    cases neg
    · rw [if_neg (by decide)] at hs ⊢
      rw [hs, abs_abs]; exact e2
    · rw [if_pos rfl] at hs ⊢
      rw [hs, abs_neg, abs_abs, ← abs_neg]
      refine le_trans (le_of_eq ?_) e2
      congr 1; ring
  · unfold formatDouble
    obtain ⟨_, _, _, _, _, e⟩ := field_form c true _ _
    simp only
    rw [e]
    exact le_max_left _ _

/-- **C163.** Every conversion for integers is undefined for them, and `%f` for an integer. -/
theorem C163_undefined (lw : Nat) (m : Mem) (h : Handle) (result : Nat) (pre post : List Char) (c : Conv)
    (hk : (c.kind == .f) = h.type.isInt) :
    toStringFormat lw m (some h) result (text pre ++ .conv c :: text post) = .ub := by
  cases ht : h.type.isInt
  · obtain ⟨neg, ha, _⟩ := argument_float m h ht
    rw [toStringFormat, ha, sprintf_one, convert, if_neg]
    · rfl
    · rintro ⟨e, _⟩
      rw [ht, e] at hk
      cases hk
  · rw [toStringFormat, argument_int m h ht, sprintf_one, convert, if_pos]
    · rfl
    · left
      rw [ht] at hk
      exact beq_iff_eq.1 hk

-- "%.2f" of -2.5; "%.7f" of the float next to 0.1; "%.0f" of -0; "%+06f" of infinity; "%d" of 2.5.
example : formatted .flt 0xC0200000 [.conv { prec := some 2, kind := .f }] =
      some [45, 50, 46, 53, 48, 0, 0xEE, 0xEE, 0xEE, 0xEE] ∧
    formatted .flt 0x3DCCCCCD [.conv { prec := some 7, kind := .f }] =
      some [48, 46, 49, 48, 48, 48, 48, 48, 48, 0] ∧
    formatted .flt 0x80000000 [.conv { prec := some 0, kind := .f }] =
      some [45, 48, 0, 0xEE, 0xEE, 0xEE, 0xEE, 0xEE, 0xEE, 0xEE] ∧
    formatted .dbl 0x7FF0000000000000 [.conv { plus := true, zero := true, width := 6, kind := .f }] =
      some [32, 32, 43, 105, 110, 102, 0, 0xEE, 0xEE, 0xEE] ∧
    formatted .dbl 0x4004000000000000 [.conv { kind := .d }] = none := by decide +kernel

/-! ## The size of the buffer for floating point -/

theorem mag_lt (f : Fmt) (he : 1 ≤ f.eb) (a : Nat) (h : a < f.infBits) : mag f a < 2 ^ ((2 : ℤ) ^ (f.eb - 1)) := by
  have hpow : (2 : ℤ) ^ f.eb = 2 * 2 ^ (f.eb - 1) := by
    obtain ⟨k, hk⟩ : ∃ k, f.eb = k + 1 := ⟨f.eb - 1, by omega⟩
    rw [hk, pow_succ, Nat.add_sub_cancel]; ring
  have h1 : (1 : ℤ) ≤ 2 ^ (f.eb - 1) := one_le_pow₀ (by norm_num)
  have hq : f.qmin = 2 - 2 ^ (f.eb - 1) - f.mb := rfl
  have hm : 0 < 2 ^ f.mb := by positivity
  rw [mag]
  split_ifs with h0
  · have ha : a < 2 ^ f.mb := by
      rcases Nat.div_eq_zero_iff.1 h0 with h | h <;> omega
    have ha' : (a : ℚ) < 2 ^ (f.mb : ℤ) := by rw [zpow_natCast]; exact_mod_cast ha
    calc (a : ℚ) * 2 ^ f.qmin < 2 ^ (f.mb : ℤ) * 2 ^ f.qmin := mul_lt_mul_of_pos_right ha' (two_zpow_pos _)
      _ = 2 ^ ((f.mb : ℤ) + f.qmin) := (zpow_add₀ (by norm_num) _ _).symm
      _ ≤ _ := zpow_le_zpow_right₀ (by norm_num) (by omega)
  · have hE : a / 2 ^ f.mb < 2 ^ f.eb - 1 := by
      rw [Nat.div_lt_iff_lt_mul hm]; exact h
    have hE' : ((a / 2 ^ f.mb : Nat) : ℤ) + 2 ≤ 2 ^ f.eb := by
      have : a / 2 ^ f.mb + 2 ≤ 2 ^ f.eb := by
        generalize a / 2 ^ f.mb = E at hE
        omega
      exact_mod_cast this
    have hr : 2 ^ f.mb + a % 2 ^ f.mb < 2 ^ (f.mb + 1) := by
      have := Nat.mod_lt a hm
      rw [pow_succ]; omega
    have hr' : ((2 ^ f.mb + a % 2 ^ f.mb : Nat) : ℚ) < 2 ^ ((f.mb + 1 : Nat) : ℤ) := by
      rw [zpow_natCast]; exact_mod_cast hr
    calc _ < (2 : ℚ) ^ ((f.mb + 1 : Nat) : ℤ) * 2 ^ (f.qmin + (a / 2 ^ f.mb : Nat) - 1) :=
          mul_lt_mul_of_pos_right hr' (two_zpow_pos _)
      _ = 2 ^ (((f.mb + 1 : Nat) : ℤ) + (f.qmin + (a / 2 ^ f.mb : Nat) - 1)) := (zpow_add₀ (by norm_num) _ _).symm
      _ ≤ _ := zpow_le_zpow_right₀ (by norm_num) (by push_cast at hE' ⊢; omega)

theorem finite_lt (f : Fmt) (he : 1 ≤ f.eb) (b : Nat) (x : ℚ) (h : decode f b = .fin x) : |x| < 2 ^ ((2 : ℤ) ^ (f.eb - 1)) := by
  rw [decode] at h
  split at h
  · cases h
  · split at h
    · cases h
    · next h1 h2 =>
      injection h with h
      have hm := mag_lt f he (b % f.sign) (by omega)
      have h0 := mag_nonneg (f := f) (b % f.sign)
      rw [← h]
      split
      · rw [abs_neg, abs_of_nonneg h0]; exact hm
      · rw [abs_of_nonneg h0]; exact hm

/-- The digits before the point of the largest values. -/
def maxWhole : Ty → Nat
  | .dbl => 309
  | _ => 39

theorem small_lt (t : Ty) (ht : t.isInt = false) (b : Nat) (x : ℚ) (h : decode (fmt t) b = .fin x) :
    |x| + 1 ≤ (10 : ℚ) ^ maxWhole t - 1 := by
  have key := finite_lt (fmt t) (by cases t <;> decide) b x h
  have aux : ∀ A B : ℚ, |x| < A → A + 2 ≤ B → |x| + 1 ≤ B - 1 := fun A B h h' => by linarith
  have hn : (2 ^ 128 + 2 : Nat) ≤ 10 ^ 39 ∧ (2 ^ 1024 + 2 : Nat) ≤ 10 ^ 309 := by decide +kernel
  have h1 : (2 : ℚ) ^ 128 + 2 ≤ 10 ^ 39 := by exact_mod_cast hn.1
  have h2 : (2 : ℚ) ^ 1024 + 2 ≤ 10 ^ 309 := by exact_mod_cast hn.2
  cases t <;> simp only [Ty.isInt, reduceCtorEq] at ht
  · exact aux _ _ key h1
  · exact aux _ _ key h2

/-- **C163.** The bytes that `%.pf` takes at most, with the sign and the terminator. -/
theorem C163_size (lw : Nat) (m : Mem) (h : Handle) (ht : h.type.isInt = false) (result : Nat) (p : Nat) : ∃ s,
    Wrote m result s (toStringFormat lw m (some h) result [.conv { prec := some p, kind := .f }]) ∧
      s.length + 1 ≤ 1 + maxWhole h.type + (if p = 0 then 0 else 1 + p) + 1 := by
  obtain ⟨neg, ha, _⟩ := argument_float m h ht
  have e := sprintf_one lw [] [] { prec := some p, kind := .f } (argument m h)
  rw [show text [] = [] from rfl, List.nil_append] at e
  rw [toStringFormat, e, ha, convert, if_pos ⟨rfl, .inl rfl⟩]
  refine ⟨_, ⟨_, rfl, holds_putStr _ _ _, putStr_frame _ _ _⟩, ?_⟩
  simp only [List.nil_append, List.append_nil]
  have hw : 39 ≤ maxWhole h.type := by cases h.type <;> decide
  have hsign : (if neg then ['-'] else if ({ prec := some p, kind := .f } : Conv).plus then ['+'] else []).length ≤ 1 := by
    cases neg <;> simp
  cases hv : valueOf m h with
  | nan =>
    rw [formatDouble]
    obtain ⟨_, _, _, _, _, e⟩ := field_form { prec := some p, kind := .f } false [] "nan".toList
    rw [e]
    simp; omega
  | inf s =>
    rw [formatDouble]
    obtain ⟨_, _, _, _, _, e⟩ := field_form { prec := some p, kind := .f } false
      (if neg then ['-'] else if ({ prec := some p, kind := .f } : Conv).plus then ['+'] else []) "inf".toList
    simp only
    rw [e]
    simp at hsign ⊢; omega
  | fin x =>
    have hx := small_lt h.type ht _ x hv
    have h10 : (0 : ℚ) < 10 ^ p := by positivity
    rw [formatDouble]
    simp only [Option.getD_some]
    generalize hn : (Round.nearest (|x| * 10 ^ p)).natAbs = n
    obtain ⟨_, _, _, _, _, e⟩ := field_form { prec := some p, kind := .f } true
      (if neg then ['-'] else if ({ prec := some p, kind := .f } : Conv).plus then ['+'] else [])
      (numeral false 10 1 (n / 10 ^ p) ++ if p = 0 then [] else '.' :: numeral false 10 p (n % 10 ^ p))
    rw [e, List.length_append, numeral_length]
    have hlt : n / 10 ^ p < 10 ^ maxWhole h.type := by
      rw [Nat.div_lt_iff_lt_mul (by positivity)]
      have h1 : (n : ℚ) ≤ |x| * 10 ^ p + 1 / 2 := by
        rw [← hn, natAbs_nearest (by positivity)]
        have := abs_le.1 (Round.nearest_err (|x| * 10 ^ p))
        linarith
      have h2 : (1 : ℚ) ≤ 10 ^ p := one_le_pow₀ (by norm_num)
      have h3 : (n : ℚ) < 10 ^ maxWhole h.type * 10 ^ p := by nlinarith
      exact_mod_cast h3
    have hd := digits_length_le _ _ hlt
    have hf : (if p = 0 then [] else '.' :: numeral false 10 p (n % 10 ^ p)).length = if p = 0 then 0 else 1 + p := by
      split
      · rfl
      · rw [List.length_cons, numeral_length]
        have := digits_length_le _ _ (Nat.mod_lt n (show 0 < 10 ^ p by positivity))
        omega
    rw [hf, show ({ prec := some p, kind := .f } : Conv).width = 0 from rfl]
    generalize (if neg then ['-'] else if ({ prec := some p, kind := .f } : Conv).plus then ['+'] else []).length = k at hsign
    generalize (if p = 0 then 0 else 1 + p) = q
    omega

-- `-FLT_MAX` takes all 47 characters with `%f`.
def fltMax : Option Nat :=
  match toStringFormat 64 (wrv (mem 0) 100 .flt 0xFF7FFFFF) (some (hnd .flt 0 0 1)) 300 [.conv { kind := .f }] with
  | .ok m => (List.range 60).find? fun i => m (300 + i) = 0
  | _ => none
example : fltMax = some 47 ∧ 1 + maxWhole .flt + (1 + 6) = 47 := by decide +kernel

end Gel.Param
