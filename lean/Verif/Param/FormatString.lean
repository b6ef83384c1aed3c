import Verif.Param.FormatProps

/-!
# Parameter: property C196, format strings

`Param/Format` takes formats already parsed; here the string itself is parsed, as C11 7.21.6.1p4 describes it. Not modelled are the flags
space and `#`, `*`, the conversions other than `d`, `i`, `u`, `o`, `x`, `X` and `f`, and the length modifiers other than `hh`, `h`, `l` and `ll`:
for strings with these `parse` gives nothing.
-/
namespace Gel.Param
open Gel.Ieee Spec

/-! ## Model -/

def isFlag (c : Char) : Bool := c == '-' || c == '+' || c == '0'

def isDig (c : Char) : Bool := decide ('0' ≤ c) && decide (c ≤ '9')

/-- The value of decimal digits, 0 if there are none. -/
def decimal (s : List Char) : Nat := s.foldl (fun a c => 10 * a + (c.toNat - '0'.toNat)) 0

/-- The length modifier, C11 7.21.6.1p7. -/
def parseLen : List Char → Len × List Char
  | 'h' :: 'h' :: s => (.hh, s)
  | 'h' :: s => (.h, s)
  | 'l' :: 'l' :: s => (.ll, s)
  | 'l' :: s => (.l, s)
  | s => (.none, s)

/-- The conversion specifier, C11 7.21.6.1p8. -/
def kindOf : Char → Option Kind
  | 'd' | 'i' => some .d
  | 'u' => some .u
  | 'o' => some .o
  | 'x' => some .x
  | 'X' => some .X
  | 'f' => some .f
  | _ => none

/-- The precision, C11 7.21.6.1p4: a point without digits means 0. -/
def parsePrec : List Char → Option Nat × List Char
  | '.' :: s => (some (decimal (s.takeWhile isDig)), s.dropWhile isDig)
  | s => (none, s)

/-- A conversion specification behind its `%`, and what follows it, C11 7.21.6.1p4. -/
def parseConv (s : List Char) : Option (Conv × List Char) :=
  let fs := s.takeWhile isFlag
  let s := s.dropWhile isFlag
  let w := s.takeWhile isDig
  let p := parsePrec (s.dropWhile isDig)
  let l := parseLen p.2
  match l.2 with
  | [] => none
  | c :: s =>
    match kindOf c with
    | none => none
    | some k => some (⟨fs.contains '-', fs.contains '+', fs.contains '0', decimal w, p.1, l.1, k⟩, s)

/-- At most `n` pieces of a format. -/
def parseN : Nat → List Char → Option (List Piece)
  | _, [] => some []
  | 0, _ => none
  | n + 1, c :: s =>
    if c = '%' then
      if s.head? = some '%' then (parseN n s.tail).map (.lit '%' :: ·)
      else match parseConv s with
        | none => none
        | some (c, s) => (parseN n s).map (.conv c :: ·)
    else (parseN n s).map (.lit c :: ·)

/-- A format string as pieces. -/
def parse (s : List Char) : Option (List Piece) := parseN s.length s

/-- `parameter_to_string_format` with a format string, parameter.c:234-279; nothing for format strings that are not modelled. -/
def toStringC (lw : Nat) (m : Mem) (h : Option Handle) (result : Nat) (format : List Char) : Option (Res Mem) :=
  match h with
  | none => some (.ok m)
  | some h => (parse format).map (toStringFormat lw m (some h) result)

/-! ## Specification -/

namespace Spec

/-- The format string of a text. -/
def escape : List Char → List Char
  | [] => []
  | c :: s => if c = '%' then '%' :: '%' :: escape s else c :: escape s

/-- The characters of a length modifier. -/
def lenChars : Len → List Char
  | .hh => ['h', 'h']
  | .h => ['h']
  | .none => []
  | .l => ['l']
  | .ll => ['l', 'l']

/-- The characters of a precision. -/
def precChars : Option (List Char) → List Char
  | none => []
  | some ds => '.' :: ds

/-- `fs` are flags, `ws` the digits of the width `c.width`, `ps` those of the precision, and `k` the letter of `c`. -/
structure Denotes (fs ws : List Char) (ps : Option (List Char)) (k : Char) (c : Conv) : Prop where
  flags : ∀ x ∈ fs, x = '-' ∨ x = '+' ∨ x = '0'
  left : c.left = true ↔ '-' ∈ fs
  plus : c.plus = true ↔ '+' ∈ fs
  zero : c.zero = true ↔ '0' ∈ fs
  width : ws = [] ∧ c.width = 0 ∨ readNat 10 ws = some c.width ∧ ws.head? ≠ some '0'
  prec : ps = none ∧ c.prec = none ∨ ps = some [] ∧ c.prec = some 0 ∨ ∃ ds n, ps = some ds ∧ readNat 10 ds = some n ∧ c.prec = some n
  kind : (c.kind, k) ∈ [(.d, 'd'), (.d, 'i'), (.u, 'u'), (.o, 'o'), (.x, 'x'), (.X, 'X'), (.f, 'f')]

end Spec

/-! ## Lemmas -/

theorem readMore_decimal (s : List Char) : ∀ (a n : Nat), readMore 10 a s = some n →
    (∀ c ∈ s, isDig c = true) ∧ s.foldl (fun a c => 10 * a + (c.toNat - '0'.toNat)) a = n := by
  induction s with
  | nil => intro a n h; exact ⟨by simp, by simpa [readMore] using h⟩
  | cons c s ih =>
    intro a n h
    rw [readMore] at h
    by_cases h1 : '0' ≤ c ∧ c ≤ '9'
    · rw [digit, if_pos h1] at h
      simp only at h
      split_ifs at h with h2
      obtain ⟨i1, i2⟩ := ih _ _ h
      refine ⟨?_, i2⟩
      intro x hx
      rcases List.mem_cons.1 hx with rfl | hx
      · simp [isDig, h1.1, h1.2]
      · exact i1 x hx
    · rw [digit, if_neg h1] at h
      split at h
      · rename_i d hd
        split_ifs at hd with h2 h3
        · cases hd
          split_ifs at h with h4
          omega
        · cases hd
          split_ifs at h with h4
          omega
      · cases h

theorem readNat_decimal {s : List Char} {n : Nat} (h : readNat 10 s = some n) : (∀ c ∈ s, isDig c = true) ∧ decimal s = n := by
  rw [readNat] at h
  split_ifs at h
  exact readMore_decimal s 0 n h

theorem takeWhile_append_stop {p : Char → Bool} (a b : List Char) (ha : ∀ c ∈ a, p c = true) (hb : ∀ c, b.head? = some c → p c = false) :
    (a ++ b).takeWhile p = a ∧ (a ++ b).dropWhile p = b := by
  induction a with
  | nil =>
    cases b with
    | nil => simp
    | cons c b => simp [hb c rfl]
  | cons x a ih =>
    obtain ⟨i1, i2⟩ := ih fun c hc => ha c (List.mem_cons_of_mem _ hc)
    have := ha x (by simp)
    simp [this, i1, i2]

theorem isDig_flag {c : Char} (h : isDig c = true) (h0 : c ≠ '0') : isFlag c = false := by
  simp only [isDig, Bool.and_eq_true, decide_eq_true_eq] at h
  have h1 : c ≠ '-' := by rintro rfl; exact absurd h.1 (by decide)
  have h2 : c ≠ '+' := by rintro rfl; exact absurd h.1 (by decide)
  simp [isFlag, h0, h1, h2]

theorem kind_char {c : Conv} {k : Char}
    (h : (c.kind, k) ∈ [(.d, 'd'), (.d, 'i'), (.u, 'u'), (.o, 'o'), (.x, 'x'), (.X, 'X'), (.f, 'f')]) :
    kindOf k = some c.kind ∧ isDig k = false ∧ isFlag k = false ∧ k ≠ '.' ∧ k ≠ 'h' ∧ k ≠ 'l' ∧ k ≠ '%' := by
  simp only [List.mem_cons, Prod.mk.injEq, List.not_mem_nil, or_false] at h
  rcases h with h | h | h | h | h | h | h <;> (rw [h.1, h.2]; decide)

theorem parseLen_eq (l : Len) (k : Char) (rest : List Char) (h1 : k ≠ 'h') (h2 : k ≠ 'l') : parseLen (lenChars l ++ k :: rest) = (l, k :: rest) := by
  cases l
  · rfl
  · rw [lenChars, List.singleton_append, parseLen]
    intro s hs
    exact h1 (List.cons.inj hs).1
  · rw [lenChars, List.nil_append, parseLen]
    · intro s hs; exact h1 (List.cons.inj hs).1
    · intro s hs; exact h1 (List.cons.inj hs).1
    · intro s hs; exact h2 (List.cons.inj hs).1
    · intro s hs; exact h2 (List.cons.inj hs).1
  · rw [lenChars, List.singleton_append, parseLen]
    intro s hs
    exact h2 (List.cons.inj hs).1
  · rfl

/-- A specification is read as what it denotes. -/
theorem parseConv_eq {fs ws : List Char} {ps : Option (List Char)} {k : Char} {c : Conv} (h : Denotes fs ws ps k c) (rest : List Char) :
    parseConv (fs ++ (ws ++ (precChars ps ++ (lenChars c.len ++ k :: rest)))) = some (c, rest) := by
  obtain ⟨k1, k2, k3, k4, k5, k6, -⟩ := kind_char h.kind
  have hw : (∀ x ∈ ws, isDig x = true) ∧ decimal ws = c.width ∧ ws.head? ≠ some '0' := by
    rcases h.width with ⟨rfl, e⟩ | ⟨e, e'⟩
    · exact ⟨by simp, e.symm, by simp⟩
    · exact ⟨(readNat_decimal e).1, (readNat_decimal e).2, e'⟩
  have hlen : ∀ x, (lenChars c.len ++ k :: rest).head? = some x → x = 'h' ∨ x = 'l' ∨ x = k := by
    intro x hx
    cases hl : c.len <;> rw [hl] at hx <;> simp [lenChars] at hx <;> subst hx <;> simp
  have hprec : ∀ x, (precChars ps ++ (lenChars c.len ++ k :: rest)).head? = some x → x = '.' ∨ x = 'h' ∨ x = 'l' ∨ x = k := by
    intro x hx
    cases ps with
    | none => exact .inr (hlen x hx)
    | some ds => simp [precChars] at hx; exact .inl hx.symm
  have nd : ∀ x, x = '.' ∨ x = 'h' ∨ x = 'l' ∨ x = k → isDig x = false ∧ isFlag x = false := by
    rintro x (rfl | rfl | rfl | rfl)
    · decide
    · decide
    · decide
    · exact ⟨k2, k3⟩
  obtain ⟨f1, f2⟩ := takeWhile_append_stop (p := isFlag) fs (ws ++ (precChars ps ++ (lenChars c.len ++ k :: rest)))
    (by intro x hx; rcases h.flags x hx with rfl | rfl | rfl <;> decide)
    (by
      intro x hx
      cases hws : ws with
      | nil => rw [hws] at hx; exact (nd x (hprec x hx)).2
      | cons y ys =>
        rw [hws] at hx hw
        simp at hx hw
        subst hx
        exact isDig_flag hw.1.1 hw.2.2)
  obtain ⟨w1, w2⟩ := takeWhile_append_stop (p := isDig) ws (precChars ps ++ (lenChars c.len ++ k :: rest)) hw.1
    (fun x hx => (nd x (hprec x hx)).1)
  have hp : parsePrec (precChars ps ++ (lenChars c.len ++ k :: rest)) = (c.prec, lenChars c.len ++ k :: rest) := by
    have key : ∀ ds : List Char, (∀ x ∈ ds, isDig x = true) →
        parsePrec (precChars (some ds) ++ (lenChars c.len ++ k :: rest)) = (some (decimal ds), lenChars c.len ++ k :: rest) := by
      intro ds hds
      obtain ⟨d1, d2⟩ := takeWhile_append_stop (p := isDig) ds (lenChars c.len ++ k :: rest) hds
        (fun x hx => (nd x (.inr (hlen x hx))).1)
      rw [precChars, List.cons_append, parsePrec, d1, d2]
    rcases h.prec with ⟨rfl, e⟩ | ⟨rfl, e⟩ | ⟨ds, n, rfl, e1, e⟩
    · rw [e, precChars, List.nil_append, parsePrec]
      intro s hs
      have := hlen '.' (by rw [hs]; rfl)
      rcases this with h | h | h
      · exact absurd h (by decide)
      · exact absurd h (by decide)
      · exact k4 h.symm
    · rw [e, key [] (by simp)]; rfl
    · rw [e, key ds (readNat_decimal e1).1, (readNat_decimal e1).2]
  rw [parseConv]
  simp only [f1, f2, w1, w2, hp, parseLen_eq c.len k rest k5 k6, k1, hw.2.1]
  obtain ⟨cl, cp, cz, cw, cpr, cln, ck⟩ := c
  have e1 := h.left
  have e2 := h.plus
  have e3 := h.zero
  simp only at e1 e2 e3
  have b1 : fs.contains '-' = cl := by rw [Bool.eq_iff_iff, List.contains_iff_mem]; exact e1.symm
  have b2 : fs.contains '+' = cp := by rw [Bool.eq_iff_iff, List.contains_iff_mem]; exact e2.symm
  have b3 : fs.contains '0' = cz := by rw [Bool.eq_iff_iff, List.contains_iff_mem]; exact e3.symm
  rw [b1, b2, b3]

theorem parseN_mono (n : Nat) : ∀ (m : Nat) (s : List Char) (p : List Piece), n ≤ m → parseN n s = some p → parseN m s = some p := by
  induction n with
  | zero =>
    intro m s p _ h
    cases s with
    | nil => cases m <;> simpa [parseN] using h
    | cons c s => simp [parseN] at h
  | succ n ih =>
    intro m s p hm h
    obtain ⟨m, rfl⟩ : ∃ j, m = j + 1 := ⟨m - 1, by omega⟩
    cases s with
    | nil => simpa [parseN] using h
    | cons c s =>
      rw [parseN] at h ⊢
      have key : ∀ (x : Piece) (s : List Char), (parseN n s).map (x :: ·) = some p → (parseN m s).map (x :: ·) = some p := by
        intro x s h
        rw [Option.map_eq_some_iff] at h ⊢
        obtain ⟨q, h1, h2⟩ := h
        exact ⟨q, ih m s q (by omega) h1, h2⟩
      split_ifs at h ⊢
      · exact key _ _ h
      · revert h
        cases parseConv s with
        | none => exact id
        | some r => exact fun h => key _ _ h
      · exact key _ _ h

/-- The string is read as these pieces. -/
def Parses (s : List Char) (p : List Piece) : Prop := ∃ n ≤ s.length, parseN n s = some p

theorem Parses.eq {s : List Char} {p : List Piece} (h : Parses s p) : parse s = some p := by
  obtain ⟨n, hn, h⟩ := h
  exact parseN_mono n _ s p hn h

theorem Parses.nil : Parses [] [] := ⟨0, Nat.le_refl 0, rfl⟩

theorem Parses.text {rest : List Char} {p : List Piece} (h : Parses rest p) (t : List Char) : Parses (escape t ++ rest) (text t ++ p) := by
  induction t with
  | nil => exact h
  | cons c t ih =>
    obtain ⟨n, hn, e⟩ := ih
    by_cases hc : c = '%'
    · rw [escape, if_pos hc]
      refine ⟨n + 1, by simp only [List.cons_append, List.length_cons]; omega, ?_⟩
      rw [List.cons_append, parseN, if_pos rfl, List.cons_append, List.head?_cons, if_pos rfl, List.tail_cons, e, hc]
      rfl
    · rw [escape, if_neg hc]
      refine ⟨n + 1, by simp only [List.cons_append, List.length_cons]; omega, ?_⟩
      rw [List.cons_append, parseN, if_neg hc, e]
      rfl

theorem Parses.conv {rest : List Char} {p : List Piece} (h : Parses rest p) {fs ws : List Char} {ps : Option (List Char)} {k : Char} {c : Conv}
    (hd : Denotes fs ws ps k c) : Parses ('%' :: (fs ++ (ws ++ (precChars ps ++ (lenChars c.len ++ k :: rest))))) (.conv c :: p) := by
  obtain ⟨n, hn, e⟩ := h
  refine ⟨n + 1, by simp only [List.length_cons, List.length_append]; omega, ?_⟩
  have hne : (fs ++ (ws ++ (precChars ps ++ (lenChars c.len ++ k :: rest)))).head? ≠ some '%' := by
    intro hh
    have hm : '%' ∈ fs ∨ '%' ∈ ws ∨ (fs = [] ∧ ws = [] ∧ (precChars ps ++ (lenChars c.len ++ k :: rest)).head? = some '%') := by
      cases fs with
      | cons x fs => simp at hh; simp [hh]
      | nil =>
        cases ws with
        | cons x ws => simp at hh; simp [hh]
        | nil => exact .inr (.inr ⟨rfl, rfl, hh⟩)
    rcases hm with hm | hm | ⟨-, -, hm⟩
    · rcases hd.flags _ hm with h | h | h <;> exact absurd h (by decide)
    · rcases hd.width with ⟨rfl, -⟩ | ⟨e, -⟩
      · cases hm
      · exact absurd ((readNat_decimal e).1 _ hm) (by decide)
    · cases ps with
      | some ds => simp [precChars] at hm
      | none =>
        have hk := (kind_char hd.kind).2.2.2.2.2.2
        cases hl : c.len <;> rw [hl] at hm <;> simp [precChars, lenChars] at hm
        exact hk hm
  rw [parseN, if_pos rfl, if_neg hne, parseConv_eq hd]
  simp only [e]
  rfl

/-- How many conversions there are. -/
def convs (p : List Piece) : Nat := p.countP fun x => match x with
  | .conv _ => true
  | .lit _ => false

theorem sprintf_few (lw : Nat) (p : List Piece) : ∀ as : List Arg, as.length < convs p → sprintf lw p as = .ub := by
  induction p with
  | nil => intro as h; simp [convs] at h
  | cons x p ih =>
    intro as h
    cases x with
    | lit c =>
      rw [sprintf, ih as (by simpa [convs] using h)]
      rfl
    | conv c =>
      cases as with
      | nil => rfl
      | cons a as =>
        rw [sprintf]
        have hh : as.length < convs p := by
          simp [convs] at h
          exact h
        rw [ih as hh]
        cases hc : convert lw c a with
        | ok r => rfl
        | ub => rfl
        | abort =>
          exfalso; revert hc; cases a <;> simp only [convert] <;> split_ifs <;> simp
        | diverge =>
          exfalso; revert hc; cases a <;> simp only [convert] <;> split_ifs <;> simp

/-! ## Properties -/

/-- **C196.** A format string of text, in which every `%` is doubled, around one specification is understood as such. -/
theorem C196_parse (pre post fs ws : List Char) (ps : Option (List Char)) (k : Char) (c : Conv) (h : Denotes fs ws ps k c) :
    parse (escape pre ++ '%' :: (fs ++ (ws ++ (precChars ps ++ (lenChars c.len ++ k :: escape post))))) =
      some (text pre ++ .conv c :: text post) := by
  have h0 := Parses.text Parses.nil post
  rw [List.append_nil, List.append_nil] at h0
  exact (Parses.text (Parses.conv h0 h) pre).eq

/-- **C196.** With the conversion of the parameter's own type in such a string, `parameter_to_string_format` writes the text with a numeral
that reads as the value. -/
theorem C196_int (lw : Nat) (hlw : 0 < lw) (m : Mem) (h : Handle) (ht : h.type.isInt = true) (result : Nat)
    (pre post fs ws : List Char) (ps : Option (List Char)) (k : Char) (c : Conv) (hd : Denotes fs ws ps k c) (hp : c.prec ≠ some 0)
    (hl : c.len = own h.type) (hk : if h.type.signed then k = 'd' ∨ k = 'i' else k = 'u' ∨ k = 'o' ∨ k = 'x' ∨ k = 'X') :
    ∃ body r, toStringC lw m (some h) result (escape pre ++ '%' :: (fs ++ (ws ++ (precChars ps ++ (lenChars c.len ++ k :: escape post))))) = some r ∧
      Wrote m result (pre ++ body ++ post) r ∧ readInt c.kind.base body = some (rdv m h.pointer h.type) ∧ c.width ≤ body.length := by
  have hk' : if h.type.signed then c.kind = .d else c.kind = .u ∨ c.kind = .o ∨ c.kind = .x ∨ c.kind = .X := by
    have := hd.kind
    simp only [List.mem_cons, Prod.mk.injEq, List.not_mem_nil, or_false] at this
    split_ifs at hk ⊢
    · rcases hk with rfl | rfl <;> revert this <;> simp
    · rcases hk with rfl | rfl | rfl | rfl <;> revert this <;> simp <;> intro e <;> simp [e]
  obtain ⟨body, h1, h2, h3⟩ := C161 lw hlw m h ht result pre post c hp hl hk'
  exact ⟨body, _, by rw [toStringC, C196_parse pre post fs ws ps k c hd]; rfl, h1, h2, h3⟩

/-- **C196.** With `%f` in such a string a finite `float` or `double` is written as the nearest decimal fraction with so many places. -/
theorem C196_float (lw : Nat) (m : Mem) (h : Handle) (ht : h.type.isInt = false) (result : Nat) (pre post fs ws : List Char)
    (ps : Option (List Char)) (c : Conv) (hd : Denotes fs ws ps 'f' c) (hl : c.len = .none ∨ c.len = .l) (x : ℚ) (hx : valueOf m h = .fin x) :
    ∃ body y r, toStringC lw m (some h) result (escape pre ++ '%' :: (fs ++ (ws ++ (precChars ps ++ (lenChars c.len ++ 'f' :: escape post))))) = some r ∧
      Wrote m result (pre ++ body ++ post) r ∧ readDec (c.prec.getD 6) body = some y ∧ |y - x| ≤ 1 / 2 / 10 ^ c.prec.getD 6 ∧
      c.width ≤ body.length := by
  have hk : c.kind = .f := by
    have := hd.kind
    simp at this
    exact this
  obtain ⟨body, y, h1, h2, h3, h4⟩ := C163 lw m h ht result pre post c hk hl x hx
  exact ⟨body, y, _, by rw [toStringC, C196_parse pre post fs ws ps 'f' c hd]; rfl, h1, h2, h3, h4⟩

/-- **C196.** A string without a specification is written as the text it stands for, whatever the parameter is. -/
theorem C196_text (lw : Nat) (m : Mem) (h : Handle) (result : Nat) (t : List Char) :
    ∃ r, toStringC lw m (some h) result (escape t) = some r ∧ Wrote m result t r := by
  have h0 := Parses.text Parses.nil t
  rw [List.append_nil, List.append_nil] at h0
  refine ⟨_, by rw [toStringC, h0.eq]; rfl, putStr m result t, ?_, ?_⟩
  · rw [toStringFormat, sprintf_text]; rfl
  · exact ⟨holds_putStr m result t, fun b hb => putStr_frame m result t b hb⟩

/-- **C196.** A string with several specifications is undefined for every parameter, as there is one argument only. -/
theorem C196_many (lw : Nat) (m : Mem) (h : Handle) (result : Nat) (format : List Char) (p : List Piece) (hp : parse format = some p)
    (h2 : 1 < convs p) : toStringC lw m (some h) result format = some .ub := by
  rw [toStringC, hp, Option.map_some, toStringFormat, sprintf_few lw p _ (by simpa using h2)]
  rfl

/-- **C196.** Without a parameter nothing is written, whatever the format is. -/
theorem C196_null (lw : Nat) (m : Mem) (result : Nat) (format : List Char) : toStringC lw m none result format = some (.ok m) := rfl

example : parse "%%T=%-05hd%%|".toList =
    some [.lit '%', .lit 'T', .lit '=', .conv { left := true, zero := true, width := 5, len := .h, kind := .d }, .lit '%', .lit '|'] ∧
    parse "%+.lld".toList = some [.conv { plus := true, prec := some 0, len := .ll, kind := .d }] ∧ parse "%".toList = none ∧
    parse "%*d".toList = none ∧ parse "%d%d".toList = some [.conv { kind := .d }, .conv { kind := .d }] := by decide +kernel

/-- `"%05hd"`. -/
example : Denotes ['0'] ['5'] none 'd' { zero := true, width := 5, len := .h, kind := .d } :=
  ⟨by decide, by decide, by decide, by decide, .inr ⟨by decide, by decide⟩, .inl ⟨rfl, rfl⟩, by decide⟩

/-- What `parameter_to_string_format` writes for a parameter of a type with a value. -/
def formattedC (t : Ty) (v : Int) (format : String) : Option (List Nat) :=
  (parse format.toList).bind (formatted t v)

example : formattedC .i16 (-42) "T=%05hdC" = some [84, 61, 45, 48, 48, 52, 50, 67, 0, 0xEE] ∧
    formattedC .i16 7 "%d%%" = some [55, 37, 0, 0xEE, 0xEE, 0xEE, 0xEE, 0xEE, 0xEE, 0xEE] ∧
    formattedC .i16 7 "%d %d" = none := by decide +kernel

end Gel.Param
