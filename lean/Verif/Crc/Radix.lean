import Mathlib.Tactic.SplitIfs
import Mathlib.Data.Nat.Bitwise

/-!
# Checksums: computations for error patterns of up to five bits

Sets of exponents are numbers, one bit per exponent, so that the kernel handles a whole set in one operation. The definitions use the
recursors, which the kernel evaluates several times faster than compiled pattern matches.
-/
namespace Gel.Crc

/-! ## The sequence of the highest bits of the residues of the powers of X -/

/-- The sum of `S` shifted by `o + e * m` for the exponents `e` below 32 of the polynomial of `crc32`. -/
def comb (S m o : Nat) : Nat :=
  [0, 1, 2, 4, 5, 7, 8, 10, 11, 12, 16, 22, 23, 26].foldl (fun a e => Nat.xor a (Nat.shiftRight S (o + e * m))) 0

/-- Extend the sequence (`6 * m` bits at a time, with the polynomial in `X ^ m`). -/
def grow : Nat → Nat → Nat → Nat → Nat
  | 0, S, _, _ => S
  | f + 1, S, len, m =>
    bif Nat.ble (64 * m) len then grow f S len (2 * m)
    else grow f (Nat.lor S (Nat.shiftLeft (Nat.mod (comb S m (len - 32 * m)) (2 ^ (6 * m))) len)) (len + 6 * m) m

/-- Bit `t` is the highest bit of the residue of `X ^ t` (for `t < 91671`, see `seq_bit`). -/
def seq : Nat := grow 80 (2 ^ 31) 32 1

/-- The same for `t < 4000`. -/
def short : Nat := Nat.mod seq (2 ^ 8000)

/-! ## Comparing many windows of bits -/

/-- The windows of `n` bits of `S` at the positions in `A` differ pairwise. -/
noncomputable def tri (S n : Nat) : Nat → Bool :=
  Nat.rec (motive := fun _ => Nat → Bool) (fun A => Nat.beq (Nat.land A (Nat.sub A 1)) 0)
    (fun k ih A =>
      Bool.rec (motive := fun _ => Bool)
        (Bool.rec (motive := fun _ => Bool) false (ih (Nat.xor A (Nat.land A (Nat.shiftRight S k)))) (ih (Nat.land A (Nat.shiftRight S k))))
        true (Nat.beq (Nat.land A (Nat.sub A 1)) 0)) n

/-- No window of `n` bits of `S` at a position in `A` is a window of `T` at a position in `B`. -/
noncomputable def apt (S T n : Nat) : Nat → Nat → Bool :=
  Nat.rec (motive := fun _ => Nat → Nat → Bool) (fun A B => Nat.beq A 0 || Nat.beq B 0)
    (fun k ih A B =>
      Bool.rec (motive := fun _ => Bool)
        (Bool.rec (motive := fun _ => Bool)
          (Bool.rec (motive := fun _ => Bool) false
            (ih (Nat.xor A (Nat.land A (Nat.shiftRight S k))) (Nat.xor B (Nat.land B (Nat.shiftRight T k))))
            (ih (Nat.land A (Nat.shiftRight S k)) (Nat.land B (Nat.shiftRight T k))))
          true (Nat.beq B 0))
        true (Nat.beq A 0)) n

/-- One of the two halves of `A` by bit `k` of the windows. -/
def half (S k : Nat) (b : Bool) (A : Nat) : Nat :=
  bif b then Nat.land A (Nat.shiftRight S k) else Nat.xor A (Nat.land A (Nat.shiftRight S k))

/-- The numbers `f d`, `f (d+1)`, … one after the other, with `L` bits each. -/
noncomputable def cat (f : Nat → Nat) (L n : Nat) : Nat → Nat :=
  Nat.rec (motive := fun _ => Nat → Nat) (fun _ => 0) (fun _ ih d => Nat.lor (f d) (Nat.shiftLeft (ih (Nat.add d 1)) L)) n

theorem testBit_half (S k : Nat) (b : Bool) (A i : Nat) :
    (half S k b A).testBit i = (A.testBit i && (S.testBit (k + i) == b)) := by
  have e1 : ∀ a b : Nat, Nat.xor a b = a ^^^ b := fun _ _ => rfl
  have e2 : ∀ a b : Nat, Nat.land a b = a &&& b := fun _ _ => rfl
  have e3 : ∀ a b : Nat, Nat.shiftRight a b = a >>> b := fun _ _ => rfl
  cases b <;> simp only [half, cond_true, cond_false, e1, e2, e3, Nat.testBit_and, Nat.testBit_xor, Nat.testBit_shiftRight] <;>
    cases A.testBit i <;> cases S.testBit (k + i) <;> rfl

theorem tri_succ (S k A : Nat) :
    tri S (k + 1) A = (Nat.beq (Nat.land A (Nat.sub A 1)) 0 || (tri S k (half S k true A) && tri S k (half S k false A))) := by
  show Bool.rec (motive := fun _ => Bool) (Bool.rec (motive := fun _ => Bool) false (tri S k (half S k false A))
    (tri S k (half S k true A))) true (Nat.beq (Nat.land A (Nat.sub A 1)) 0) = _
  cases Nat.beq (Nat.land A (Nat.sub A 1)) 0 <;> cases tri S k (half S k true A) <;> rfl

theorem apt_succ (S T k A B : Nat) :
    apt S T (k + 1) A B = (Nat.beq A 0 || (Nat.beq B 0 || (apt S T k (half S k true A) (half T k true B) &&
      apt S T k (half S k false A) (half T k false B)))) := by
  show Bool.rec (motive := fun _ => Bool) (Bool.rec (motive := fun _ => Bool) (Bool.rec (motive := fun _ => Bool) false
    (apt S T k (half S k false A) (half T k false B)) (apt S T k (half S k true A) (half T k true B)))
    true (Nat.beq B 0)) true (Nat.beq A 0) = _
  cases Nat.beq A 0 <;> cases Nat.beq B 0 <;> cases apt S T k (half S k true A) (half T k true B) <;> rfl

theorem single {A i j : Nat} (h : Nat.beq (Nat.land A (Nat.sub A 1)) 0 = true) (hi : A.testBit i = true) (hj : A.testBit j = true) :
    i = j := by
  have h0 : A &&& (A - 1) = 0 := Nat.eq_of_beq_eq_true h
  have key : ∀ i j, i < j → A.testBit i = true → A.testBit j = true → False := by
    intro i j hij hi hj
    have h1 : A % 2 ^ j ≠ 0 := by
      intro h2
      have h3 : (A % 2 ^ j).testBit i = true := by rw [Nat.testBit_mod_two_pow]; simp [hij, hi]
      rw [h2] at h3
      simp at h3
    have h4 : (A - 1) / 2 ^ j = A / 2 ^ j := by
      have hp : 0 < 2 ^ j := Nat.two_pow_pos j
      have hd := Nat.div_add_mod A (2 ^ j)
      rw [show A - 1 = (A % 2 ^ j - 1) + 2 ^ j * (A / 2 ^ j) by omega, Nat.add_mul_div_left _ _ hp,
        Nat.div_eq_of_lt (by have := Nat.mod_lt A hp; omega)]
      omega
    have h5 : (A &&& (A - 1)).testBit j = true := by
      rw [Nat.testBit_and, hj, Bool.true_and, Nat.testBit_eq_decide_div_mod_eq, h4, ← Nat.testBit_eq_decide_div_mod_eq, hj]
    rw [h0] at h5
    simp at h5
  rcases Nat.lt_trichotomy i j with h | h | h
  · exact (key i j h hi hj).elim
  · exact h
  · exact (key j i h hj hi).elim

theorem tri_spec (S n A : Nat) (h : tri S n A = true) (i j : Nat) (hi : A.testBit i = true) (hj : A.testBit j = true)
    (he : ∀ k < n, S.testBit (k + i) = S.testBit (k + j)) : i = j := by
  induction n generalizing A with
  | zero => exact single h hi hj
  | succ n ih =>
    rw [tri_succ, Bool.or_eq_true, Bool.and_eq_true] at h
    rcases h with h | ⟨h1, h2⟩
    · exact single h hi hj
    · have hn := he n (by omega)
      cases hb : S.testBit (n + i) with
      | true =>
        exact ih _ h1 (by rw [testBit_half, hi, hb]; rfl) (by rw [testBit_half, hj, ← hn, hb]; rfl) fun k hk => he k (by omega)
      | false =>
        exact ih _ h2 (by rw [testBit_half, hi, hb]; rfl) (by rw [testBit_half, hj, ← hn, hb]; rfl) fun k hk => he k (by omega)

theorem apt_spec (S T n A B : Nat) (h : apt S T n A B = true) (i j : Nat) (hi : A.testBit i = true) (hj : B.testBit j = true)
    (he : ∀ k < n, S.testBit (k + i) = T.testBit (k + j)) : False := by
  induction n generalizing A B with
  | zero =>
    have h' : (Nat.beq A 0 || Nat.beq B 0) = true := h
    rw [Bool.or_eq_true] at h'
    rcases h' with h | h
    · rw [Nat.eq_of_beq_eq_true h] at hi
      simp at hi
    · rw [Nat.eq_of_beq_eq_true h] at hj
      simp at hj
  | succ n ih =>
    rw [apt_succ, Bool.or_eq_true, Bool.or_eq_true, Bool.and_eq_true] at h
    rcases h with h | h | ⟨h1, h2⟩
    · rw [Nat.eq_of_beq_eq_true h] at hi
      simp at hi
    · rw [Nat.eq_of_beq_eq_true h] at hj
      simp at hj
    · have hn := he n (by omega)
      cases hb : S.testBit (n + i) with
      | true =>
        exact ih _ _ h1 (by rw [testBit_half, hi, hb]; rfl) (by rw [testBit_half, hj, ← hn, hb]; rfl) fun k hk => he k (by omega)
      | false =>
        exact ih _ _ h2 (by rw [testBit_half, hi, hb]; rfl) (by rw [testBit_half, hj, ← hn, hb]; rfl) fun k hk => he k (by omega)

theorem cat_spec (f : Nat → Nat) (L n d q r : Nat) (hf : ∀ d, f d < 2 ^ L) (hq : q < n) (hr : r < L) :
    (cat f L n d).testBit (L * q + r) = (f (d + q)).testBit r := by
  induction n generalizing d q with
  | zero => omega
  | succ n ih =>
    have e : cat f L (n + 1) d = f d ||| (cat f L n (d + 1)) <<< L := rfl
    rw [e, Nat.testBit_or, Nat.testBit_shiftLeft]
    cases q with
    | zero =>
      rw [Nat.mul_zero, Nat.zero_add, show decide (r ≥ L) = false by simpa using hr, Bool.false_and, Bool.or_false, Nat.add_zero]
    | succ q =>
      have h1 : L * (q + 1) + r = L + (L * q + r) := by rw [Nat.mul_succ]; omega
      rw [h1, Nat.testBit_lt_two_pow (Nat.lt_of_lt_of_le (hf d) (Nat.pow_le_pow_right (by omega) (by omega))), Bool.false_or,
        show decide (L + (L * q + r) ≥ L) = true by simp, Bool.true_and, Nat.add_sub_cancel_left, ih (d + 1) q (by omega)]
      congr 2
      omega

/-! ## Sums of two powers -/

/-- Bit `t` belongs to `X ^ t + X ^ (t + d)`. -/
def pair (L d : Nat) : Nat := Nat.mod (Nat.xor short (Nat.shiftRight short d)) (2 ^ L)

/-- The positions `t > 0` with `t + d < N`. -/
def room (N d : Nat) : Nat := Nat.sub (2 ^ (N - d)) 2

/-- The sums of two powers for the distances `d`, `d+1`, … (`n` of them). -/
noncomputable def pairs (L n d : Nat) : Nat := cat (pair L) L n d

/-- Their positions. -/
noncomputable def rooms (N L n d : Nat) : Nat := cat (room N) L n d

/-- No sum of two powers, of distance `d` to `d + 95`, is `X ^ k` or `X ^ k + 1`, with exponents from 1 to 3005. -/
noncomputable def free4 (d : Nat) : Bool := apt short (pairs 3040 96 d) 31 (2 ^ 3006 - 2) (rooms 3006 3040 96 d)

/-- The exponents up to 91638 with the bits `b` at the end of the windows. -/
def cell3 (b₁ b₂ b₃ : Bool) : Nat := half seq 28 b₃ (half seq 29 b₂ (half seq 30 b₁ (2 ^ 91639 - 1)))

/-- The sums of two powers with exponents from 1 to 299, with the bits `b` at the end of the windows. -/
noncomputable def cell5 (b₁ b₂ : Bool) : Nat :=
  half (pairs 332 299 1) 29 b₂ (half (pairs 332 299 1) 30 b₁ (rooms 300 332 299 1))

end Gel.Crc
