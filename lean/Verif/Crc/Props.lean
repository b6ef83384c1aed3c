import Verif.Crc.Detect

/-!
# Checksums: properties C16 to C21 and C88
-/
namespace Gel.Crc

open Polynomial Spec

/-- "123456789". -/
def check : List (BitVec 8) := [0x31, 0x32, 0x33, 0x34, 0x35, 0x36, 0x37, 0x38, 0x39]

/-- **C16.** `crc16_ccitt` never reads outside the block or the table and returns the remainder of
`crc · X^(8·len) + M · X^16` modulo the CCITT polynomial. -/
theorem C16_remainder (block : List (BitVec 8)) (len : Nat) (hlen : len ≤ block.length) (crc : BitVec 16) :
    ∃ r, crc16 block len crc = .ok r ∧
      poly (bits r) = (poly (bits crc) * X ^ (8 * len) + poly (msgBits (block.take len)) * X ^ 16) %ₘ P16 := by
  refine ⟨_, crc16_eq block len crc hlen, ?_⟩
  rw [fold_mod p16 upd16_ok, gen16, List.length_take, Nat.min_eq_left hlen]

example : crc16 check 9 0xffff = .ok 0x29b1 := by decide +kernel
example : crc16 check 9 0 = .ok 0x31c3 := by decide +kernel
example : crc16 check 10 0 = .ub := by decide +kernel

/-- **C17.** `crc32` never reads outside the buffer or the table and returns the remainder of
`init · X^(8·len) + M · X^32` modulo the IEEE 802.3 polynomial. -/
theorem C17_remainder (buf : List (BitVec 8)) (len : Nat) (hlen : len ≤ buf.length) (init : BitVec 32) :
    ∃ r, crc32 buf len init = .ok r ∧
      poly (bits r) = (poly (bits init) * X ^ (8 * len) + poly (msgBits (buf.take len)) * X ^ 32) %ₘ P32 := by
  refine ⟨_, crc32_eq buf len init hlen, ?_⟩
  rw [fold_mod p32 upd32_ok, gen32, List.length_take, Nat.min_eq_left hlen]

example : crc32 check 9 0xffffffff = .ok 0x0376e6e7 := by decide +kernel

/-- **C18.** The checksum of a concatenation is the checksum of the second part started from that of the first. -/
theorem C18_segments (m n : List (BitVec 8)) :
    (∀ c : BitVec 16, crc16 (m ++ n) (m.length + n.length) c =
      (do let d ← crc16 m m.length c; crc16 n n.length d)) ∧
    (∀ c : BitVec 32, crc32 (m ++ n) (m.length + n.length) c =
      (do let d ← crc32 m m.length c; crc32 n n.length d)) := by
  constructor
  · intro c
    rw [crc16_eq _ _ _ (by simp), crc16_eq _ _ _ le_rfl, Res.ok_bind, crc16_eq _ _ _ le_rfl, ← List.length_append,
      List.take_length, List.take_length, List.take_length, fold_append]
  · intro c
    rw [crc32_eq _ _ _ (by simp), crc32_eq _ _ _ le_rfl, Res.ok_bind, crc32_eq _ _ _ le_rfl, ← List.length_append,
      List.take_length, List.take_length, List.take_length, fold_append]

example : crc16 (check.take 4) 4 0xffff = .ok 0x5349 ∧ crc16 (check.drop 4) 5 0x5349 = .ok 0x29b1 := by decide +kernel

/-- **C19.** Different messages of equal length whose bits agree outside a window of 16 (32) bits have different
checksums. -/
theorem C19_burst (m n : List (BitVec 8)) (hl : m.length = n.length) (hne : m ≠ n) (s : Nat) :
    ((∀ i, i < s ∨ s + 16 ≤ i → (msgBits m)[i]? = (msgBits n)[i]?) →
      ∀ c : BitVec 16, crc16 m m.length c ≠ crc16 n n.length c) ∧
    ((∀ i, i < s ∨ s + 32 ≤ i → (msgBits m)[i]? = (msgBits n)[i]?) →
      ∀ c : BitVec 32, crc32 m m.length c ≠ crc32 n n.length c) := by
  constructor
  · intro h c
    rw [crc16_eq _ _ _ le_rfl, crc16_eq _ _ _ le_rfl, List.take_length, List.take_length]
    exact fun he => burst p16 upd16_ok coprime16 hl hne s h c (Res.ok.inj he)
  · intro h c
    rw [crc32_eq _ _ _ le_rfl, crc32_eq _ _ _ le_rfl, List.take_length, List.take_length]
    exact fun he => burst p32 upd32_ok coprime32 hl hne s h c (Res.ok.inj he)

/-- The window cannot be one bit longer: the generator itself is a burst of 17 bits that is not detected. -/
example : crc16 [0, 0, 0] 3 0 = crc16 [0x01, 0x10, 0x21] 3 0 ∧ crc16 [0, 0, 0] 3 0 ≠ crc16 [0x00, 0xff, 0xff] 3 0 := by
  decide +kernel

/-- **C20.** A message followed by a big-endian trailer checks to zero exactly if the trailer is the message's
checksum. -/
theorem C20_residue (m : List (BitVec 8)) :
    (∀ t c : BitVec 16, crc16 (m ++ be16 t) (m.length + 2) c = .ok 0 ↔ crc16 m m.length c = .ok t) ∧
    (∀ t c : BitVec 32, crc32 (m ++ be32 t) (m.length + 4) c = .ok 0 ↔ crc32 m m.length c = .ok t) := by
  constructor
  · intro t c
    have hl : m.length + 2 = (m ++ be16 t).length := by simp [be16]
    rw [hl, crc16_eq _ _ _ le_rfl, crc16_eq _ _ _ le_rfl, List.take_length, List.take_length, Res.ok.injEq,
      Res.ok.injEq, eq_comm (b := t)]
    exact residue p16 upd16_ok coprime16 (by decide) m (be16 t) t c (msgBits_be16 t) (by simp [be16])
  · intro t c
    have hl : m.length + 4 = (m ++ be32 t).length := by simp [be32]
    rw [hl, crc32_eq _ _ _ le_rfl, crc32_eq _ _ _ le_rfl, List.take_length, List.take_length, Res.ok.injEq,
      Res.ok.injEq, eq_comm (b := t)]
    exact residue p32 upd32_ok coprime32 (by decide) m (be32 t) t c (msgBits_be32 t) (by simp [be32])

example : crc16 (check ++ [0x29, 0xb1]) 11 0xffff = .ok 0 ∧ crc16 (check ++ [0xb1, 0x29]) 11 0xffff ≠ .ok 0 := by
  decide +kernel

/-- **C21.** `crc16_ccitt` separates messages of equal length that differ in an odd number of bits, or in exactly two
bits less than 32767 apart. -/
theorem C21_odd_and_double (m n : List (BitVec 8)) (hl : m.length = n.length) :
    (distance (msgBits m) (msgBits n) % 2 = 1 → ∀ c : BitVec 16, crc16 m m.length c ≠ crc16 n n.length c) ∧
    (∀ i j, i < j → j - i < 32767 → (∀ k, (msgBits m)[k]? ≠ (msgBits n)[k]? ↔ k = i ∨ k = j) →
      ∀ c : BitVec 16, crc16 m m.length c ≠ crc16 n n.length c) := by
  constructor
  · intro h c
    rw [crc16_eq _ _ _ le_rfl, crc16_eq _ _ _ le_rfl, List.take_length, List.take_length]
    refine fun he => odd_weight p16 upd16_ok coprime16 ?_ hl h c (Res.ok.inj he)
    rw [gen16, P16]
    simp only [eval_add, eval_pow, eval_X, one_pow, eval_one]
    decide
  · intro i j hij hd h c
    rw [crc16_eq _ _ _ le_rfl, crc16_eq _ _ _ le_rfl, List.take_length, List.take_length]
    exact fun he => two_bits p16 upd16_ok coprime16 hl hij (by rw [order16]; exact hd) h c (Res.ok.inj he)

example : distance (msgBits [0x00, 0x81]) (msgBits [0x40, 0x80]) = 2 ∧
    crc16 [0x00, 0x81] 2 7 ≠ crc16 [0x40, 0x80] 2 7 := by decide +kernel

/-- **C88.** `crc32` separates messages of equal length that differ in exactly two bits less than 4294967295 apart. -/
theorem C88_double (m n : List (BitVec 8)) (hl : m.length = n.length) (i j : Nat) (hij : i < j)
    (hd : j - i < 4294967295) (h : ∀ k, (msgBits m)[k]? ≠ (msgBits n)[k]? ↔ k = i ∨ k = j) (c : BitVec 32) :
    crc32 m m.length c ≠ crc32 n n.length c := by
  rw [crc32_eq _ _ _ le_rfl, crc32_eq _ _ _ le_rfl, List.take_length, List.take_length]
  exact fun he => two_bits p32 upd32_ok coprime32 hl hij (by rw [order32]; exact hd) h c (Res.ok.inj he)

example : crc32 [0x00, 0x81] 2 7 ≠ crc32 [0x40, 0x80] 2 7 := by decide +kernel

end Gel.Crc
