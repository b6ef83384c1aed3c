import Verif.Crc.Few

/-!
# Checksums: Hamming distance of crc16, property C160
-/
namespace Gel.Crc

open Polynomial Spec

theorem outside {m n : List (BitVec 8)} (hl : m.length = n.length) (q : Nat) (hq : (msgBits m)[q]? ≠ (msgBits n)[q]?) :
    q < 8 * m.length := by
  by_contra hcon
  apply hq
  rw [List.getElem?_eq_none (by rw [length_msgBits]; omega), List.getElem?_eq_none (by rw [length_msgBits]; omega)]

/-- **C160.** `crc16_ccitt` separates messages of any equal length that differ in at most three bits within a window of 32767 bits. -/
theorem C160_window (m n : List (BitVec 8)) (hl : m.length = n.length) (hne : m ≠ n)
    (hd : distance (msgBits m) (msgBits n) ≤ 3) (s : Nat)
    (hw : ∀ q, (msgBits m)[q]? ≠ (msgBits n)[q]? → s ≤ q ∧ q < s + 32767) (c : BitVec 16) :
    crc16 m m.length c ≠ crc16 n n.length c := by
  by_cases ho : distance (msgBits m) (msgBits n) % 2 = 1
  · exact (C21_odd_and_double m n hl).1 ho c
  rw [crc16_eq _ _ _ le_rfl, crc16_eq _ _ _ le_rfl, List.take_length, List.take_length]
  intro he
  obtain ⟨l, h1, h2, h3, h4⟩ := sum_ne p16 upd16_ok coprime16 hl hne c (Res.ok.inj he) s 32767 hw
  obtain ⟨a, rfl⟩ : ∃ a, l = [a] := List.length_eq_one_iff.1 (by omega)
  simp only [List.map_cons, List.map_nil, List.sum_cons, List.sum_nil, add_zero] at h4
  have h5 : φ p16 X ^ a = 1 := by
    have h6 : (1 : (ZMod 2)[X] ⧸ Ideal.span {gen p16}) + 1 = 0 := by
      rw [← map_one (φ p16), ← map_add, add_self, map_zero]
    rw [← add_right_cancel_iff (a := 1), h4, h6]
  have := Nat.le_of_dvd (h3 a (by simp)).1 (orderOf_dvd_of_pow_eq_one h5)
  rw [order16] at this
  have := (h3 a (by simp)).2
  omega

/-- **C160.** A message of up to 4093 bytes followed by its checksum, of which between one and three bits, anywhere in the message or
the trailer, were changed, fails the check. -/
theorem C160_frame (m n : List (BitVec 8)) (t u c : BitVec 16) (hl : m.length = n.length) (h8 : m.length ≤ 4093)
    (hne : m ++ be16 t ≠ n ++ be16 u) (hd : distance (msgBits (m ++ be16 t)) (msgBits (n ++ be16 u)) ≤ 3)
    (hm : crc16 m m.length c = .ok t) : crc16 n n.length c ≠ .ok u := by
  intro hn
  rw [← (C20_residue m).1] at hm
  rw [← (C20_residue n).1] at hn
  have e' : ∀ (l : List (BitVec 8)) (v : BitVec 16), l.length + 2 = (l ++ be16 v).length := fun l v => by simp [be16]
  have hle : (m ++ be16 t).length = (n ++ be16 u).length := by simp [be16, hl]
  rw [e'] at hm hn
  refine C160_window _ _ hle hne hd 0 (fun q hq => ⟨by omega, ?_⟩) c (hm.trans hn.symm)
  have := outside hle q hq
  rw [← e'] at this
  omega

/-- **C160.** Both limits are exact: two bits 32767 bits apart are not noticed, nor four bits within 17, whatever the message. -/
theorem C160_tight (m n : List (BitVec 8)) (hl : m.length = n.length) (i : Nat) (c : BitVec 16)
    (h : (∀ q, (msgBits m)[q]? ≠ (msgBits n)[q]? ↔ q = i ∨ q = i + 32767) ∨
      (∀ q, (msgBits m)[q]? ≠ (msgBits n)[q]? ↔ q = i ∨ q = i + 4 ∨ q = i + 11 ∨ q = i + 16)) :
    crc16 m m.length c = crc16 n n.length c := by
  rw [crc16_eq _ _ _ le_rfl, crc16_eq _ _ _ le_rfl, List.take_length, List.take_length]
  congr 1
  rcases h with h | h
  · refine same_crc_of_sum p16 upd16_ok coprime16 hl c {i, i + 32767} (by simpa using h) (i + 32767) (by simp) ?_
    have h1 : φ p16 X ^ 32767 = 1 := by rw [← order16]; exact pow_orderOf_eq_one _
    rw [Finset.sum_pair (by simp), Nat.sub_self, Nat.add_sub_cancel_left, h1, pow_zero, ← map_one (φ p16), ← map_add, add_self,
      map_zero]
  · refine same_crc_of_sum p16 upd16_ok coprime16 hl c {i, i + 4, i + 11, i + 16} (by simpa using h) (i + 16) (by simp) ?_
    have h0 : φ p16 P16 = 0 := by rw [← gen16, φ_gen]
    rw [P16] at h0
    simp only [map_add, map_pow, map_one] at h0
    rw [Finset.sum_insert (by simp), Finset.sum_insert (by simp), Finset.sum_insert (by simp), Finset.sum_singleton,
      show i + 16 - i = 16 by omega, show i + 16 - (i + 4) = 12 by omega, show i + 16 - (i + 11) = 5 by omega, Nat.sub_self]
    rw [← h0]
    ring

example : crc16 [0x07, 0x81] 2 7 ≠ crc16 [0x01, 0x80] 2 7 ∧ distance (msgBits [0x07, 0x81]) (msgBits [0x01, 0x80]) = 3 := by
  decide +kernel

/-- Four wrong bits that are not noticed. -/
example : crc16 [1, 2, 3] 3 7 = crc16 [0x89, 0x12, 0x83] 3 7 ∧ distance (msgBits [1, 2, 3]) (msgBits [0x89, 0x12, 0x83]) = 4 := by
  decide +kernel

end Gel.Crc
