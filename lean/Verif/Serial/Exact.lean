import Verif.Serial.Props

/-!
# Which signed values survive, exactly (C23)
-/
namespace Gel.Serial
open Spec

/-- **C23**, exactly: with a compiler that does not define the shift into the sign bit, a signed value is read back if and only if it has
8 or 16 bits or is not negative. -/
theorem C23_exact (f : Format) (buf buf' : Mem) (off : Nat) (v : BitVec f.width) (n : Nat) (hoff : off + f.size ≤ buf.length)
    (hs : serialize f buf off v = .ok (buf', n)) :
    (∃ r, deserializeS false f buf' off = .ok (r, f.size) ∧ r.toInt = v.toInt) ↔ f.size ≤ 2 ∨ 0 ≤ v.toInt := by
  constructor
  · rintro ⟨r, h, -⟩
    by_cases hf : f.size ≤ 2
    · exact .inl hf
    · refine .inr (Int.not_lt.1 fun hv => ?_)
      have h4 : 4 ≤ f.size := by cases f <;> simp_all [Format.size]
      rw [C23_negative f buf buf' off v n hoff h4 hv hs] at h
      cases h
  · intro hv
    exact C23_signed_partial f buf buf' off v n hoff hv hs

-- -1 with 32 bits is undefined, 2^31 - 1 is read back
example : deserializeS false .u32le [0xff, 0xff, 0xff, 0xff] 0 = .ub ∧
    deserializeS false .u32le [0xff, 0xff, 0xff, 0x7f] 0 = .ok (2147483647, 4) := by decide

end Gel.Serial
