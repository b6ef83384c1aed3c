import Verif.Param.Int16

/-!
# Conversions to `long`, number of values, macros, narrow steps and clones, exactly (C40, C93, C172, C181, C182)
-/
namespace Gel.Param
open Spec

/-- **C40**, exactly: the conversion to `long` of a value that fits is that value if and only if it is not a negative `int8_t`. -/
theorem C40_exact (lw : Nat) (hw : 9 ≤ lw) (m : Mem) (h : Handle) (ht : h.type.isInt = true)
    (hf : InRange true lw (rdv m h.pointer h.type)) :
    toLong lw m (some h) = rdv m h.pointer h.type ↔ ¬ (h.type = .i8 ∧ rdv m h.pointer .i8 < 0) := by
  constructor
  · rintro e ⟨h1, h2⟩
    rw [C40_wrong lw hw m h h1 h2] at e
    omega
  · intro hn
    exact C40_partial lw (by omega) m h ht hf (fun h8 => by by_cases h2 : rdv m h.pointer .i8 < 0 <;> [exact absurd ⟨h8, h2⟩ hn; omega])

/-- **C182**, exactly: with limits in their order the number of values is the same on both machines if and only if the type is neither
`uint16_t` with the full range nor `int16_t` with 32768 values or more. -/
theorem C182_exact (F : Fl) (m : Mem) (h : Handle) (hle : lo m h ≤ hi m h) :
    getTotalValues16 F 64 m (some h) = getTotalValues F 64 m (some h) ↔
      ¬ (h.type = .u16 ∧ hi m h - lo m h + 1 = 65536) ∧ ¬ (h.type = .i16 ∧ 32768 ≤ hi m h - lo m h + 1) := by
  constructor
  · intro e
    constructor
    · rintro ⟨h1, h2⟩
      obtain ⟨e1, e2⟩ := (C182_wrong F m h).1 h1 h2
      rw [e1, e2] at e
      cases e
    · rintro ⟨h1, h2⟩
      obtain ⟨e1, e2⟩ := (C182_wrong F m h).2 h1 h2
      rw [e1, e2] at e
      cases e
  · rintro ⟨h1, h2⟩
    refine C182_same_partial F 64 m h hle (fun ht => ?_) (fun ht => ?_)
    · have r1 := lo_range m h
      have r2 := hi_range m h
      rw [ht] at r1 r2
      simp only [InRange, Ty.signed, Ty.size] at r1 r2
      simp at r1 r2
      have : hi m h - lo m h + 1 ≠ 65536 := fun e => h1 ⟨ht, e⟩
      omega
    · have : ¬ 32768 ≤ hi m h - lo m h + 1 := fun e => h2 ⟨ht, e⟩
      omega

-- -1 of type `int8_t` is 255, 127 is 127; -1 of type `int16_t` is -1
example : toLong 32 (fun _ => 0xff) (some (hnd .i8 0 0 0)) = 255 ∧ toLong 32 (fun _ => 0x7f) (some (hnd .i8 0 0 0)) = 127 ∧
    toLong 32 (fun _ => 0xff) (some (hnd .i16 0 0 0)) = -1 := by decide

-- the last ranges that are the same, and the first that are not
example : getRange16 F0 64 .u16 1 65535 = getRange F0 64 .u16 1 65535 ∧ getRange16 F0 64 .u16 0 65535 ≠ getRange F0 64 .u16 0 65535 ∧
    getRange16 F0 64 .i16 (-1) 32765 = getRange F0 64 .i16 (-1) 32765 ∧
    getRange16 F0 64 .i16 (-1) 32766 ≠ getRange F0 64 .i16 (-1) 32766 := by decide

/-- **C93**, exactly: a limit, default or step that is a value of the type is stored unchanged if and only if the type has at most 32 bits
or the value is from 0 to 2^32 - 1. -/
theorem C93_exact (t : Ty) (ht : t.isInt = true) (x : Int) (hx : InRange t.signed (8 * t.size) x) :
    limitValue t x = x ↔ t.size ≤ 4 ∨ (0 ≤ x ∧ x < 2 ^ 32) := by
  constructor
  · intro e
    by_contra hn
    rw [not_or] at hn
    obtain ⟨h1, h2⟩ := hn
    have h64 : t = .u64 ∨ t = .i64 := by
      cases t <;> simp [Ty.size, Ty.isInt] at h1 ht ⊢
    exact (C93_macro_wrong t h64 x (by omega)).2 e
  · intro h
    exact C93_macro_partial t ht x hx (fun h8 => by rcases h with h | h <;> [omega; exact h])

example : limitValue .i64 4294967295 = 4294967295 ∧ limitValue .i64 (-1) = 4294967295 ∧ limitValue .i32 (-1) = -1 := by decide

/-- **C181**, exactly: a step is the same on both machines if and only if the type is none of `uint8_t`, `int8_t` and `int16_t`, or step·mod
and value + step·mod fit in 16 bits. -/
theorem C181_exact (F : Fl) (m : Mem) (h : Handle) (mod : Int) (hm : Fits16 mod) :
    operator16 F m (some h) mod = operator F m (some h) mod ↔
      (h.type ≠ .u8 ∧ h.type ≠ .i8 ∧ h.type ≠ .i16) ∨
        (Fits16 (member h.type h.step * mod) ∧ Fits16 (rdv m h.pointer h.type + member h.type h.step * mod)) := by
  by_cases ht : h.type = .u8 ∨ h.type = .i8 ∨ h.type = .i16
  · constructor
    · intro e
      right
      by_contra hn
      rw [(C181_small F m h mod hm ht).2 hn] at e
      -- with 32 bits the step is defined
      have r1 := rdv_range m h.pointer h.type
      have r2 := member_range h.type h.step
      obtain ⟨m1, m2⟩ := hm
      have hv : -32768 ≤ rdv m h.pointer h.type ∧ rdv m h.pointer h.type < 32768 := by
        rcases ht with ht | ht | ht <;> rw [ht] at r1 ⊢ <;> simp only [InRange, Ty.signed, Ty.size] at r1 <;> norm_num at r1 <;> omega
      have hst : -32768 ≤ member h.type h.step ∧ member h.type h.step < 32768 := by
        rcases ht with ht | ht | ht <;> rw [ht] at r2 ⊢ <;> simp only [InRange, Ty.signed, Ty.size] at r2 <;> norm_num at r2 <;> omega
      have hp : -1073741824 ≤ member h.type h.step * mod ∧ member h.type h.step * mod ≤ 1073741824 := by
        constructor <;> nlinarith
      have hx : ∃ x, newValue F h.type (rdv m h.pointer h.type) (member h.type h.step) mod = .ok x := by
        refine ⟨h.type.wrap (rdv m h.pointer h.type + member h.type h.step * mod), ?_⟩
        rcases ht with ht | ht | ht <;> rw [ht] at hv hp ⊢ <;> simp only [newValue] <;>
          rw [chkS_32, if_pos (by omega), Res.ok_bind, chkS_32, if_pos (by omega)] <;> rfl
      obtain ⟨x, hx⟩ := hx
      simp only [operator, applyOperator, hx, Res.ok_bind] at e
      split at e
      · cases e
      · split at e <;> cases e
    · rintro (h1 | h1)
      · rcases ht with h2 | h2 | h2
        · exact absurd h2 h1.1
        · exact absurd h2 h1.2.1
        · exact absurd h2 h1.2.2
      · exact (C181_small F m h mod hm ht).1 h1
  · simp only [not_or] at ht
    exact ⟨fun _ => .inl ht, fun _ => C181_same_partial F m h mod hm ht.1 ht.2.1 ht.2.2⟩

/-- **C172**, exactly: the clone of an integer parameter in a byte buffer can be converted, in every memory, if and only if the address of
the buffer is a multiple of the size of the type. -/
theorem C172_exact (lw : Nat) (m : Mem) (s : Handle) (b : Nat) (hl : LimitsAligned s) (ht : s.type.isInt = true)
    (ha : Apart b s.type.size s.pointer s.type.size) :
    ∃ m' c, cloneWithBuffer m s b = .ok (m', c) ∧ ((∃ v, toLongA lw m' c = .ok v) ↔ b % s.type.size = 0) := by
  by_cases hb : b % s.type.size = 0
  · obtain ⟨m', c, h1, -, -, -, h2⟩ := C172_partial F0 lw m s b hl hb ha
    exact ⟨m', c, h1, ⟨fun _ => hb, fun _ => ⟨_, h2⟩⟩⟩
  · obtain ⟨m', c, h1, -, h2, -⟩ := C172_wrong F0 lw m s b hl hb ha
    exact ⟨m', c, h1, ⟨fun ⟨v, hv⟩ => (by rw [h2 ht m'] at hv; cases hv), fun h => absurd h hb⟩⟩

end Gel.Param
