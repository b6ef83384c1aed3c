import Verif.Serial.Lemmas

/-!
# Serializer: properties C22 to C24 and C89
-/
namespace Gel.Serial

open Spec

/-- **C22.** Every serializer overwrites exactly its bytes with the positional image of the value and returns their
number; the deserializer of the same format reads the value back from wherever its image is found; every sequence of
bytes is the image of the value read from it. -/
theorem C22_unsigned (f : Format) (buf : Mem) (off : Nat) (hoff : off + f.size ≤ buf.length) :
    (∀ v : BitVec f.width, serialize f buf off v = .ok (overwrite buf off (image f v), f.size)) ∧
    (∀ v : BitVec f.width, (buf.drop off).take f.size = image f v → deserialize f buf off = .ok (v, f.size)) ∧
    (∃ v : BitVec f.width, deserialize f buf off = .ok (v, f.size) ∧ serialize f buf off v = .ok (buf, f.size)) := by
  have hs : ∀ v : BitVec f.width, serialize f buf off v = .ok (overwrite buf off (image f v), f.size) := by
    intro v
    rw [serialize_eq, wrs_eq _ _ _ (by rw [length_image]; exact hoff), Res.ok_bind]; rfl
  refine ⟨hs, ?_, ?_⟩
  · intro v h
    obtain ⟨r, h1, h2⟩ := deserialize_eq f buf off _ (length_image f v) h
    rw [val_image] at h2
    rw [h1, BitVec.eq_of_toNat_eq h2]
  · have hl : ((buf.drop off).take f.size).length = f.size := by simp; omega
    obtain ⟨r, h1, h2⟩ := deserialize_eq f buf off _ hl rfl
    refine ⟨r, h1, ?_⟩
    rw [hs, image_val f r _ hl h2, overwrite, hl, List.append_assoc, ← List.drop_drop, List.take_append_drop,
      List.take_append_drop]

/-- Outside the buffer the accesses are undefined. -/
theorem C22_out_of_bounds (f : Format) (buf : Mem) (off : Nat) (hoff : buf.length < off + f.size) (v : BitVec f.width) :
    serialize f buf off v = .ub := by
  have h0 : 0 < f.size := by cases f <;> decide
  have hl := length_image f v
  rw [serialize_eq, wrs_ub _ _ _ (by rintro h; rw [h] at hl; simp at hl; omega) (by omega)]; rfl

example : serializeU32Be [9, 9, 9, 9, 9, 9] 1 0x12345678 = .ok ([9, 0x12, 0x34, 0x56, 0x78, 9], 4) := by decide
example : serializeU32Le [9, 9, 9, 9, 9, 9] 1 0x12345678 = .ok ([9, 0x78, 0x56, 0x34, 0x12, 9], 4) := by decide
example : deserializeU32Be [9, 0x12, 0x34, 0x56, 0x78, 9] 1 = .ok (0x12345678, 4) := by decide

/-- **C23** (partial). Signed values written with the unsigned serializer are read back by the signed deserializer: all
values of 8 and 16 bits, the non-negative ones of 32 and 64 bits. Missing: the negative values of 32 and 64 bits, for
which the claim is false (`C23_negative`) unless the compiler defines the shift (`C23_gnu`). -/
theorem C23_signed_partial (f : Format) (buf buf' : Mem) (off : Nat) (v : BitVec f.width) (n : Nat)
    (hoff : off + f.size ≤ buf.length) (hv : f.size ≤ 2 ∨ 0 ≤ v.toInt)
    (hs : serialize f buf off v = .ok (buf', n)) :
    ∃ r, deserializeS false f buf' off = .ok (r, f.size) ∧ r.toInt = v.toInt := by
  rw [(C22_unsigned f buf off hoff).1 v] at hs
  have hb : overwrite buf off (image f v) = buf' := congrArg Prod.fst (Res.ok.inj hs)
  have hl := length_image f v
  have hr := read_overwrite buf (image f v) off (by omega)
  rw [hb, hl] at hr
  refine ⟨v, ?_, rfl⟩
  rw [deserializeS_eq f buf' off _ hl hr, val_image, if_pos]
  · exact (C22_unsigned f buf' off (by rw [← hb, length_overwrite _ _ _ (by omega)]; exact hoff)).2.1 v hr
  · rcases hv with hv | hv
    · exact Or.inl hv
    · right
      rw [BitVec.toInt_pos_iff] at hv
      have h0 : 0 < f.width := by cases f <;> decide
      have : 2 ^ f.width = 2 * 2 ^ (f.width - 1) := by rw [← pow_succ']; congr 1; omega
      omega

/-- **C23**, where it fails: reading back any negative 32- or 64-bit value shifts a byte into the sign bit, which is
undefined. -/
theorem C23_negative (f : Format) (buf buf' : Mem) (off : Nat) (v : BitVec f.width) (n : Nat)
    (hoff : off + f.size ≤ buf.length) (hf : 4 ≤ f.size) (hv : v.toInt < 0)
    (hs : serialize f buf off v = .ok (buf', n)) : deserializeS false f buf' off = .ub := by
  rw [(C22_unsigned f buf off hoff).1 v] at hs
  have hb : overwrite buf off (image f v) = buf' := congrArg Prod.fst (Res.ok.inj hs)
  have hl := length_image f v
  have hr := read_overwrite buf (image f v) off (by omega)
  rw [hb, hl] at hr
  rw [deserializeS_eq f buf' off _ hl hr, val_image, if_neg]
  rintro (hc | hc)
  · omega
  · rw [BitVec.toInt_neg_iff] at hv
    have h0 : 0 < f.width := by cases f <;> decide
    have : 2 ^ f.width = 2 * 2 ^ (f.width - 1) := by rw [← pow_succ']; congr 1; omega
    omega

/-- **C23** with a compiler that defines left shifts of signed values as shifts of their representation. -/
theorem C23_gnu (f : Format) (buf buf' : Mem) (off : Nat) (v : BitVec f.width) (n : Nat)
    (hoff : off + f.size ≤ buf.length) (hs : serialize f buf off v = .ok (buf', n)) :
    ∃ r, deserializeS true f buf' off = .ok (r, f.size) ∧ r.toInt = v.toInt := by
  rw [(C22_unsigned f buf off hoff).1 v] at hs
  have hb : overwrite buf off (image f v) = buf' := congrArg Prod.fst (Res.ok.inj hs)
  have hl := length_image f v
  have hr := read_overwrite buf (image f v) off (by omega)
  rw [hb, hl] at hr
  refine ⟨v, ?_, rfl⟩
  rw [deserializeS_gnu]
  exact (C22_unsigned f buf' off (by rw [← hb, length_overwrite _ _ _ (by omega)]; exact hoff)).2.1 v hr

example : deserializeI16Le false [0xfe, 0xff] 0 = .ok (BitVec.ofInt 16 (-2), 2) := by decide
example : deserializeI32Le false [0xfe, 0xff, 0xff, 0xff] 0 = .ub := by decide
example : deserializeI32Le true [0xfe, 0xff, 0xff, 0xff] 0 = .ok (BitVec.ofInt 32 (-2), 4) := by decide
example : deserializeI32Le false [0xfe, 0xff, 0xff, 0x7f] 0 = .ok (0x7ffffffe, 4) := by decide

/-- **C24.** Fields written one after the other into a large enough buffer are read back one after the other; both ends
agree on the number of bytes, which are the concatenated images, and nothing else is changed. -/
theorem C24_packet (fields : List Field) (buf : Mem) (off : Nat)
    (hoff : off + (fields.map fun x => x.1.size).sum ≤ buf.length) :
    ∃ buf', writeAll buf off fields = .ok (buf', off + (fields.map fun x => x.1.size).sum) ∧
      buf' = overwrite buf off (fields.flatMap fun x => image x.1 x.2) ∧
      readAll buf' off (fields.map fun x => x.1) = .ok (fields, off + (fields.map fun x => x.1.size).sum) := by
  have himg : ∀ l : List Field, (l.flatMap fun x => image x.1 x.2).length = (l.map fun x => x.1.size).sum := by
    intro l
    induction l with
    | nil => rfl
    | cons x l ih => simp only [List.flatMap_cons, List.length_append, length_image, ih, List.map_cons, List.sum_cons]
  have hread : ∀ (l : List Field) (b : Mem) (o : Nat), o + (l.map fun x => x.1.size).sum ≤ b.length →
      (b.drop o).take (l.map fun x => x.1.size).sum = (l.flatMap fun x => image x.1 x.2) →
      readAll b o (l.map fun x => x.1) = .ok (l, o + (l.map fun x => x.1.size).sum) := by
    intro l
    induction l with
    | nil => intro b o _ _; rfl
    | cons x l ih =>
      intro b o hlen h
      simp only [List.map_cons, List.sum_cons, List.flatMap_cons] at h hlen ⊢
      have h1 : (b.drop o).take x.1.size = image x.1 x.2 := by
        have := congrArg (List.take x.1.size) h
        rw [List.take_take, Nat.min_eq_left (by omega)] at this
        rw [this, ← length_image x.1 x.2, List.take_left]
      have h2 : (b.drop (o + x.1.size)).take (l.map fun x => x.1.size).sum = (l.flatMap fun x => image x.1 x.2) := by
        have := congrArg (List.drop x.1.size) h
        rw [List.drop_take, List.drop_drop, Nat.add_sub_cancel_left] at this
        rw [this, ← length_image x.1 x.2, List.drop_left]
      rw [readAll, (C22_unsigned x.1 b o (by omega)).2.1 x.2 h1, Res.ok_bind]
      simp only
      rw [ih b (o + x.1.size) (by omega) h2]
      simp [Nat.add_assoc]
  have hwrite : ∀ (l : List Field) (b : Mem) (o : Nat), o + (l.map fun x => x.1.size).sum ≤ b.length →
      writeAll b o l = .ok (overwrite b o (l.flatMap fun x => image x.1 x.2), o + (l.map fun x => x.1.size).sum) := by
    intro l
    induction l with
    | nil => intro b o _; simp [writeAll, overwrite]
    | cons x l ih =>
      intro b o hlen
      simp only [List.map_cons, List.sum_cons, List.flatMap_cons] at hlen ⊢
      have hi := length_image x.1 x.2
      rw [writeAll, (C22_unsigned x.1 b o (by omega)).1 x.2, Res.ok_bind]
      simp only
      rw [ih _ _ (by rw [length_overwrite _ _ _ (by omega)]; omega)]
      have := overwrite_overwrite b (image x.1 x.2) (l.flatMap fun x => image x.1 x.2) o (by omega)
      rw [hi] at this
      rw [this, Nat.add_assoc]
  refine ⟨_, hwrite fields buf off hoff, rfl, hread _ _ _ ?_ ?_⟩
  · rw [length_overwrite _ _ _ (by rw [himg]; exact hoff)]; exact hoff
  · rw [← himg]; exact read_overwrite _ _ _ (by rw [himg]; exact hoff)

example : writeAll [0, 0, 0, 0, 0] 1 [⟨.u8, 7⟩, ⟨.u16be, 0x1234⟩] = .ok ([0, 7, 0x12, 0x34, 0], 4) := by decide

/-- **C89.** The PACK macros write the low bits of the variable, and unpacking into a variable of the same width gives
the variable back exactly if its value fits the field. -/
theorem C89_pack (w : Nat) (var : BitVec w) (buf : Mem) (off : Nat) :
    (off + 2 ≤ buf.length → ∃ buf' r, packU16 buf off var = .ok (buf', 2) ∧ unpackU16 w buf' off = .ok (r, 2) ∧
      (r = var ↔ var.toNat < 65536)) ∧
    (off + 1 ≤ buf.length → ∃ buf' r, packU8 buf off var = .ok (buf', 1) ∧ unpackU8 w buf' off = .ok (r, 1) ∧
      (r = var ↔ var.toNat < 256)) := by
  constructor
  · intro hoff
    obtain ⟨hs, -⟩ := C22_unsigned .u16be buf off hoff
    have hl := length_image .u16be (var.setWidth 16)
    have hl' : Format.u16be.size = 2 := rfl
    have hr := read_overwrite buf (image .u16be (var.setWidth 16)) off (by omega)
    have hd := (C22_unsigned .u16be (overwrite buf off (image .u16be (var.setWidth 16))) off
      (by rw [length_overwrite _ _ _ (by omega)]; exact hoff)).2.1 (var.setWidth 16) (by rw [hl] at hr; exact hr)
    refine ⟨_, (var.setWidth 16).setWidth w, hs (var.setWidth 16), ?_, ?_⟩
    · have hd' : deserializeU16Be _ off = .ok (var.setWidth 16, 2) := hd
      exact congrArg (fun r => r >>= fun x => pure (x.1.setWidth w, x.2)) hd'
    · rw [← BitVec.toNat_inj, BitVec.toNat_setWidth, BitVec.toNat_setWidth]
      have := var.isLt
      constructor
      · intro h
        by_contra hc
        have h1 := Nat.mod_lt var.toNat (show 2 ^ 16 > 0 by norm_num)
        have h2 := Nat.mod_le (var.toNat % 2 ^ 16) (2 ^ w)
        omega
      · intro h
        rw [Nat.mod_eq_of_lt (show var.toNat < 2 ^ 16 from h), Nat.mod_eq_of_lt this]
  · intro hoff
    obtain ⟨hs, -⟩ := C22_unsigned .u8 buf off hoff
    have hl := length_image .u8 (var.setWidth 8)
    have hl' : Format.u8.size = 1 := rfl
    have hr := read_overwrite buf (image .u8 (var.setWidth 8)) off (by omega)
    have hd := (C22_unsigned .u8 (overwrite buf off (image .u8 (var.setWidth 8))) off
      (by rw [length_overwrite _ _ _ (by omega)]; exact hoff)).2.1 (var.setWidth 8) (by rw [hl] at hr; exact hr)
    refine ⟨_, (var.setWidth 8).setWidth w, hs (var.setWidth 8), ?_, ?_⟩
    · have hd' : deserializeU8 _ off = .ok (var.setWidth 8, 1) := hd
      exact congrArg (fun r => r >>= fun x => pure (x.1.setWidth w, x.2)) hd'
    · rw [← BitVec.toNat_inj, BitVec.toNat_setWidth, BitVec.toNat_setWidth]
      have := var.isLt
      constructor
      · intro h
        by_contra hc
        have h1 := Nat.mod_lt var.toNat (show 2 ^ 8 > 0 by norm_num)
        have h2 := Nat.mod_le (var.toNat % 2 ^ 8) (2 ^ w)
        omega
      · intro h
        rw [Nat.mod_eq_of_lt (show var.toNat < 2 ^ 8 from h), Nat.mod_eq_of_lt this]

example : packU16 [0, 0] 0 (0x12345#32) = .ok ([0x23, 0x45], 2) ∧ unpackU16 32 [0x23, 0x45] 0 = .ok (0x2345, 2) := by
  decide

end Gel.Serial
