import Verif.Serial.Props
import Verif.Crc.Props
import Verif.Cbuf.ConcProps
import Verif.Cbuf.TsoProps

/-!
# A telegram through a circular buffer: property C191

The sender writes fields into a buffer with the serializer, appends the CRC16 of them in big-endian order and puts the bytes into a circular
buffer one by one; the receiver, another thread, gets them, checks that the CRC16 of the whole is 0 and reads the fields.
-/
namespace Gel.Combined
open Serial.Spec Crc.Spec

/-- The sender: the fields, then `crc16_ccitt` (crc16-ccitt.c:92-100) of them with the initial value `c`, written with
`serialize_uint16_be` (serializer.h:92-97). -/
def compose (buf : Serial.Mem) (fields : List Serial.Field) (c : BitVec 16) : Res Serial.Mem := do
  let (buf, n) ← Serial.writeAll buf 0 fields
  let crc ← Crc.crc16 buf n c
  let (buf, _) ← Serial.writeAll buf n [⟨.u16be, crc⟩]
  pure buf

/-- The receiver: the fields, if the checksum of the whole telegram is 0. -/
def parse (buf : Serial.Mem) (formats : List Format) (c : BitVec 16) : Res (Option (List Serial.Field)) := do
  let crc ← Crc.crc16 buf buf.length c
  if crc = 0 then do
    let (fields, _) ← Serial.readAll buf 0 formats
    pure (some fields)
  else pure none

theorem image_u16be (t : BitVec 16) : image .u16be t = be16 t := by
  have h1 : image .u16be t = [BitVec.ofNat 8 (t.toNat / 256), t.setWidth 8] := by
    simp [image, Format.big, beBytes, leBytes, Format.size, List.range_succ]
    exact ⟨rfl, by apply BitVec.eq_of_toNat_eq; simp; rfl⟩
  rw [h1, be16]
  congr 1
  apply BitVec.eq_of_toNat_eq
  simp [BitVec.extractLsb'_toNat, Nat.shiftRight_eq_div_pow]

theorem image_size (f : Format) (v : BitVec f.width) : (image f v).length = f.size := by
  rw [image]
  split <;> simp [beBytes, leBytes]

theorem images_size (fields : List Serial.Field) :
    (fields.flatMap fun x => image x.1 x.2).length = (fields.map fun x => x.1.size).sum := by
  induction fields with
  | nil => rfl
  | cons x l ih => rw [List.flatMap_cons, List.length_append, ih, image_size, List.map_cons, List.sum_cons]

/-- What the sender composes: the images of the fields and of their checksum. -/
theorem compose_eq (buf : Serial.Mem) (fields : List Serial.Field) (c : BitVec 16)
    (hl : buf.length = (fields.map fun x => x.1.size).sum + 2) :
    ∃ t, Crc.crc16 (fields.flatMap fun x => image x.1 x.2) (fields.map fun x => x.1.size).sum c = .ok t ∧
      compose buf fields c = .ok ((fields.flatMap fun x => image x.1 x.2) ++ be16 t) := by
  generalize hm : (fields.flatMap fun x => image x.1 x.2) = m
  have hml : m.length = (fields.map fun x => x.1.size).sum := by rw [← hm]; exact images_size fields
  obtain ⟨buf', e1, e2, -⟩ := Serial.C24_packet fields buf 0 (by omega)
  rw [hm] at e2
  simp only [Nat.zero_add] at e1
  have hb' : buf' = m ++ buf.drop m.length := by rw [e2, overwrite]; simp
  have hc : ∀ b : List (BitVec 8), Crc.crc16 (m ++ b) m.length c = Crc.crc16 m m.length c := by
    intro b
    rw [Crc.crc16_eq _ _ _ (by simp), Crc.crc16_eq _ _ _ (le_refl _)]
    simp
  have ht : ∃ t, Crc.crc16 m m.length c = .ok t := ⟨_, Crc.crc16_eq _ _ _ (le_refl _)⟩
  obtain ⟨t, ht⟩ := ht
  refine ⟨t, by rw [← hml]; exact ht, ?_⟩
  obtain ⟨buf2, f1, f2, -⟩ := Serial.C24_packet [⟨.u16be, t⟩] buf' (fields.map fun x => x.1.size).sum
    (by
      have h2 : buf'.length = (fields.map fun x => x.1.size).sum + 2 := by rw [hb']; simp only [List.length_append, List.length_drop]; omega
      rw [h2]; rfl)
  rw [compose, e1, Res.ok_bind]
  simp only
  rw [← hml, hb', hc, ht, Res.ok_bind, ← hb', hml, f1, f2]
  simp only [Res.ok_bind, Res.pure_eq, List.flatMap_cons, List.flatMap_nil, List.append_nil, image_u16be, overwrite]
  congr 1
  rw [hb', ← hml, List.take_left, List.append_assoc]
  congr 1
  simp [be16, hl, hml]

/-- What was received is a beginning of what was sent: the bytes at the place of the telegram. -/
theorem parse_prefix (buf : Serial.Mem) (fields : List Serial.Field) (c : BitVec 16) (hl : buf.length = (fields.map fun x => x.1.size).sum + 2) :
    ∃ frame, compose buf fields c = .ok frame ∧ frame.length = buf.length ∧
      ∀ got sent pre post : List (BitVec 8), got <+: sent → sent = pre ++ frame ++ post → pre.length + frame.length ≤ got.length →
        parse ((got.drop pre.length).take frame.length) (fields.map fun x => x.1) c = .ok (some fields) := by
  obtain ⟨t, ht, he⟩ := compose_eq buf fields c hl
  have hml := images_size fields
  refine ⟨_, he, by simp [be16, hl, hml], ?_⟩
  rintro got sent pre post ⟨rest, hrest⟩ hacc hlen
  have hgot : (got.drop pre.length).take ((fields.flatMap fun x => image x.1 x.2) ++ be16 t).length =
      (fields.flatMap fun x => image x.1 x.2) ++ be16 t := by
    have h1 : got = sent.take got.length := by
      rw [← hrest]; simp
    rw [h1, hacc]
    generalize hg : got.length = L at hlen
    generalize (fields.flatMap fun x => image x.1 x.2) ++ be16 t = fr at hlen
    rw [List.drop_take, List.take_take, Nat.min_eq_left (by omega), List.append_assoc, List.drop_left, List.take_left]
  rw [hgot, parse]
  have h0 := ((Crc.C20_residue (fields.flatMap fun x => image x.1 x.2)).1 t c).2 (by rw [hml]; exact ht)
  have hlen2 : ((fields.flatMap fun x => image x.1 x.2) ++ be16 t).length = (fields.flatMap fun x => image x.1 x.2).length + 2 := by
    simp [be16]
  rw [hlen2, h0, Res.ok_bind, if_pos rfl]
  -- the fields
  obtain ⟨b3, -, e3, r3⟩ := Serial.C24_packet fields ((fields.flatMap fun x => image x.1 x.2) ++ be16 t) 0 (by simp [hml])
  have : b3 = (fields.flatMap fun x => image x.1 x.2) ++ be16 t := by
    rw [e3, overwrite]; simp
  rw [← this, r3]
  rfl

/-- **C191.** The receiver gets the fields that were sent: whatever else is sent before and after, and however the two threads are
interleaved, when it has got the bytes of the telegram, they check and hold the fields. -/
theorem C191_telegram {n : Nat} (ring : List (BitVec 8)) (hn : 0 < n) (hr : ring.length = n) (buf : Serial.Mem) (fields : List Serial.Field)
    (c : BitVec 16) (hl : buf.length = (fields.map fun x => x.1.size).sum + 2) :
    ∃ frame, compose buf fields c = .ok frame ∧ frame.length = buf.length ∧
      ∀ (tr : List (Cbuf.Conc.Lbl (BitVec 8))) (s : Cbuf.Conc.St (BitVec 8)), Cbuf.Conc.Exec n ring tr s →
        (∀ l ∈ tr, ¬ Cbuf.Conc.BulkCall l) → ∀ pre post, Cbuf.Conc.accepted tr = pre ++ frame ++ post →
        pre.length + frame.length ≤ (Cbuf.Conc.got tr).length →
        parse (((Cbuf.Conc.got tr).drop pre.length).take frame.length) (fields.map fun x => x.1) c = .ok (some fields) := by
  obtain ⟨frame, h1, h2, h3⟩ := parse_prefix buf fields c hl
  exact ⟨frame, h1, h2, fun tr s hx hs pre post hacc hlen =>
    h3 _ _ pre post (Cbuf.Conc.C06_spsc_fifo ring hn hr hx hs).1 hacc hlen⟩

/-- **C191.** So it is on a machine with total store order. -/
theorem C191_tso {n : Nat} (ring : List (BitVec 8)) (hn : 0 < n) (hr : ring.length = n) (buf : Serial.Mem) (fields : List Serial.Field)
    (c : BitVec 16) (hl : buf.length = (fields.map fun x => x.1.size).sum + 2) :
    ∃ frame, compose buf fields c = .ok frame ∧ frame.length = buf.length ∧
      ∀ (tr : List (Cbuf.Tso.Lbl (BitVec 8))) (s : Cbuf.Tso.St (BitVec 8)), Cbuf.Tso.Exec Cbuf.Tso.tso n ring tr s →
        ∀ pre post, Cbuf.Tso.accepted tr = pre ++ frame ++ post → pre.length + frame.length ≤ (Cbuf.Tso.got tr).length →
        parse (((Cbuf.Tso.got tr).drop pre.length).take frame.length) (fields.map fun x => x.1) c = .ok (some fields) := by
  obtain ⟨frame, h1, h2, h3⟩ := parse_prefix buf fields c hl
  exact ⟨frame, h1, h2, fun tr s hx pre post hacc hlen => h3 _ _ pre post (Cbuf.Tso.C112_tso n hn ring hr tr s hx).1 hacc hlen⟩

/-- **C191.** A telegram of which the bits within a window of 16 were changed on the way is refused. -/
theorem C191_damaged (buf frame other : Serial.Mem) (fields : List Serial.Field) (c : BitVec 16) (formats : List Format)
    (hl : buf.length = (fields.map fun x => x.1.size).sum + 2) (hf : compose buf fields c = .ok frame)
    (ho : other.length = frame.length) (hne : other ≠ frame) (s : Nat)
    (hw : ∀ i, i < s ∨ s + 16 ≤ i → (msgBits other)[i]? = (msgBits frame)[i]?) : parse other formats c = .ok none := by
  obtain ⟨t, ht, he⟩ := compose_eq buf fields c hl
  have hml := images_size fields
  rw [hf] at he
  have he := Res.ok.inj he
  have h0 := ((Crc.C20_residue (fields.flatMap fun x => image x.1 x.2)).1 t c).2 (by rw [hml]; exact ht)
  have hlen2 : frame.length = (fields.flatMap fun x => image x.1 x.2).length + 2 := by
    rw [he]; simp [be16]
  have hframe : Crc.crc16 frame frame.length c = .ok 0 := by rw [hlen2, he]; exact h0
  have hd := (Crc.C19_burst other frame ho hne s).1 hw c
  rw [hframe] at hd
  obtain ⟨u, hu⟩ : ∃ u, Crc.crc16 other other.length c = .ok u := ⟨_, Crc.crc16_eq _ _ _ (le_refl _)⟩
  rw [parse, hu, Res.ok_bind, if_neg]
  · rfl
  · rintro rfl
    exact hd hu

/-- The telegram of 0x1234 and 7. -/
example : (do
    let f ← compose (List.replicate 5 0) [⟨.u16le, 0x1234#16⟩, ⟨.u8, 7#8⟩] 0xffff
    let r ← parse f [.u16le, .u8] 0xffff
    pure (f, r)) = (.ok ([0x34, 0x12, 0x07, 0xc0, 0x0f], some [⟨.u16le, 0x1234#16⟩, ⟨.u8, 7#8⟩]) :
      Res (Serial.Mem × Option (List Serial.Field))) := by
  decide +kernel

end Gel.Combined
