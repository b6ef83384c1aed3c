import Verif.Wear.Props

/-!
# A refused write, exactly (C46)
-/
namespace Gel.Wear
open Spec

/-- **C46**, exactly: after a refused write of a changed record the old data can still be read if and only if the next block, to
which the record was not written, reads the same. -/
theorem C46_exact (dev : Dev D) (d : D) (w : Wlm) (x : List Byte) (h0 : 0 < x.length) (e : Int) (he : e ≠ 0)
    (hwr : ∀ i m, dev.writeBlock d i m x = (e, d)) (hr : (dev.readBlock d w.last x.length).1 = 0)
    (hne : (dev.readBlock d w.last x.length).2 ≠ x) (hn : w.n < 256) (ha : w.last < w.n) :
    ∃ w', write dev d w x = .ok (d, w', e) ∧ ∀ len, (read dev d w' len = read dev d w len ↔
      dev.readBlock d ((w.last + 1) % w.n) len = dev.readBlock d w.last len) := by
  obtain ⟨w', h1, h2⟩ := C46_wrong dev d w x h0 e he hwr hr hne hn ha
  exact ⟨w', h1, fun len => by rw [h2, read]⟩

-- three blocks: the first byte of the next one happens to be the same, the second is not
example : (do let (d, w, e) ← write broken [⟨0, [1, 2, 3]⟩, ⟨0, [1, 7, 3]⟩, ⟨0, [0, 0, 0]⟩] ⟨3, 0, 0⟩ [5, 5]
              pure (e, read broken d w 1, read broken d w 2)) = .ok (-5, (0, [1]), (0, [1, 7])) := by decide

end Gel.Wear
