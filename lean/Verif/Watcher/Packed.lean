import Verif.Watcher.Props

/-!
# The packed configuration, exactly (C96)
-/
namespace Gel.Watcher

/-- **C96**, exactly: for a delay that the timestamp type can hold, the packed watcher is the declared one if and only if the block
has less than 256 bytes and the delay is less than 65536. -/
theorem C96_exact (w : Nat) (size delay : Nat) (hd : delay < 2 ^ w) :
    make w true size delay = make w false size delay ↔ size < 256 ∧ delay < 65536 := by
  constructor
  · intro h
    have h1 := congrArg Watcher.size h
    have h2 := congrArg (fun x => x.delay.toNat) h
    simp only [make, if_true, Bool.false_eq_true, if_false, BitVec.toNat_ofNat] at h1 h2
    rw [Nat.mod_eq_of_lt hd, Nat.mod_eq_of_lt (Nat.lt_of_le_of_lt (Nat.mod_le _ _) hd)] at h2
    omega
  · rintro ⟨h1, h2⟩
    exact C96_packed_partial w true size delay h1 h2

-- 300 bytes, a delay of 65536 + 20
example : make 32 true 300 65556 = make 32 false 44 20 ∧ make 32 true 255 65535 = make 32 false 255 65535 := by decide

end Gel.Watcher
