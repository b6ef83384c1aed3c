import Verif.Wear.Model

/-!
# Wear leveling: specification

A working device, what an ideal memory of one record does, and histories of writes and restarts.
-/
namespace Gel.Wear.Spec

/-- A block of a working device. -/
structure Block where
  marker : Byte
  data : List Byte
  deriving DecidableEq, Repr

/-- A working device with blocks of `size` bytes: it reads and writes the first bytes of a block, and refuses what is not
on the device (code -1). -/
def flash (size : Nat) : Dev (List Block) where
  readBlock d i len := match d[i]? with
    | some b => if len ≤ size then (0, b.data.take len) else (-1, [])
    | none => (-1, [])
  writeBlock d i marker buf := match d[i]? with
    | some b => if buf.length ≤ size then (0, d.set i ⟨marker, buf ++ b.data.drop buf.length⟩) else (-1, d)
    | none => (-1, d)
  readMarker d i := match d[i]? with
    | some b => (0, b.marker)
    | none => (-1, 0)

/-- The device has `n` blocks of `size` bytes. -/
def Fits (size n : Nat) (d : List Block) : Prop := d.length = n ∧ ∀ b ∈ d, b.data.length = size

/-- An ideal memory: the record, and how often a write changed it. -/
structure Ideal where
  data : List Byte
  changes : Nat
  deriving DecidableEq, Repr

def Ideal.write (s : Ideal) (x : List Byte) : Ideal :=
  if x = s.data then s else ⟨x, s.changes + 1⟩

/-- What may happen: a write, or a restart (the structure is lost and initialised again). -/
inductive Op where
  | write (x : List Byte)
  | restart
  deriving DecidableEq, Repr

def Ideal.step (s : Ideal) : Op → Ideal
  | .write x => s.write x
  | .restart => s

end Gel.Wear.Spec
