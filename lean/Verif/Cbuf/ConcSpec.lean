import Verif.Cbuf.ConcModel

/-!
# What the two threads may observe
-/
namespace Gel.Cbuf.Conc

variable {α : Type u}

/-- The elements the buffer reported as accepted, in order. -/
def accepted : List (Lbl α) → List α
  | [] => []
  | .putcRet x true :: tr => x :: accepted tr
  | .putsRet l :: tr => l ++ accepted tr
  | _ :: tr => accepted tr

/-- The elements handed to the consumer, in order. -/
def got : List (Lbl α) → List α
  | [] => []
  | .getcRet (some v) :: tr => v :: got tr
  | .getsRet l :: tr => l ++ got tr
  | _ :: tr => got tr

/-- No bulk put asks for more than fits when it starts; no bulk get asks for more than the capacity. -/
def Polite (n : Nat) (l : Lbl α) : Prop :=
  match l with
  | .snap len free => len ≤ free
  | .getsCall len => len ≤ n - 1
  | _ => True

/-- The argument of the bulk put in progress, if any: what was reported written so far and the rest. -/
def putting : PPc α → List α
  | .snap data => data
  | .loop _ done rest | .copy _ done rest _ _ | .badv _ done rest _ | .bset _ done rest _ => done ++ rest
  | _ => []

end Gel.Cbuf.Conc
