import Verif.Stack.Api

/-!
# Macro stack: specification
-/
namespace Gel.Stack.Spec

variable {α : Type u}

/-- A stack of bounded capacity, oldest element first, from which the oldest element can also be discarded. -/
def step (cap : Nat) (s : List α) : Call α → List α × Obs α
  | .push x => if s.length < cap then (s ++ [x], ⟨0, none⟩) else (s, ⟨1, none⟩)
  | .pop => if s.length = 0 then (s, ⟨1, none⟩) else (s.dropLast, ⟨0, s.getLast?⟩)
  | .popNull => if s.length = 0 then (s, ⟨1, none⟩) else (s.dropLast, ⟨0, none⟩)
  | .peek => if s.length = 0 then (s, ⟨1, none⟩) else (s, ⟨0, s.getLast?⟩)
  | .peekNull => if s.length = 0 then (s, ⟨1, none⟩) else (s, ⟨0, none⟩)
  | .dequeue => (s.drop 1, ⟨0, none⟩)
  | .isEmpty => (s, ⟨if s.length = 0 then 1 else 0, none⟩)
  | .isFull => (s, ⟨if s.length = cap then 1 else 0, none⟩)

def run (cap : Nat) : List α → List (Call α) → List α × List (Obs α)
  | s, [] => (s, [])
  | s, c :: cs =>
    let (s, o) := step cap s c
    let (s, os) := run cap s cs
    (s, o :: os)

end Gel.Stack.Spec
