import Verif.Listx.Model

/-!
# Intrusive list: specification
-/
namespace Gel.Listx.Spec

variable {A : Type u} [DecidableEq A]

/-- `head` links the distinct elements `l`, in this order, in a ring in both directions. -/
def Links (h : Heap A) (head : A) (l : List A) : Prop :=
  (head :: l).Nodup ∧ (head :: l).map h.next = l ++ [head] ∧ (l ++ [head]).map h.prev = head :: l

/-- The lists of a program: heads with their elements. -/
abbrev Lists (A : Type u) := List (A × List A)

/-- All addresses in use. -/
def nodes (s : Lists A) : List A := s.flatMap fun p => p.1 :: p.2

/-- What each call does to the lists. -/
def step (s : Lists A) : Op A → Lists A
  | .init a => (a, []) :: s
  | .add x a => s.map fun p => if p.1 = a then (p.1, x :: p.2) else p
  | .addTail x a => s.map fun p => if p.1 = a then (p.1, p.2 ++ [x]) else p
  | .del x => s.map fun p => (p.1, p.2.erase x)

/-- The user's obligations: a new head or element is not in use, the list exists, a removed element is in a list. -/
def Valid (s : Lists A) : Op A → Prop
  | .init a => a ∉ nodes s
  | .add x a | .addTail x a => x ∉ nodes s ∧ ∃ l, (a, l) ∈ s
  | .del x => ∃ p ∈ s, x ∈ p.2

def run (s : Lists A) (ops : List (Op A)) : Lists A := ops.foldl step s

def ValidRun : Lists A → List (Op A) → Prop
  | _, [] => True
  | s, o :: ops => Valid s o ∧ ValidRun (step s o) ops

end Gel.Listx.Spec
