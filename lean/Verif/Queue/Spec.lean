import Verif.Queue.Api

/-!
# Macro queue: specification

A FIFO of bounded capacity, and counting of the elements that went through it.
-/
namespace Gel.Queue.Spec

variable {α : Type u}

/-- A bounded FIFO, oldest element first. -/
def step (cap : Nat) (q : List α) : Call α → List α × Obs α
  | .enqueue x => if q.length < cap then (q ++ [x], ⟨0, none⟩) else (q, ⟨1, none⟩)
  | .dequeue => match q with
    | [] => ([], ⟨1, none⟩)
    | x :: q => (q, ⟨0, some x⟩)
  | .drop => match q with
    | [] => ([], ⟨1, none⟩)
    | _ :: q => (q, ⟨0, none⟩)
  | .count => (q, ⟨q.length, none⟩)
  | .isEmpty => (q, ⟨if q.length = 0 then 1 else 0, none⟩)
  | .isFull => (q, ⟨if q.length = cap then 1 else 0, none⟩)

def run (cap : Nat) : List α → List (Call α) → List α × List (Obs α)
  | q, [] => (q, [])
  | q, c :: cs =>
    let (q, o) := step cap q c
    let (q, os) := run cap q cs
    (q, o :: os)

/-- The number of successful enqueues in a history. -/
def enqueued : List (Call α) → List (Obs α) → Nat
  | .enqueue _ :: cs, o :: os => (if o.ret = 0 then 1 else 0) + enqueued cs os
  | _ :: cs, _ :: os => enqueued cs os
  | _, _ => 0

/-- The number of successful dequeues and drops in a history. -/
def dequeued : List (Call α) → List (Obs α) → Nat
  | .dequeue :: cs, o :: os => (if o.ret = 0 then 1 else 0) + dequeued cs os
  | .drop :: cs, o :: os => (if o.ret = 0 then 1 else 0) + dequeued cs os
  | _ :: cs, _ :: os => dequeued cs os
  | _, _ => 0

end Gel.Queue.Spec
