import Mathlib.Logic.Function.Basic

/-!
# Intrusive list: model of gel/collections/listx.h

Memory is a set of `struct list_head` objects, named by addresses `A`, each with a `next` and a `prev` field
(listx.h:55-57). Every address is a live object of arbitrary initial content; the structures containing the list heads
and `container_of` are not modelled (the address of a list head stands for the containing element).
-/
namespace Gel.Listx

variable {A : Type u} [DecidableEq A]

/-- The fields of all list heads. -/
structure Heap (A : Type u) where
  next : A → A
  prev : A → A

/-- `a->next = v`. -/
def Heap.setNext (h : Heap A) (a v : A) : Heap A := { h with next := Function.update h.next a v }

/-- `a->prev = v`. -/
def Heap.setPrev (h : Heap A) (a v : A) : Heap A := { h with prev := Function.update h.prev a v }

/-- `INIT_LIST_HEAD`, listx.h:92-96 (also `LIST_HEAD_INIT`, :70). -/
def initListHead (h : Heap A) (list : A) : Heap A := (h.setNext list list).setPrev list list

/-- `__list_add`, listx.h:105-113. -/
def listAdd_ (h : Heap A) (new prev next : A) : Heap A :=
  let h := h.setPrev next new
  let h := h.setNext new next
  let h := h.setPrev new prev
  h.setNext prev new

/-- `list_add`, listx.h:123-126. -/
def listAdd (h : Heap A) (new head : A) : Heap A := listAdd_ h new head (h.next head)

/-- `list_add_tail`, listx.h:136-139. -/
def listAddTail (h : Heap A) (new head : A) : Heap A := listAdd_ h new (h.prev head) head

/-- `__list_del`, listx.h:149-153. -/
def listDel_ (h : Heap A) (prev next : A) : Heap A := (h.setPrev next prev).setNext prev next

/-- `list_del`, listx.h:162-165. The fields of `entry` itself keep their values. -/
def listDel (h : Heap A) (entry : A) : Heap A := listDel_ h (h.prev entry) (h.next entry)

/-- `list_is_last`, listx.h:175-179. -/
def listIsLast (h : Heap A) (list head : A) : Bool := h.next list = head

/-- `list_empty`, listx.h:188-191. -/
def listEmpty (h : Heap A) (head : A) : Bool := h.next head = head

/-- `list_next`, listx.h:201-207; `none` is NULL. -/
def listNext (h : Heap A) (current : A) : Option A := if listEmpty h current then none else some (h.next current)

/-- `list_prev`, listx.h:217-223; `none` is NULL. -/
def listPrev (h : Heap A) (current : A) : Option A := if listEmpty h current then none else some (h.prev current)

/-- The loop of `list_for_each(pos, head) body`, listx.h:242-243, entered with `pos`, for at most `fuel` evaluations of
the condition: the positions visited and the final memory, `none` if it is not over by then. The body may change the
memory; `pos->next` is read after it. -/
def forLoop (body : Heap A → A → Heap A) (head : A) : Nat → Heap A → A → Option (List A × Heap A)
  | 0, _, _ => none
  | fuel + 1, h, pos =>
    if pos = head then some ([], h)
    else
      let h := body h pos
      (forLoop body head fuel h (h.next pos)).map fun r => (pos :: r.1, r.2)

/-- `list_for_each(pos, head) body`, listx.h:242-243. -/
def listForEach (body : Heap A → A → Heap A) (fuel : Nat) (h : Heap A) (head : A) : Option (List A × Heap A) :=
  forLoop body head fuel h (h.next head)

/-- The loop of `list_for_each_prev`, listx.h:251-252, with a body that leaves the memory alone. -/
def forLoopPrev (head : A) (h : Heap A) : Nat → A → Option (List A)
  | 0, _ => none
  | fuel + 1, pos => if pos = head then some [] else (forLoopPrev head h fuel (h.prev pos)).map fun r => pos :: r

/-- `list_for_each_prev`, listx.h:251-252. -/
def listForEachPrev (fuel : Nat) (h : Heap A) (head : A) : Option (List A) := forLoopPrev head h fuel (h.prev head)

/-- A call that changes a list. -/
inductive Op (A : Type u) where
  | init (head : A)
  | add (x head : A)
  | addTail (x head : A)
  | del (x : A)

def step (h : Heap A) : Op A → Heap A
  | .init a => initListHead h a
  | .add x a => listAdd h x a
  | .addTail x a => listAddTail h x a
  | .del x => listDel h x

def run (h : Heap A) (ops : List (Op A)) : Heap A := ops.foldl step h

end Gel.Listx
