import Verif.Cbuf.Api

/-!
# Specification of the circular buffer: a bounded FIFO

A queue of capacity `cap` holding the list `q`, oldest element first. Independent of the model.
-/
namespace Gel.Cbuf.Spec

variable {α : Type u}

/-- Accept one element if there is room. Result: new queue and return code (0 accepted, -1 refused). -/
def put (cap : Nat) (q : List α) (x : α) : List α × Int :=
  if q.length < cap then (q ++ [x], 0) else (q, -1)

/-- Take the oldest element. -/
def take1 (q : List α) : List α × Option α × Int :=
  match q with
  | [] => ([], none, -1)
  | x :: q => (q, some x, 0)

/-- Append as many of `data` as fit. -/
def putMany (cap : Nat) (q : List α) (data : List α) : List α × Nat :=
  let fits := data.take (cap - q.length)
  (q ++ fits, fits.length)

/-- The caller's array after storing `xs` at its beginning. -/
def stored (out : List α) (xs : List α) : List α := xs ++ out.drop xs.length

/-- What each call does to a queue of capacity `cap`, and what it returns. -/
def step (cap : Nat) (q : List α) : Call α → List α × Obs α
  | .putc x => ((put cap q x).1, ⟨(put cap q x).2, none⟩)
  | .getc => ((take1 q).1, ⟨(take1 q).2.2, (take1 q).2.1.map ([·])⟩)
  | .getcNull => ((take1 q).1, ⟨(take1 q).2.2, none⟩)
  | .puts data len => ((putMany cap q (data.take len)).1, ⟨(putMany cap q (data.take len)).2, none⟩)
  | .gets out len =>
    (q.drop len.toNat, ⟨(q.take len.toNat).length, out.map (stored · (q.take len.toNat))⟩)
  | .peek out len => (q, ⟨(q.take len.toNat).length, out.map (stored · (q.take len.toNat))⟩)
  | .drop len => (q.drop len.toNat, ⟨(q.take len.toNat).length, none⟩)
  | .reset => ([], ⟨0, none⟩)
  | .isEmpty => (q, ⟨b2i (q.length == 0), none⟩)
  | .isFull => (q, ⟨b2i (q.length == cap), none⟩)
  | .size => (q, ⟨q.length, none⟩)
  | .capacity => (q, ⟨cap, none⟩)

/-- The observations of a history. -/
def run (cap : Nat) (q : List α) : List (Call α) → List α × List (Obs α)
  | [] => (q, [])
  | c :: cs =>
    let (q', o) := step cap q c
    let (q'', os) := run cap q' cs
    (q'', o :: os)

/-- The single-element calls and the queries whose answer does not count elements. -/
def Single : Call α → Prop
  | .putc _ | .getc | .getcNull | .reset | .isEmpty | .isFull | .capacity => True
  | _ => False

/-- The arrays the caller passes are large enough for the requested length, for a buffer of `n` elements.
A negative `int` length becomes a huge `size_t` and asks for everything. -/
def Fits (n : Nat) : Call α → Prop
  | .puts data len => len ≤ data.length
  | .gets (some out) len | .peek (some out) len => (0 ≤ len ∧ len.toNat ≤ out.length) ∨ n ≤ out.length
  | _ => True

/-- The calls on a queue `q` of capacity `cap` for which the implementation meets the specification:
no bulk put of exactly one element more than fits, no bulk read asking a full buffer for more than it holds, no size
query on a full buffer; lengths are non-negative ints. -/
def Good (cap : Nat) (q : List α) : Call α → Prop
  | .puts data len => len ≤ data.length ∧ len ≠ cap - q.length + 1
  | .gets out len | .peek out len =>
    0 ≤ len ∧ len < 2 ^ 31 ∧ (∀ o, out = some o → len.toNat ≤ o.length) ∧ (q.length = cap → len ≤ cap)
  | .drop len => 0 ≤ len ∧ len < 2 ^ 31 ∧ (q.length = cap → len ≤ cap)
  | .size => q.length ≠ cap
  | _ => True

/-- A history all of whose calls are `Good` in the state of the specification they are made in. -/
def GoodRun (cap : Nat) : List α → List (Call α) → Prop
  | _, [] => True
  | q, c :: cs => Good cap q c ∧ GoodRun cap (step cap q c).1 cs

end Gel.Cbuf.Spec
