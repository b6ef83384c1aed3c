import Verif.Pages.Model

/-!
# Page manager: specification
-/
namespace Gel.Pages.Spec

/-! ## Navigation: a stack of pages, the current one on top -/

/-- The stack of pages and the number of pages installed so far. -/
structure Nav (δ ξ : Type) where
  pages : List (Page δ ξ)
  next : Nat
  deriving DecidableEq, Repr

/-- The page that is installed as number `n`: with what its `create` returns, or the null data. -/
def fresh (c : Conf δ) (t : Tmpl) (x : ξ) (n : Nat) : Page δ ξ :=
  { tmpl := t, inst := n, extra := x, data := bif t.has .create then c.made n else c.null }

/-- The effect of a call on the stack of pages. -/
def Nav.step (c : Conf δ) (s : Nav δ ξ) : Op ξ → Nav δ ξ
  | .change t e => ⟨fresh c t e s.next :: s.pages, s.next + 1⟩
  | .swap t e => ⟨fresh c t e s.next :: s.pages.tail, s.next + 1⟩
  | .rebase t e => ⟨[fresh c t e s.next], s.next + 1⟩
  | .back => ⟨if s.pages.length ≤ 1 then s.pages else s.pages.tail, s.next⟩
  | .reset id => ⟨s.pages.tail.dropWhile fun p => p.tmpl.id ≠ id, s.next⟩
  | .update => s
  | .process => s

/-- Calls that leave the current page without asking whether there is one. -/
def replaces : Op ξ → Bool
  | .swap _ _ => true
  | .rebase _ _ => true
  | .reset _ => true
  | _ => false

/-- Histories in which swap, rebase and reset are called only when there is a page. -/
def Usable (c : Conf δ) (s : Nav δ ξ) : List (Op ξ) → Prop
  | [] => True
  | o :: os => (replaces o = true → s.pages ≠ []) ∧ Usable c (s.step c o) os

/-! ## The life of a page -/

inductive Life where
  | unborn | closed | opened | dead | wrong
  deriving DecidableEq, Repr

/-- What may happen: created once, opened and closed alternately, updated and given events only while open, destroyed
only while closed, and then never used again. -/
def Life.next : Life → Kind → Life
  | .unborn, .create => .closed
  | .closed, .open => .opened
  | .opened, .close => .closed
  | .opened, .update => .opened
  | .opened, .process => .opened
  | .closed, .destroy => .dead
  | _, _ => .wrong

/-- The life of page number `i` in a trace. -/
def life (i : Nat) (s : Life) : List (Ev δ ξ) → Life
  | [] => s
  | e :: es => life i (if e.page.inst = i then s.next e.kind else s) es

end Gel.Pages.Spec
