import Verif.Pages.Model

/-!
# Page manager whose page callbacks call the page manager: model of gel/pagemanager/page_manager.c

As `Verif.Pages.Model`, but every callback may itself call the navigation functions (`Beh.nav`). Since the functions hold
pointers to `current_page`, they see what the callback did to it. The number bounds the depth of the nesting and the number
of loop iterations; `diverge` if it is exceeded.
-/
namespace Gel.Pages

variable {δ ξ : Type}

/-- What the callbacks do: `nav k p tr` are the calls of the page manager that callback `k` of page `p` makes, in order; `tr`
is everything that has happened, this callback included, so a callback may behave differently every time. `raw i` is the
`data` member of the page as given by the user, which `create` has not yet replaced. -/
structure Beh (δ ξ : Type) where
  nav : Kind → Page δ ξ → List (Ev δ ξ) → List (Op ξ)
  raw : Nat → δ

/-- A call of a callback that may change the page manager. -/
abbrev Call (δ ξ : Type) := Kind → Page δ ξ → Pm δ ξ → Res (Pm δ ξ)

/-- The data of the new page: `create` is called (it may have changed `current_page`), and its result is stored in the
page that is current then, e.g. page_manager.c:186-190. -/
def createR (call : Call δ ξ) (c : Conf δ) (t : Tmpl) (extra : ξ) (i : Nat) (m : Pm δ ξ) : Res (Pm δ ξ) := do
  let m ← call .create (c.install t extra i) m
  let p ← current m
  pure { m with cur := some { p with data := if t.create then c.made i else c.null } }

/-- Opening and update of the page that is current, e.g. page_manager.c:193-202. -/
def openR (call : Call δ ξ) (c : Conf δ) (m : Pm δ ξ) : Res (Pm δ ξ) := do
  let p ← current m
  let m ← call .open p m
  if c.upd then do
    let p ← current m
    call .update p m
  else pure m

/-- A new page is made current and shown, e.g. page_manager.c:179-203. -/
def showR (call : Call δ ξ) (c : Conf δ) (b : Beh δ ξ) (t : Tmpl) (extra : ξ) (m : Pm δ ξ) : Res (Pm δ ξ) := do
  let m ← createR call c t extra m.next { m with cur := some ⟨t, m.next, b.raw m.next, extra⟩, next := m.next + 1 }
  openR call c m

/-- `current->close` and `current->destroy`, e.g. page_manager.c:40-45. -/
def leaveR (call : Call δ ξ) (m : Pm δ ξ) : Res (Pm δ ξ) := do
  let p ← current m
  let m ← call .close p m
  let p ← current m
  call .destroy p m

/-- The loop of `pman_reset_to_page`, page_manager.c:90-115. -/
def resetLoopR (call : Call δ ξ) (c : Conf δ) (id : Int) : Nat → Pm δ ξ → Res (Pm δ ξ)
  | 0, _ => .diverge
  | f + 1, m =>
    match m.stack with
    | [] => pure m
    | p :: ps =>
      if p.tmpl.id = id then openR call c { m with stack := ps, init := true, cur := some p }
      else do
        let m ← call .destroy p { m with stack := ps }
        resetLoopR call c id f m

/-- `clear_page_stack`, page_manager.c:14-22. -/
def clearR (call : Call δ ξ) : Nat → Pm δ ξ → Res (Pm δ ξ)
  | 0, _ => .diverge
  | f + 1, m =>
    match m.stack with
    | [] => pure m
    | p :: ps => do
      let m ← call .destroy p { m with stack := ps }
      clearR call f m

/-- One call of the page manager. -/
def opR (f : Nat) (call : Call δ ξ) (c : Conf δ) (b : Beh δ ξ) (m : Pm δ ξ) : Op ξ → Res (Pm δ ξ)
  | .change t e =>
    if m.init then do
      let p ← current m
      let m ← call .close p m
      let p ← current m
      let stack ← pushAssert c m.stack p
      showR call c b t e { m with stack := stack }
    else showR call c b t e { m with init := true }
  | .swap t e => do
    let m ← leaveR call m
    showR call c b t e m
  | .rebase t e => do
    let m ← leaveR call m
    let m ← clearR call f m
    showR call c b t e m
  | .back => do
    c.assert m.init
    match m.stack with
    | [] => pure m
    | q :: rest => do
      let m ← leaveR call { m with stack := rest }
      openR call c { m with cur := some q }
  | .reset id => do
    let m ← leaveR call m
    resetLoopR call c id f { m with init := false }
  | .update => do
    c.assert m.init
    if c.upd then do
      let p ← current m
      call .update p m
    else pure m
  | .process => do
    c.assert m.init
    let p ← current m
    if p.tmpl.process then call .process p m else .ub

/-- Calls in sequence, with nested calls of at most the given depth. -/
def execR (c : Conf δ) (b : Beh δ ξ) : Nat → List (Op ξ) → Pm δ ξ → Res (Pm δ ξ)
  | _, [], m => .ok m
  | 0, _ :: _, _ => .diverge
  | f + 1, o :: os, m => do
    let call : Call δ ξ := fun k p m =>
      if p.tmpl.has k then execR c b f (b.nav k p (m.trace ++ [⟨k, p⟩])) { m with trace := m.trace ++ [⟨k, p⟩] }
      else .ok { m with trace := m.trace ++ [⟨k, p⟩] }
    let m ← opR (f + 1) call c b m o
    execR c b f os m

end Gel.Pages
