import Verif.C

/-!
# Page manager: model of gel/pagemanager/page_manager.c

The calls of the pages' callbacks are recorded in a trace. What `create` returns is a parameter (`made`), a function of a
ghost number that every page gets when it is installed; so it is arbitrary for every single installation. Callbacks that
call the page manager themselves are in `Verif.Pages.Reent`. The navigation stack (collections/stack.h) is a list, top first, of at
most `depth` pages, as justified by C11.
-/
namespace Gel.Pages

/-- `pman_page_t`, page_manager.h:22-48, as the user gives it: the id and which callbacks are not `NULL`. -/
structure Tmpl where
  id : Int
  create : Bool
  destroy : Bool
  «open» : Bool
  close : Bool
  update : Bool
  process : Bool
  deriving DecidableEq, Repr

/-- A page in the manager: with its `data` and `extra`, and the ghost number. -/
structure Page (δ ξ : Type) where
  tmpl : Tmpl
  inst : Nat
  data : δ
  extra : ξ
  deriving DecidableEq, Repr

inductive Kind where
  | create | destroy | «open» | close | update | process
  deriving DecidableEq, Repr

def Tmpl.has (t : Tmpl) : Kind → Bool
  | .create => t.create
  | .destroy => t.destroy
  | .open => t.open
  | .close => t.close
  | .update => t.update
  | .process => t.process

/-- An entry of the trace: the place in the code where a callback of a page is called, if it is not `NULL`, with `data`
and `extra` of the page. For `create` the data is the result. -/
structure Ev (δ ξ : Type) where
  kind : Kind
  page : Page δ ξ
  deriving DecidableEq, Repr

/-- `page_manager_t`, page_manager.h:52-56. `cur` is `none` as long as `current_page` is indeterminate; `next` and `trace`
are ghost state. -/
structure Pm (δ ξ : Type) where
  init : Bool
  cur : Option (Page δ ξ)
  stack : List (Page δ ξ)
  next : Nat
  trace : List (Ev δ ξ)
  deriving DecidableEq, Repr

/-- The configuration: `PMAN_NAVIGATION_DEPTH`, `GEL_PAGEMANAGER_UPDATE_CALLBACK`, `NDEBUG`, `PMAN_DATA_NULL`, and what the
create callbacks return. -/
structure Conf (δ : Type) where
  depth : Nat
  upd : Bool
  ndebug : Bool
  null : δ
  made : Nat → δ

/-- `assert`; nothing with `NDEBUG`. -/
def Conf.assert (c : Conf δ) (b : Bool) : Res Unit := if c.ndebug then .ok () else cassert b

/-- `pman_init`, page_manager.c:25-28, on a structure whose `current_page` is `cur`. -/
def init (cur : Option (Page δ ξ)) : Pm δ ξ := ⟨false, cur, [], 0, []⟩

/-- The new page in `current_page`, e.g. page_manager.c:47-54. -/
def Conf.install (c : Conf δ) (t : Tmpl) (extra : ξ) (inst : Nat) : Page δ ξ :=
  ⟨t, inst, if t.create then c.made inst else c.null, extra⟩

/-- The update at the end of the navigation functions, e.g. page_manager.c:59-66. -/
def Conf.updates (c : Conf δ) (p : Page δ ξ) : List (Ev δ ξ) := if c.upd then [⟨.update, p⟩] else []

/-- What happens with a new page: creation, opening, update. -/
def Conf.show (c : Conf δ) (p : Page δ ξ) : List (Ev δ ξ) := [⟨.create, p⟩, ⟨.open, p⟩] ++ c.updates p

/-- `current->close` and `current->destroy`, e.g. page_manager.c:40-45. -/
def leave (p : Page δ ξ) : List (Ev δ ξ) := [⟨.close, p⟩, ⟨.destroy, p⟩]

/-- Reading `current_page`. -/
def current (m : Pm δ ξ) : Res (Page δ ξ) :=
  match m.cur with
  | some p => .ok p
  | none => .ub

/-- `pman_swap_page_extra`, page_manager.c:37-68. -/
def swap (c : Conf δ) (m : Pm δ ξ) (t : Tmpl) (extra : ξ) : Res (Pm δ ξ) := do
  let p ← current m
  let q := c.install t extra m.next
  pure { m with cur := some q, next := m.next + 1, trace := m.trace ++ leave p ++ c.show q }

/-- The loop of `pman_reset_to_page`, page_manager.c:90-112: the entries, and the page found with the stack below it. -/
def resetLoop (id : Int) : List (Page δ ξ) → List (Ev δ ξ) × Option (Page δ ξ × List (Page δ ξ))
  | [] => ([], none)
  | p :: ps =>
    if p.tmpl.id = id then ([], some (p, ps))
    else
      let r := resetLoop id ps
      (⟨.destroy, p⟩ :: r.1, r.2)

/-- The end of `pman_reset_to_page`, page_manager.c:91-115. -/
def resetEnd (c : Conf δ) (m : Pm δ ξ) (p : Page δ ξ) : List (Ev δ ξ) × Option (Page δ ξ × List (Page δ ξ)) → Pm δ ξ × Bool
  | (evs, some (q, rest)) =>
    ({ m with init := true, cur := some q, stack := rest,
              trace := m.trace ++ leave p ++ evs ++ [⟨.open, q⟩] ++ c.updates q }, true)
  | (evs, none) => ({ m with init := false, stack := [], trace := m.trace ++ leave p ++ evs }, false)

/-- `pman_reset_to_page`, page_manager.c:76-116, with `*found`. -/
def reset (c : Conf δ) (m : Pm δ ξ) (id : Int) : Res (Pm δ ξ × Bool) := do
  let p ← current m
  pure (resetEnd c m p (resetLoop id m.stack))

/-- `clear_page_stack`, page_manager.c:14-22. -/
def clearStack (stack : List (Page δ ξ)) : List (Ev δ ξ) := stack.map fun p => ⟨.destroy, p⟩

/-- `pman_rebase_page_extra`, page_manager.c:119-153. -/
def rebase (c : Conf δ) (m : Pm δ ξ) (t : Tmpl) (extra : ξ) : Res (Pm δ ξ) := do
  let p ← current m
  let q := c.install t extra m.next
  pure { m with cur := some q, stack := [], next := m.next + 1,
                trace := m.trace ++ leave p ++ clearStack m.stack ++ c.show q }

/-- Lines 173 of `pman_change_page_extra`: the push is within the assertion, so that it is not done with `NDEBUG`. -/
def pushAssert (c : Conf δ) (stack : List (Page δ ξ)) (p : Page δ ξ) : Res (List (Page δ ξ)) :=
  if c.ndebug then .ok stack
  else if stack.length = c.depth then .abort
  else .ok (p :: stack)

/-- `pman_change_page_extra`, page_manager.c:161-204. -/
def change (c : Conf δ) (m : Pm δ ξ) (t : Tmpl) (extra : ξ) : Res (Pm δ ξ) :=
  let q := c.install t extra m.next
  if m.init then do
    let p ← current m
    let stack ← pushAssert c m.stack p
    pure { m with cur := some q, stack := stack, next := m.next + 1, trace := m.trace ++ [⟨.close, p⟩] ++ c.show q }
  else pure { m with init := true, cur := some q, next := m.next + 1, trace := m.trace ++ c.show q }

/-- `pman_back`, page_manager.c:210-237. -/
def back (c : Conf δ) (m : Pm δ ξ) : Res (Pm δ ξ) := do
  c.assert m.init
  match m.stack with
  | [] => pure m
  | q :: rest => do
    let p ← current m
    pure { m with cur := some q, stack := rest, trace := m.trace ++ leave p ++ [⟨.open, q⟩] ++ c.updates q }

/-- `pman_page_update`, page_manager.c:239-251. -/
def update (c : Conf δ) (m : Pm δ ξ) : Res (Pm δ ξ) := do
  c.assert m.init
  if c.upd then do
    let p ← current m
    pure { m with trace := m.trace ++ [⟨.update, p⟩] }
  else pure m

/-- `pman_process_page_event`, page_manager.c:31-34: the callback is called without a check. -/
def process (c : Conf δ) (m : Pm δ ξ) : Res (Pm δ ξ) := do
  c.assert m.init
  let p ← current m
  if p.tmpl.process then pure { m with trace := m.trace ++ [⟨.process, p⟩] } else .ub

/-- The calls of the page manager. -/
inductive Op (ξ : Type) where
  | change (t : Tmpl) (extra : ξ)
  | swap (t : Tmpl) (extra : ξ)
  | rebase (t : Tmpl) (extra : ξ)
  | back
  | reset (id : Int)
  | update
  | process

def step (c : Conf δ) (m : Pm δ ξ) : Op ξ → Res (Pm δ ξ)
  | .change t e => change c m t e
  | .swap t e => swap c m t e
  | .rebase t e => rebase c m t e
  | .back => back c m
  | .reset id => do
    let r ← reset c m id
    pure r.1
  | .update => update c m
  | .process => process c m

def run (c : Conf δ) (m : Pm δ ξ) : List (Op ξ) → Res (Pm δ ξ)
  | [] => .ok m
  | o :: os => do
    let m ← step c m o
    run c m os

end Gel.Pages
