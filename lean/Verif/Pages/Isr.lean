import Verif.Pages.Props

/-!
# Page manager: an event given to the page shown by an interrupt handler (C224)

The navigation functions as sequences of steps: the calls of the callbacks and the stores to the manager, in the order of page_manager.c. Before
each step an interrupt handler may run to its end, which calls `pman_process_page_event`. A page is copied in one step; the callbacks do not
use the manager. The result `*found` of `pman_reset_to_page` is left out.
-/
namespace Gel.Pages
open Spec

variable {δ ξ : Type}

/-! ## Model -/

/-- A function in progress: it ends, or does one step and goes on, knowing the state before the step. -/
inductive Prog (δ ξ : Type) where
  | done
  | act (f : Pm δ ξ → Res (Pm δ ξ)) (k : Pm δ ξ → Prog δ ξ)

/-- Steps one after the other. -/
def Prog.steps : List (Pm δ ξ → Res (Pm δ ξ)) → Prog δ ξ → Prog δ ξ
  | [], p => p
  | f :: fs, p => .act f fun _ => Prog.steps fs p

/-- Without interrupts. -/
def Prog.quiet : Prog δ ξ → Pm δ ξ → Res (Pm δ ξ)
  | .done, m => .ok m
  | .act f k, m => do
    let m' ← f m
    (k m).quiet m'

/-- A call of a callback of the current page, if it is not `NULL`. -/
def say (kind : Kind) (m : Pm δ ξ) : Res (Pm δ ξ) := do
  let p ← current m
  pure { m with trace := m.trace ++ [⟨kind, p⟩] }

/-- `current_page = newpage`, page_manager.c:47, 133 and 181; `newpage` comes with a `data` and an `extra` from the caller. -/
def assign (t : Tmpl) (d : δ) (x : ξ) (m : Pm δ ξ) : Res (Pm δ ξ) :=
  .ok { m with cur := some ⟨t, m.next, d, x⟩, next := m.next + 1 }

/-- `current_page.extra = extra`, page_manager.c:48, 134 and 182. -/
def setExtra (x : ξ) (m : Pm δ ξ) : Res (Pm δ ξ) := do
  let p ← current m
  pure { m with cur := some { p with extra := x } }

/-- What goes into `data`: what `create` returns, or the null data. -/
def Conf.dataOf (c : Conf δ) (p : Page δ ξ) : δ := if p.tmpl.create then c.made p.inst else c.null

/-- The call of `create`, page_manager.c:50-51, 136-137 and 185-186. -/
def create (c : Conf δ) (m : Pm δ ξ) : Res (Pm δ ξ) := do
  let p ← current m
  pure { m with trace := m.trace ++ [⟨.create, { p with data := c.dataOf p }⟩] }

/-- The store of its result, or of the null data, page_manager.c:51-54, 137-140 and 186-189. -/
def setData (c : Conf δ) (m : Pm δ ξ) : Res (Pm δ ξ) := do
  let p ← current m
  pure { m with cur := some { p with data := c.dataOf p } }

/-- `*current = page`, page_manager.c:96 and 225. -/
def restore (q : Page δ ξ) (m : Pm δ ξ) : Res (Pm δ ξ) := .ok { m with cur := some q }

/-- `initialized = b`. -/
def setInit (b : Bool) (m : Pm δ ξ) : Res (Pm δ ξ) := .ok { m with init := b }

/-- `navigation_stack_pop`. -/
def pop (m : Pm δ ξ) : Res (Pm δ ξ) := .ok { m with stack := m.stack.tail }

/-- `destroy` of a page that was popped. -/
def destroyPage (q : Page δ ξ) (m : Pm δ ξ) : Res (Pm δ ξ) := .ok { m with trace := m.trace ++ [⟨.destroy, q⟩] }

/-- The end of the navigation functions. -/
def Conf.updP (c : Conf δ) : Prog δ ξ := if c.upd then .act (say .update) fun _ => .done else .done

/-- A new page, page_manager.c:47-67, 133-152 and 178-203. -/
def Conf.newP (c : Conf δ) (t : Tmpl) (d : δ) (x₀ x : ξ) : Prog δ ξ :=
  .steps [assign t d x₀, setExtra x, create c, setData c, say .open] c.updP

/-- `pman_swap_page_extra`, page_manager.c:37-68. -/
def swapP (c : Conf δ) (t : Tmpl) (d : δ) (x₀ x : ξ) : Prog δ ξ := .steps [say .close, say .destroy] (c.newP t d x₀ x)

/-- `pman_change_page_extra`, page_manager.c:161-204. -/
def changeP (c : Conf δ) (t : Tmpl) (d : δ) (x₀ x : ξ) : Prog δ ξ :=
  .act .ok fun m =>
    if m.init then
      .act (say .close) fun _ => .act (fun m => do
        let p ← current m
        let stack ← pushAssert c m.stack p
        pure { m with stack := stack }) fun _ => c.newP t d x₀ x
    else .act (setInit true) fun _ => c.newP t d x₀ x

/-- The loop of `clear_page_stack`, page_manager.c:14-22; it ends after at most `n` turns and one. -/
def clearP (k : Prog δ ξ) : Nat → Prog δ ξ
  | 0 => .act pop fun _ => k
  | n + 1 => .act pop fun m =>
    match m.stack with
    | [] => k
    | q :: _ => .act (destroyPage q) fun _ => clearP k n

/-- `pman_rebase_page_extra`, page_manager.c:119-153, with at most `n` pages on the stack. -/
def rebaseP (c : Conf δ) (n : Nat) (t : Tmpl) (d : δ) (x₀ x : ξ) : Prog δ ξ :=
  .steps [say .close, say .destroy] (clearP (c.newP t d x₀ x) n)

/-- `pman_back`, page_manager.c:210-237. -/
def backP (c : Conf δ) : Prog δ ξ :=
  .act (fun m => do c.assert m.init; pure m) fun _ => .act pop fun m =>
    match m.stack with
    | [] => .done
    | q :: _ => .steps [say .close, say .destroy, restore q, say .open] c.updP

/-- The loop of `pman_reset_to_page`, page_manager.c:90-112. -/
def findP (c : Conf δ) (id : Int) : Nat → Prog δ ξ
  | 0 => .act pop fun _ => .done
  | n + 1 => .act pop fun m =>
    match m.stack with
    | [] => .done
    | q :: _ =>
      if q.tmpl.id = id then .steps [setInit true, restore q, say .open] c.updP
      else .act (destroyPage q) fun _ => findP c id n

/-- `pman_reset_to_page`, page_manager.c:76-116, with at most `n` pages on the stack. -/
def resetP (c : Conf δ) (n : Nat) (id : Int) : Prog δ ξ := .steps [say .close, say .destroy, setInit false] (findP c id n)

/-- The manager, and the pages that have received the events of handlers, each with what its life was at that moment. -/
structure ISt (δ ξ : Type) where
  pm : Pm δ ξ
  got : List (Page δ ξ × Life)

/-- `pman_process_page_event`, page_manager.c:31-34: the page that gets the event. -/
def receiver (c : Conf δ) (m : Pm δ ξ) : Res (Page δ ξ × Life) := do
  c.assert m.init
  let p ← current m
  if p.tmpl.process then pure (p, life p.inst .unborn m.trace) else .ub

/-- The interrupt handler. -/
def event (c : Conf δ) (s : ISt δ ξ) : Res (ISt δ ξ) := do
  let r ← receiver c s.pm
  pure { s with got := s.got ++ [r] }

/-- A function with handlers before the steps with the numbers in `on`, counted from `t`. -/
def Prog.exec (c : Conf δ) (on : Nat → Bool) : Nat → Prog δ ξ → ISt δ ξ → Res (ISt δ ξ)
  | _, .done, s => .ok s
  | t, .act f k, s => do
    let s' ← if on t then event c s else .ok s
    let m ← f s'.pm
    (k s'.pm).exec c on (t + 1) { s' with pm := m }

/-! ## The navigation itself -/

/-- The navigation functions by their names. -/
def prog (c : Conf δ) (n : Nat) (d : δ) (x₀ : ξ) : Op ξ → Prog δ ξ
  | .change t x => changeP c t d x₀ x
  | .swap t x => swapP c t d x₀ x
  | .rebase t x => rebaseP c n t d x₀ x
  | .back => backP c
  | .reset id => resetP c n id
  | .update => .done
  | .process => .done

def isNavigation : Op ξ → Bool
  | .update => false
  | .process => false
  | _ => true

theorem quiet_steps : ∀ (fs : List (Pm δ ξ → Res (Pm δ ξ))) (p : Prog δ ξ) (m : Pm δ ξ),
    (Prog.steps fs p).quiet m = (fs.foldlM (fun m f => f m) m >>= p.quiet)
  | [], p, m => rfl
  | f :: fs, p, m => by
    rw [Prog.steps, Prog.quiet, List.foldlM_cons]
    cases f m with
    | ok m' => exact quiet_steps fs p m'
    | ub => rfl
    | abort => rfl
    | diverge => rfl

theorem quiet_new (c : Conf δ) (t : Tmpl) (d : δ) (x₀ x : ξ) (m : Pm δ ξ) :
    (c.newP t d x₀ x).quiet m = .ok { m with cur := some (c.install t x m.next), next := m.next + 1, trace := m.trace ++ c.show (c.install t x m.next) } := by
  simp only [Conf.newP, Conf.updP, quiet_steps]
  cases hu : c.upd <;>
    simp [assign, setExtra, create, setData, say, current, Conf.dataOf, Conf.install, Conf.show, Conf.updates, Prog.quiet, hu]

theorem quiet_clear {k : Prog δ ξ} : ∀ (n : Nat) (m : Pm δ ξ), m.stack.length ≤ n →
    (clearP k n).quiet m = k.quiet { m with stack := [], trace := m.trace ++ clearStack m.stack } := by
  intro n
  induction n with
  | zero =>
    intro m h
    have h0 : m.stack = [] := List.length_eq_zero_iff.1 (by omega)
    obtain ⟨i, cu, st, ne, tr⟩ := m
    simp only at h0
    subst h0
    simp [clearP, Prog.quiet, pop, clearStack]
  | succ n ih =>
    intro m h
    obtain ⟨i, cu, st, ne, tr⟩ := m
    cases st with
    | nil => simp [clearP, Prog.quiet, pop, clearStack]
    | cons q st =>
      have := ih ⟨i, cu, st, ne, tr ++ [⟨.destroy, q⟩]⟩ (by simpa using h)
      simp only [clearP, Prog.quiet, pop, destroyPage, Res.ok_bind, List.tail_cons]
      rw [this]
      simp [clearStack]

theorem quiet_upd (c : Conf δ) (m : Pm δ ξ) (p : Page δ ξ) (hp : m.cur = some p) :
    (c.updP).quiet m = .ok { m with trace := m.trace ++ c.updates p } := by
  obtain ⟨i, cu, st, ne, tr⟩ := m
  subst hp
  cases hu : c.upd <;> simp [Conf.updP, hu, Prog.quiet, Conf.updates, say, current]

theorem quiet_find (c : Conf δ) (id : Int) (p : Page δ ξ) : ∀ (n : Nat) (m : Pm δ ξ) (tr : List (Ev δ ξ)), m.stack.length ≤ n →
    m.init = false →
    (findP c id n).quiet { m with trace := tr } =
      match resetLoop id m.stack with
      | (evs, some (q, rest)) => .ok { m with init := true, cur := some q, stack := rest, trace := tr ++ evs ++ [⟨.open, q⟩] ++ c.updates q }
      | (evs, none) => .ok { m with stack := [], trace := tr ++ evs } := by
  intro n
  induction n with
  | zero =>
    intro m tr h hi
    have h0 : m.stack = [] := List.length_eq_zero_iff.1 (by omega)
    simp [findP, Prog.quiet, pop, h0, resetLoop]
  | succ n ih =>
    intro m tr h hi
    obtain ⟨i, cu, st, ne, tr'⟩ := m
    cases st with
    | nil => simp [findP, Prog.quiet, pop, resetLoop]
    | cons q st =>
      simp only [findP, Prog.quiet, pop, Res.ok_bind, List.tail_cons, resetLoop]
      by_cases hid : q.tmpl.id = id
      · simp only [if_pos hid, quiet_steps]
        simp only [List.foldlM_cons, List.foldlM_nil, setInit, restore, say, current, Res.ok_bind, Res.pure_eq]
        rw [quiet_upd c _ q rfl]
        simp
      · simp only [if_neg hid, Prog.quiet, destroyPage, Res.ok_bind]
        have := ih ⟨i, cu, st, ne, tr'⟩ (tr ++ [⟨.destroy, q⟩]) (by simpa using h) hi
        rw [this]
        rcases hr : resetLoop id st with ⟨evs, _ | ⟨q', rest⟩⟩ <;> simp

/-- **C224.** Without interrupts the steps are the functions of the first model. -/
theorem C224_quiet (c : Conf δ) {n : Nat} (d : δ) (x₀ : ξ) (o : Op ξ) (ho : isNavigation o = true) (m : Pm δ ξ) (hn : m.stack.length ≤ n) :
    (prog c n d x₀ o).quiet m = step c m o := by
  cases o with
  | update => cases ho
  | process => cases ho
  | change t x =>
    simp only [prog, changeP, Prog.quiet, Res.ok_bind, step, change]
    cases hi : m.init with
    | true =>
      simp only [if_true, Prog.quiet, say, current]
      cases hc : m.cur with
      | none => rfl
      | some p =>
        simp only [Res.ok_bind, Res.pure_eq, hc]
        cases pushAssert c m.stack p with
        | ok st => simp only [Res.ok_bind]; rw [quiet_new]; simp only [hi]
        | ub => rfl
        | abort => rfl
        | diverge => rfl
    | false =>
      simp only [Bool.false_eq_true, if_false, Prog.quiet, setInit, Res.ok_bind]
      rw [quiet_new]
      rfl
  | swap t x =>
    simp only [prog, swapP, quiet_steps, step, swap, List.foldlM_cons, List.foldlM_nil, say, current]
    cases hc : m.cur with
    | none => rfl
    | some p =>
      simp only [Res.ok_bind, Res.pure_eq, hc]
      rw [quiet_new]
      simp [leave]
  | rebase t x =>
    simp only [prog, rebaseP, quiet_steps, step, rebase, List.foldlM_cons, List.foldlM_nil, say, current]
    cases hc : m.cur with
    | none => rfl
    | some p =>
      simp only [Res.ok_bind, Res.pure_eq, hc]
      rw [quiet_clear n _ (by exact hn), quiet_new]
      simp [leave]
  | back =>
    simp only [prog, backP, Prog.quiet, step, back]
    cases c.assert m.init with
    | ok u =>
      obtain ⟨i, cu, st, ne, tr⟩ := m
      cases st with
      | nil => simp [pop, Prog.quiet]
      | cons q st =>
        simp only [Res.ok_bind, Res.pure_eq, pop, quiet_steps, List.foldlM_cons, List.foldlM_nil, say, current]
        cases cu with
        | none => rfl
        | some p =>
          simp only [Res.ok_bind, restore, List.tail_cons]
          rw [quiet_upd c _ q rfl]
          simp [leave]
    | ub => rfl
    | abort => rfl
    | diverge => rfl
  | reset id =>
    simp only [prog, resetP, quiet_steps, step, reset, List.foldlM_cons, List.foldlM_nil, say, current]
    cases hc : m.cur with
    | none => rfl
    | some p =>
      simp only [Res.ok_bind, Res.pure_eq, hc, setInit]
      have := quiet_find c id p n ⟨false, some p, m.stack, m.next, m.trace⟩ (m.trace ++ [⟨.close, p⟩] ++ [⟨.destroy, p⟩]) hn rfl
      rw [this]
      rcases hr : resetLoop id m.stack with ⟨evs, _ | ⟨q', rest⟩⟩ <;> simp [resetEnd, leave, hc]

/-! ## What the handlers see -/

/-- What a handler before each step would get. -/
def Prog.sees (c : Conf δ) : Prog δ ξ → Pm δ ξ → List (Res (Page δ ξ × Life))
  | .done, _ => []
  | .act f k, m => receiver c m :: match f m with
    | .ok m' => (k m).sees c m'
    | _ => []

/-- What the handlers in `on` get, the first numbered `t`. -/
def gather (on : Nat → Bool) : Nat → List (Res ρ) → Res (List ρ)
  | _, [] => .ok []
  | t, r :: rs => if on t then do
      let x ← r
      let xs ← gather on (t + 1) rs
      pure (x :: xs)
    else gather on (t + 1) rs

/-- Handlers do not change what the function does: together they get what each would get alone. -/
theorem exec_eq (c : Conf δ) (on : Nat → Bool) : ∀ (p : Prog δ ξ) (t : Nat) (s : ISt δ ξ) (m' : Pm δ ξ), p.quiet s.pm = .ok m' →
    p.exec c on t s = do
      let g ← gather on t (p.sees c s.pm)
      pure ⟨m', s.got ++ g⟩
  | .done, t, s, m', h => by
    cases h
    simp [Prog.exec, Prog.sees, gather]
  | .act f k, t, s, m', h => by
    rw [Prog.quiet, Res.bind_eq_ok] at h
    obtain ⟨m, hf, hk⟩ := h
    simp only [Prog.exec, Prog.sees, gather, hf]
    cases on t with
    | false =>
      simp only [Bool.false_eq_true, if_false, Res.ok_bind, hf]
      exact exec_eq c on (k s.pm) (t + 1) ⟨m, s.got⟩ m' hk
    | true =>
      simp only [if_true, event]
      cases receiver c s.pm with
      | ub => rfl
      | abort => rfl
      | diverge => rfl
      | ok r =>
        simp only [Res.ok_bind, Res.pure_eq, hf]
        rw [exec_eq c on (k s.pm) (t + 1) ⟨m, s.got ++ [r]⟩ m' hk]
        cases gather on (t + 1) ((k s.pm).sees c m) <;> simp

/-! ### Specification: tables of what there is to see, one entry for each step -/

/-- From the copy of the new page `t`, which becomes number `n`, to the end: it is not created; then it is created, but
has the data `d` that came with the template; then it is not open. -/
def newTable (c : Conf δ) (t : Tmpl) (n : Nat) (d : δ) (x₀ x : ξ) : List (Res (Page δ ξ × Life)) :=
  [.ok (⟨t, n, d, x₀⟩, .unborn), .ok (⟨t, n, d, x⟩, .unborn), .ok (⟨t, n, d, x⟩, .closed), .ok (fresh c t x n, .closed)] ++
    if c.upd then [.ok (fresh c t x n, .opened)] else []

/-- From the copy of page `q` from the stack to the end. -/
def oldTable (c : Conf δ) (q : Page δ ξ) : List (Res (Page δ ξ × Life)) :=
  [.ok (q, .closed)] ++ if c.upd then [.ok (q, .opened)] else []

/-- For every navigation from page `p` with the pages `st` below. -/
def table (c : Conf δ) (p : Page δ ξ) (st : List (Page δ ξ)) (n : Nat) (d : δ) (x₀ : ξ) : Op ξ → List (Res (Page δ ξ × Life))
  | .change t x => [.ok (p, .opened), .ok (p, .opened), .ok (p, .closed), .ok (p, .closed)] ++ newTable c t n d x₀ x
  | .swap t x => [.ok (p, .opened), .ok (p, .closed), .ok (p, .dead)] ++ newTable c t n d x₀ x
  | .rebase t x => [.ok (p, .opened), .ok (p, .closed)] ++ List.replicate (2 * st.length + 2) (.ok (p, .dead)) ++ newTable c t n d x₀ x
  | .back =>
    match st with
    | [] => [.ok (p, .opened), .ok (p, .opened)]
    | q :: _ => [.ok (p, .opened), .ok (p, .opened), .ok (p, .opened), .ok (p, .closed), .ok (p, .dead)] ++ oldTable c q
  | .reset id =>
    [.ok (p, .opened), .ok (p, .closed), .ok (p, .dead)] ++
      match st.dropWhile fun q => q.tmpl.id ≠ id with
      | [] => List.replicate (2 * st.length + 1) .abort
      | q :: rest => List.replicate (2 * (st.length - rest.length)) .abort ++ [.ok (p, .dead)] ++ oldTable c q
  | .update => []
  | .process => []

/-- A page is shown, and is open; those below are closed. -/
structure Shown (m : Pm δ ξ) (p : Page δ ξ) : Prop where
  init : m.init = true
  cur : m.cur = some p
  opened : life p.inst .unborn m.trace = .opened
  closed : ∀ q ∈ m.stack, life q.inst .unborn m.trace = .closed
  unborn : life m.next .unborn m.trace = .unborn
  nodup : (m.stack.map (·.inst)).Nodup

/-- After every history of calls in which swap, rebase and reset are called only when there is a page, a page is shown or
there is none. -/
theorem shown_of_history [Inhabited ξ] {c : Conf δ} {m : Pm δ ξ} (hd : c.ndebug = false) {cur : Option (Page δ ξ)} {os : List (Op ξ)}
    (hu : Usable c ⟨[], 0⟩ os) (h : run c (Pages.init cur) os = .ok m) (hi : m.init = true) : ∃ p, Shown m p := by
  obtain ⟨-, ho, hc, hn, hnd, -⟩ := C69_life_partial c hd cur os hu h
  obtain ⟨f, hI⟩ := inv_init c cur
  obtain ⟨-, f, hI⟩ := nav_run hd os hI hu h
  obtain ⟨p, hp, -⟩ := hI.cur hi
  have hnav : (nav m).pages = p :: m.stack := by simp [nav, hi, hp]
  rw [hnav] at ho hc hnd
  exact ⟨p, hi, hp, (ho _).2 ⟨p, rfl, rfl⟩, fun q hq => (hc _).2 ⟨q, hq, rfl⟩, (hn _).2 (Nat.le_refl _), (List.nodup_cons.1 hnd).2⟩

theorem receiver_ok {c : Conf δ} {i : Bool} {p : Page δ ξ} {st : List (Page δ ξ)} {n : Nat} {tr : List (Ev δ ξ)} (l : Life) (hi : i = true)
    (hp : p.tmpl.process = true) (hl : life p.inst .unborn tr = l) : receiver c ⟨i, some p, st, n, tr⟩ = .ok (p, l) := by
  cases hd : c.ndebug <;> simp [receiver, Conf.assert, cassert, hd, hi, current, hp, hl]

theorem receiver_abort {c : Conf δ} {cu : Option (Page δ ξ)} {st : List (Page δ ξ)} {n : Nat} {tr : List (Ev δ ξ)} (hd : c.ndebug = false) :
    receiver c ⟨false, cu, st, n, tr⟩ = .abort := by
  simp [receiver, Conf.assert, cassert, hd]

theorem sees_new (c : Conf δ) (t : Tmpl) (d : δ) (x₀ x : ξ) (ht : t.process = true) (cu : Option (Page δ ξ)) (st : List (Page δ ξ)) (n : Nat)
    (tr : List (Ev δ ξ)) (hn : life n .unborn tr = .unborn) :
    (c.newP t d x₀ x).sees c ⟨true, cu, st, n, tr⟩ = receiver c ⟨true, cu, st, n, tr⟩ :: newTable c t n d x₀ x := by
  have hf : (⟨t, n, c.dataOf (⟨t, n, d, x⟩ : Page δ ξ), x⟩ : Page δ ξ) = fresh c t x n := by
    cases hc : t.create <;> simp [fresh, Conf.dataOf, Tmpl.has, hc]
  simp only [Conf.newP, Prog.steps, Prog.sees, assign, setExtra, create, setData, say, current, Res.ok_bind, Res.pure_eq, newTable, List.cons_append,
    List.nil_append, hf]
  rw [receiver_ok (p := ⟨t, n, d, x₀⟩) _ rfl ht hn, receiver_ok (p := ⟨t, n, d, x⟩) _ rfl ht hn,
    receiver_ok (p := ⟨t, n, d, x⟩) .closed rfl ht (by simp [life_append, hn, life, fresh, Life.next]),
    receiver_ok (p := fresh c t x n) .closed rfl ht (by simp [life_append, hn, life, fresh, Life.next])]
  cases hu : c.upd with
  | false => simp [Conf.updP, hu, Prog.sees]
  | true =>
    simp only [Conf.updP, hu, if_true, Prog.sees, say, current, Res.ok_bind, Res.pure_eq]
    rw [receiver_ok (p := fresh c t x n) .opened rfl ht (by simp [life_append, hn, life, fresh, Life.next])]

theorem sees_old (c : Conf δ) (q : Page δ ξ) (hq : q.tmpl.process = true) (st : List (Page δ ξ)) (n : Nat)
    (tr : List (Ev δ ξ)) (hl : life q.inst .unborn tr = .closed) :
    (Prog.steps [say .open] c.updP).sees c ⟨true, some q, st, n, tr⟩ = oldTable c q := by
  simp only [Prog.steps, Prog.sees, say, current, Res.ok_bind, Res.pure_eq, oldTable, List.cons_append, List.nil_append]
  rw [receiver_ok .closed rfl hq hl]
  cases hu : c.upd with
  | false => simp [Conf.updP, hu, Prog.sees]
  | true =>
    simp only [Conf.updP, hu, if_true, Prog.sees, say, current, Res.ok_bind, Res.pure_eq]
    rw [receiver_ok .opened rfl hq (by simp [life_append, hl, life, Life.next])]

theorem sees_clear (c : Conf δ) (t : Tmpl) (d : δ) (x₀ x : ξ) (ht : t.process = true) (p : Page δ ξ) (hp : p.tmpl.process = true) (n : Nat) :
    ∀ (st : List (Page δ ξ)) (tr : List (Ev δ ξ)), life p.inst .unborn tr = .dead → life n .unborn tr = .unborn →
    (∀ q ∈ st, q.inst ≠ p.inst ∧ q.inst ≠ n) →
    (clearP (c.newP t d x₀ x) st.length).sees c ⟨true, some p, st, n, tr⟩ = List.replicate (2 * st.length + 2) (.ok (p, .dead)) ++ newTable c t n d x₀ x
  | [], tr, hl, hn, _ => by
    simp only [List.length_nil, clearP, Prog.sees, pop, List.tail_nil]
    rw [sees_new c t d x₀ x ht _ _ _ _ hn, receiver_ok _ rfl hp hl]
    rfl
  | q :: st, tr, hl, hn, hq => by
    obtain ⟨h1, h2⟩ := hq q (by simp)
    have hl' : life p.inst .unborn (tr ++ [⟨.destroy, q⟩]) = .dead := by simp [life_append, hl, life, h1]
    have hn' : life n .unborn (tr ++ [⟨.destroy, q⟩]) = .unborn := by simp [life_append, hn, life, h2]
    simp only [List.length_cons, clearP, Prog.sees, pop, List.tail_cons, destroyPage]
    rw [sees_clear c t d x₀ x ht p hp n st _ hl' hn' fun r hr => hq r (by simp [hr]), receiver_ok _ rfl hp hl, receiver_ok _ rfl hp hl]
    simp [Nat.mul_add, List.replicate_succ]

theorem sees_find (c : Conf δ) (hd : c.ndebug = false) (id : Int) (p : Page δ ξ) (hp : p.tmpl.process = true) (n : Nat) :
    ∀ (st : List (Page δ ξ)) (tr : List (Ev δ ξ)), life p.inst .unborn tr = .dead → (∀ q ∈ st, life q.inst .unborn tr = .closed) →
    (∀ q ∈ st, q.tmpl.process = true) → (st.map (·.inst)).Nodup →
    (findP c id st.length).sees c ⟨false, some p, st, n, tr⟩ =
      match st.dropWhile fun q => q.tmpl.id ≠ id with
      | [] => List.replicate (2 * st.length + 1) .abort
      | q :: rest => List.replicate (2 * (st.length - rest.length)) .abort ++ [.ok (p, .dead)] ++ oldTable c q
  | [], tr, hl, _, _, _ => by
    simp [findP, Prog.sees, pop, receiver_abort hd]
  | q :: st, tr, hl, hc, hq, hnd => by
    have hcq := hc q (by simp)
    have hnd' : q.inst ∉ st.map (·.inst) ∧ (st.map (·.inst)).Nodup := by simpa using hnd
    simp only [List.length_cons, findP, Prog.sees, pop, List.tail_cons]
    by_cases hid : q.tmpl.id = id
    · have hold := sees_old c q (hq q (by simp)) st n tr hcq
      simp only [Prog.steps] at hold
      simp only [if_pos hid, Prog.steps, Prog.sees, setInit, restore, receiver_abort hd]
      simp only [Prog.sees] at hold
      rw [hold, receiver_ok _ rfl hp hl]
      simp [hid, List.replicate_succ]
    · have hqp : q.inst ≠ p.inst := fun h => by rw [h, hl] at hcq; cases hcq
      have hl' : life p.inst .unborn (tr ++ [⟨.destroy, q⟩]) = .dead := by simp [life_append, hl, life, hqp]
      have hc' : ∀ r ∈ st, life r.inst .unborn (tr ++ [⟨.destroy, q⟩]) = .closed := by
        intro r hr
        have : q.inst ≠ r.inst := fun h => hnd'.1 (h ▸ List.mem_map_of_mem hr)
        simp [life_append, hc r (by simp [hr]), life, this]
      simp only [if_neg hid, Prog.sees, destroyPage, receiver_abort hd]
      rw [sees_find c hd id p hp n st _ hl' hc' (fun r hr => hq r (by simp [hr])) hnd'.2]
      have : List.dropWhile (fun q => decide (q.tmpl.id ≠ id)) (q :: st) = st.dropWhile fun q => decide (q.tmpl.id ≠ id) := by
        simp [List.dropWhile_cons, hid]
      rw [this]
      cases hdw : st.dropWhile fun q => decide (q.tmpl.id ≠ id) with
      | nil => simp [Nat.mul_add, List.replicate_succ]
      | cons r rest =>
        have hlen : rest.length + 1 ≤ st.length := by
          have := (List.dropWhile_suffix (l := st) fun q => decide (q.tmpl.id ≠ id)).length_le
          rw [hdw] at this
          simpa using this
        have e : 2 * (st.length + 1 - rest.length) = 2 * (st.length - rest.length) + 1 + 1 := by omega
        simp only [e, List.replicate_succ, List.cons_append]

/-- The template that a call gets. -/
def given : Op ξ → Option Tmpl
  | .change t _ => some t
  | .swap t _ => some t
  | .rebase t _ => some t
  | _ => none

theorem sees_table (c : Conf δ) (hd : c.ndebug = false) {m m' : Pm δ ξ} {p : Page δ ξ} (hs : Shown m p) (d : δ) (x₀ : ξ) (o : Op ξ)
    (ho : isNavigation o = true) (hp : p.tmpl.process = true) (hst : ∀ q ∈ m.stack, q.tmpl.process = true)
    (ht : ∀ t, given o = some t → t.process = true) (h : step c m o = .ok m') :
    (prog c m.stack.length d x₀ o).sees c m = table c p m.stack m.next d x₀ o := by
  obtain ⟨i, cu, st, n, tr⟩ := m
  obtain ⟨hi, hc, hop, hcl, hun, hnd⟩ := hs
  simp only at hi hc hop hcl hun hnd hst
  subst hi hc
  have hpn : p.inst ≠ n := fun e => by rw [e, hun] at hop; cases hop
  have hqp : ∀ q ∈ st, q.inst ≠ p.inst := fun q hq e => by have := hcl q hq; rw [e, hop] at this; cases this
  have hqn : ∀ q ∈ st, q.inst ≠ n := fun q hq e => by have := hcl q hq; rw [e, hun] at this; cases this
  have hcd : life p.inst .unborn (tr ++ [⟨.close, p⟩]) = .closed := by simp [life_append, hop, life, Life.next]
  have hdd : life p.inst .unborn (tr ++ [⟨.close, p⟩] ++ [⟨.destroy, p⟩]) = .dead := by simp [life_append, hop, life, Life.next]
  have hn1 : life n .unborn (tr ++ [⟨.close, p⟩]) = .unborn := by simp [life_append, hun, life, hpn]
  have hn2 : life n .unborn (tr ++ [⟨.close, p⟩] ++ [⟨.destroy, p⟩]) = .unborn := by simp [life_append, hun, life, hpn]
  have hq2 : ∀ q ∈ st, life q.inst .unborn (tr ++ [⟨.close, p⟩] ++ [⟨.destroy, p⟩]) = .closed := fun q hq => by
    simp [life_append, hcl q hq, life, (hqp q hq).symm]
  cases o with
  | update => cases ho
  | process => cases ho
  | change t x =>
    have hlen : ∃ st', pushAssert c st p = .ok st' := by
      simp only [step, change, current, if_true, Res.ok_bind, Res.bind_eq_ok] at h
      obtain ⟨st', h, -⟩ := h
      exact ⟨st', h⟩
    obtain ⟨st', hpu⟩ := hlen
    simp only [prog, changeP, Prog.sees, if_true, say, current, Res.ok_bind, Res.pure_eq, hpu, table]
    rw [sees_new c t d x₀ x (ht t rfl) _ _ _ _ hn1, receiver_ok _ rfl hp hop, receiver_ok _ rfl hp hcd, receiver_ok _ rfl hp hcd]
    rfl
  | swap t x =>
    simp only [prog, swapP, Prog.steps, Prog.sees, say, current, Res.ok_bind, Res.pure_eq, table]
    rw [sees_new c t d x₀ x (ht t rfl) _ _ _ _ hn2, receiver_ok _ rfl hp hop, receiver_ok _ rfl hp hcd, receiver_ok _ rfl hp hdd]
    rfl
  | rebase t x =>
    simp only [prog, rebaseP, Prog.steps, Prog.sees, say, current, Res.ok_bind, Res.pure_eq, table]
    rw [sees_clear c t d x₀ x (ht t rfl) p hp n st _ hdd hn2 fun q hq => ⟨hqp q hq, hqn q hq⟩, receiver_ok _ rfl hp hop, receiver_ok _ rfl hp hcd]
    rfl
  | back =>
    have ha : c.assert true = .ok () := by simp [Conf.assert, cassert, hd]
    cases st with
    | nil =>
      simp only [prog, backP, Prog.sees, ha, Res.ok_bind, Res.pure_eq, pop, table]
      rw [receiver_ok _ rfl hp hop]
    | cons q st =>
      have hold := sees_old c q (hst q (by simp)) st n _ (hq2 q (by simp))
      simp only [Prog.steps] at hold
      simp only [prog, backP, Prog.sees, ha, Res.ok_bind, Res.pure_eq, pop, table, Prog.steps, say, current, restore, List.tail_cons]
      simp only [Prog.sees, say, current, Res.ok_bind, Res.pure_eq] at hold
      rw [hold, receiver_ok _ rfl hp hop, receiver_ok _ rfl hp hop, receiver_ok _ rfl hp hcd, receiver_ok _ rfl hp hdd]
      rfl
  | reset id =>
    simp only [prog, resetP, Prog.steps, Prog.sees, say, current, Res.ok_bind, Res.pure_eq, table, setInit]
    rw [sees_find c hd id p hp n st _ hdd hq2 hst hnd, receiver_ok _ rfl hp hop, receiver_ok _ rfl hp hcd, receiver_ok _ rfl hp hdd]
    rfl

/-- **C224.** After every usable history, whatever handlers interrupt whatever navigation: it does what it does without
them, and they get what the table says. -/
theorem C224_exact [Inhabited ξ] (c : Conf δ) (hd : c.ndebug = false) (cur : Option (Page δ ξ)) (os : List (Op ξ)) (hu : Usable c ⟨[], 0⟩ os)
    {m m' : Pm δ ξ} (h : run c (init cur) os = .ok m) (hi : m.init = true) (on : Nat → Bool) (d : δ) (x₀ : ξ) (o : Op ξ)
    (ho : isNavigation o = true) (hpr : ∀ q ∈ (nav m).pages, q.tmpl.process = true) (ht : ∀ t, given o = some t → t.process = true)
    (hm : step c m o = .ok m') :
    ∃ p, (nav m).pages = p :: m.stack ∧ (prog c m.stack.length d x₀ o).exec c on 0 ⟨m, []⟩ =
      gather on 0 (table c p m.stack m.next d x₀ o) >>= fun g => .ok ⟨m', g⟩ := by
  obtain ⟨p, hs⟩ := shown_of_history hd hu h hi
  have hnav : (nav m).pages = p :: m.stack := by simp [nav, hi, hs.cur]
  refine ⟨p, hnav, ?_⟩
  rw [hnav] at hpr
  rw [exec_eq c on _ 0 ⟨m, []⟩ m' ((C224_quiet c d x₀ o ho m (Nat.le_refl _)).trans hm),
    sees_table c hd hs d x₀ o ho (hpr p (by simp)) (fun q hq => hpr q (by simp [hq])) ht hm]
  rfl

/-- **C224.** If handlers come only before the navigation begins, with interrupts disabled during it, their events reach
the page shown, which is open. -/
theorem C224_outside_partial [Inhabited ξ] (c : Conf δ) (hd : c.ndebug = false) (cur : Option (Page δ ξ)) (os : List (Op ξ))
    (hu : Usable c ⟨[], 0⟩ os) {m : Pm δ ξ} (h : run c (init cur) os = .ok m) {p : Page δ ξ} {ps : List (Page δ ξ)}
    (hp : (nav m).pages = p :: ps) (hpr : p.tmpl.process = true) : receiver c m = .ok (p, .opened) := by
  have hi : m.init = true := by
    cases hi : m.init with
    | true => rfl
    | false => simp [nav, hi] at hp
  obtain ⟨q, hs⟩ := shown_of_history hd hu h hi
  have hq : q = p := by
    have : (nav m).pages = q :: m.stack := by simp [nav, hi, hs.cur]
    rw [hp] at this
    injection this with h1 _
    exact h1.symm
  subst hq
  obtain ⟨i, cu, st, n, tr⟩ := m
  obtain ⟨hi, hc, hop, -, -, -⟩ := hs
  simp only at hi hc hop
  subst hc
  exact receiver_ok _ hi hpr hop

/-- **C224.** The event of one handler during `pman_swap_page` reaches a page that has been destroyed, or one that has not
been created yet and has other data than it will get; one during `pman_reset_to_page` ends the program. -/
theorem C224_during_wrong [Inhabited ξ] (c : Conf δ) (hd : c.ndebug = false) (cur : Option (Page δ ξ)) (os : List (Op ξ)) (hu : Usable c ⟨[], 0⟩ os)
    {m : Pm δ ξ} (h : run c (init cur) os = .ok m) (d : δ) (x₀ x : ξ) (t : Tmpl) (id : Int) (ht : t.process = true) {p : Page δ ξ}
    {ps : List (Page δ ξ)} (hp : (nav m).pages = p :: ps) (hpr : ∀ q ∈ (nav m).pages, q.tmpl.process = true) :
    ∃ m', swap c m t x = .ok m' ∧
    (prog c m.stack.length d x₀ (.swap t x)).exec c (· == 1) 0 ⟨m, []⟩ = .ok ⟨m', [(p, .closed)]⟩ ∧
    (prog c m.stack.length d x₀ (.swap t x)).exec c (· == 2) 0 ⟨m, []⟩ = .ok ⟨m', [(p, .dead)]⟩ ∧
    (prog c m.stack.length d x₀ (.swap t x)).exec c (· == 4) 0 ⟨m, []⟩ = .ok ⟨m', [(⟨t, m.next, d, x⟩, .unborn)]⟩ ∧
    (prog c m.stack.length d x₀ (.reset id)).exec c (· == 3) 0 ⟨m, []⟩ = .abort := by
  have hi : m.init = true := by
    cases hi : m.init with
    | true => rfl
    | false => simp [nav, hi] at hp
  obtain ⟨p', hs⟩ := shown_of_history hd hu h hi
  have hsw : ∃ m', swap c m t x = .ok m' := by simp [swap, current, hs.cur]
  have hre : ∃ r, reset c m id = .ok r := by simp [reset, current, hs.cur]
  obtain ⟨m', hm'⟩ := hsw
  obtain ⟨r, hr⟩ := hre
  have sw := fun on => C224_exact c hd cur os hu h hi on d x₀ (.swap t x) rfl hpr (fun t' e => by cases e; exact ht) hm'
  have hrs : step c m (.reset id) = .ok r.1 := by simp [step, hr]
  obtain ⟨q, hq, h3⟩ := C224_exact c hd cur os hu h hi (· == 3) d x₀ (.reset id) rfl hpr (fun t' e => by cases e) hrs
  refine ⟨m', hm', ?_, ?_, ?_, ?_⟩
  · obtain ⟨q, hq, h1⟩ := sw (· == 1)
    rw [hp] at hq
    cases hq
    rw [h1]
    cases hu : c.upd <;> simp [table, newTable, gather, hu]
  · obtain ⟨q, hq, h1⟩ := sw (· == 2)
    rw [hp] at hq
    cases hq
    rw [h1]
    cases hu : c.upd <;> simp [table, newTable, gather, hu]
  · obtain ⟨q, hq, h1⟩ := sw (· == 4)
    rw [hp] at hq
    cases hq
    rw [h1]
    cases hu : c.upd <;> simp [table, newTable, gather, hu]
  · rw [h3]
    simp only [table, List.cons_append, List.nil_append, gather]
    cases hdw : m.stack.dropWhile fun q => decide (q.tmpl.id ≠ id) with
    | nil => simp [List.replicate_succ, gather]
    | cons q' rest =>
      have hlen : rest.length + 1 ≤ m.stack.length := by
        have := (List.dropWhile_suffix (l := m.stack) fun q => decide (q.tmpl.id ≠ id)).length_le
        rw [hdw] at this
        simpa using this
      obtain ⟨k, hk⟩ : ∃ k, 2 * (m.stack.length - rest.length) = k + 1 := ⟨2 * (m.stack.length - rest.length) - 1, by omega⟩
      simp [hk, List.replicate_succ, gather]

/-- **C224.** Before the first page the event ends the program, and during the first `pman_change_page` it goes to a page
that was never given. -/
theorem C224_first_wrong (c : Conf δ) (hd : c.ndebug = false) (n : Nat) (d : δ) (x₀ x : ξ) (t : Tmpl) :
    (prog c n d x₀ (.change t x)).exec c (· == 0) 0 ⟨init none, []⟩ = .abort ∧
    (prog c n d x₀ (.change t x)).exec c (· == 2) 0 ⟨init none, []⟩ = .ub := by
  constructor
  · simp [prog, changeP, Prog.exec, event, receiver, Conf.assert, cassert, hd, init]
  · simp [prog, changeP, Prog.exec, event, receiver, Conf.assert, cassert, hd, init, setInit, Conf.newP, Prog.steps, current]

/-- An event for a page without `process_event` callback is a call through the null pointer, page_manager.c:33: so after any history the first step of a swap
with a handler before it is undefined if the page shown has none. -/
theorem C224_null_wrong [Inhabited ξ] (c : Conf δ) (hd : c.ndebug = false) (cur : Option (Page δ ξ)) (os : List (Op ξ)) (hu : Usable c ⟨[], 0⟩ os)
    {m : Pm δ ξ} (h : run c (init cur) os = .ok m) (d : δ) (x₀ x : ξ) (t : Tmpl) {p : Page δ ξ} {ps : List (Page δ ξ)}
    (hp : (nav m).pages = p :: ps) (hpr : p.tmpl.process = false) :
    receiver c m = .ub ∧ (prog c m.stack.length d x₀ (.swap t x)).exec c (· == 0) 0 ⟨m, []⟩ = .ub := by
  have hi : m.init = true := by
    cases hi : m.init with
    | true => rfl
    | false => simp [nav, hi] at hp
  obtain ⟨q, hs⟩ := shown_of_history hd hu h hi
  have hq : q = p := by
    have := hp
    simp [nav, hi, hs.cur] at this
    exact this.1
  subst hq
  have hr : receiver c m = .ub := by
    simp [receiver, Conf.assert, cassert, hd, hi, current, hs.cur, hpr]
  refine ⟨hr, ?_⟩
  simp [prog, swapP, Prog.steps, Prog.exec, event, hr]

/-! ## Examples -/

private def cE : Conf Nat := ⟨4, true, false, 0, fun n => 100 + n⟩
private def tE (id : Int) : Tmpl := ⟨id, true, true, true, true, true, true⟩
private def mE : Pm Nat Unit :=
  ⟨true, some ⟨tE 1, 0, 100, ()⟩, [], 1, [⟨.create, ⟨tE 1, 0, 100, ()⟩⟩, ⟨.open, ⟨tE 1, 0, 100, ()⟩⟩, ⟨.update, ⟨tE 1, 0, 100, ()⟩⟩]⟩

example : run cE (init none) [.change (tE 1) ()] = .ok mE := by decide +kernel

example : (prog cE 0 7 () (.swap (tE 2) ())).quiet mE = swap cE mE (tE 2) () := by
  exact C224_quiet cE 7 () (.swap (tE 2) ()) rfl mE (by decide)

/-- Seven handlers during one swap: page 1 open, closed and destroyed, then page 2 with data 7 before and after it is created, and closed. -/
example : ((prog cE 0 7 () (.swap (tE 2) ())).exec cE (· ≤ 6) 0 ⟨mE, []⟩ >>= fun s => .ok (s.got.map fun r => (r.1.tmpl.id, r.1.data, r.2))) =
    .ok [(1, 100, .opened), (1, 100, .closed), (1, 100, .dead), (2, 7, .unborn), (2, 7, .unborn), (2, 7, .closed), (2, 101, .closed)] := by
  decide +kernel

example : receiver cE mE = .ok (⟨tE 1, 0, 100, ()⟩, .opened) :=
  C224_outside_partial cE rfl none [.change (tE 1) ()] (by simp [Usable, replaces]) (by decide +kernel) (p := ⟨tE 1, 0, 100, ()⟩) (ps := []) (by decide +kernel) rfl

example : ∃ m', swap cE mE (tE 2) () = .ok m' ∧
    (prog cE 0 7 () (.swap (tE 2) ())).exec cE (· == 2) 0 ⟨mE, []⟩ = .ok ⟨m', [(⟨tE 1, 0, 100, ()⟩, .dead)]⟩ := by
  obtain ⟨m', h1, -, h2, -⟩ := C224_during_wrong cE rfl none [.change (tE 1) ()] (by simp [Usable, replaces]) (m := mE) (by decide +kernel) 7 () () (tE 2) 1 rfl
    (p := ⟨tE 1, 0, 100, ()⟩) (ps := []) (by decide +kernel) (by decide +kernel)
  exact ⟨m', h1, h2⟩

example : (prog cE 0 7 () (.change (tE 1) ())).exec cE (· == 2) 0 ⟨init none, []⟩ = .ub := (C224_first_wrong cE rfl 0 7 () () (tE 1)).2

example : receiver cE ⟨true, some ⟨⟨1, true, true, true, true, true, false⟩, 0, 100, ()⟩, [], 1, []⟩ = .ub := by decide +kernel

end Gel.Pages
