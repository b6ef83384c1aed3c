import Verif.Pages.Props

/-!
# Page manager: an application that navigates as its pages say (C218)

The loop for which `pman_process_page_event` is made (page_manager.h): each event is given to the page that is shown, and the message
with which the page answers says where to go.
-/
namespace Gel.Pages

open Spec

variable {δ ξ ε α : Type}

/-- What the message of a page asks for. -/
inductive Move (ξ : Type) where
  | change (t : Tmpl) (extra : ξ)
  | swap (t : Tmpl) (extra : ξ)
  | rebase (t : Tmpl) (extra : ξ)
  | back
  | reset (id : Int)

/-- The call that the application makes. -/
def Move.op : Move ξ → Op ξ
  | .change t x => .change t x
  | .swap t x => .swap t x
  | .rebase t x => .rebase t x
  | .back => .back
  | .reset id => .reset id

/-- The page that it introduces. -/
def Move.page : Move ξ → Option Tmpl
  | .change t _ => some t
  | .swap t _ => some t
  | .rebase t _ => some t
  | _ => none

/-- The `process_event` callbacks: what a page does with an event to the model of the application, and its answer. -/
abbrev Answers (δ ξ ε α : Type) := Page δ ξ → ε → α → α × Option (Move ξ)

/-- One event: `pman_process_page_event`, page_manager.c:31-34, and the navigation. -/
def handle (c : Conf δ) (ans : Answers δ ξ ε α) (m : Pm δ ξ) (a : α) (e : ε) : Res (Pm δ ξ × α) := do
  let m ← process c m
  let p ← current m
  match ans p e a with
  | (a, none) => pure (m, a)
  | (a, some mv) => do
    let m ← step c m mv.op
    pure (m, a)

/-- All events. -/
def loop (c : Conf δ) (ans : Answers δ ξ ε α) (m : Pm δ ξ) (a : α) : List ε → Res (Pm δ ξ × α)
  | [] => .ok (m, a)
  | e :: es => do
    let r ← handle c ans m a e
    loop c ans r.1 r.2 es

/-- The application: the first page, then the events. -/
def app (c : Conf δ) (ans : Answers δ ξ ε α) (cur : Option (Page δ ξ)) (first : Tmpl) (x : ξ) (a : α) (es : List ε) :
    Res (Pm δ ξ × α) := do
  let m ← change c (init cur) first x
  loop c ans m a es

namespace Spec

/-- The application on a stack of pages: the stack, the model and the pages that have got the events; `none` if there is no page to
get an event or no room for one more. -/
def appStep (c : Conf δ) (ans : Answers δ ξ ε α) (s : Nav δ ξ) (a : α) (e : ε) : Option (Nav δ ξ × α × Page δ ξ) :=
  match s.pages with
  | [] => none
  | p :: below => match ans p e a with
    | (a, none) => some (s, a, p)
    | (a, some (.change t x)) => if below.length < c.depth then some (⟨fresh c t x s.next :: p :: below, s.next + 1⟩, a, p) else none
    | (a, some mv) => some (s.step c mv.op, a, p)

def appRun (c : Conf δ) (ans : Answers δ ξ ε α) (s : Nav δ ξ) (a : α) : List ε → Option (Nav δ ξ × α × List (Page δ ξ))
  | [] => some (s, a, [])
  | e :: es => match appStep c ans s a e with
    | none => none
    | some (s, a, p) => match appRun c ans s a es with
      | none => none
      | some (s, a, ps) => some (s, a, p :: ps)

end Spec

/-- The pages that have got events, in order. -/
def receivers (tr : List (Ev δ ξ)) : List (Page δ ξ) := (tr.filter fun e => e.kind = .process).map (·.page)

theorem receivers_append (l₁ l₂ : List (Ev δ ξ)) : receivers (l₁ ++ l₂) = receivers l₁ ++ receivers l₂ := by
  simp [receivers]

theorem receivers_updates (c : Conf δ) (q : Page δ ξ) : receivers (c.updates q) = [] := by
  unfold Conf.updates
  split <;> rfl

theorem receivers_show (c : Conf δ) (q : Page δ ξ) : receivers (c.show q) = [] := by
  rw [Conf.show, receivers_append, receivers_updates]
  rfl

theorem receivers_clear (l : List (Page δ ξ)) : receivers (clearStack l) = [] := by
  induction l with
  | nil => rfl
  | cons p l ih => exact ih

/-- All pages of the manager have `process_event`. -/
def AllProcess (s : Nav δ ξ) : Prop := ∀ p ∈ s.pages, p.tmpl.process = true

/-- No navigation gives an event to a page. -/
theorem receivers_step {c : Conf δ} {m m' : Pm δ ξ} (mv : Move ξ) (h : step c m mv.op = .ok m') :
    receivers m'.trace = receivers m.trace := by
  cases mv with
  | change t x =>
    simp only [Move.op, step, change] at h
    split at h
    · obtain ⟨p, -, h⟩ := Res.bind_eq_ok.1 h
      obtain ⟨st, -, h⟩ := Res.bind_eq_ok.1 h
      cases h
      simp only [receivers_append, receivers_show, List.append_nil]
      simp [receivers]
    · cases h
      simp only [receivers_append, receivers_show, List.append_nil]
  | swap t x =>
    obtain ⟨p, -, h⟩ := Res.bind_eq_ok.1 h
    cases h
    simp only [receivers_append, receivers_show, List.append_nil]
    simp [receivers, leave]
  | rebase t x =>
    obtain ⟨p, -, h⟩ := Res.bind_eq_ok.1 h
    cases h
    simp only [receivers_append, receivers_show, receivers_clear, List.append_nil]
    simp [receivers, leave]
  | back =>
    obtain ⟨-, -, h⟩ := Res.bind_eq_ok.1 h
    cases hs : m.stack with
    | nil =>
      rw [hs] at h
      cases h
      rfl
    | cons q rest =>
      rw [hs] at h
      obtain ⟨p, -, h⟩ := Res.bind_eq_ok.1 h
      cases h
      simp only [receivers_append, receivers_updates, List.append_nil]
      simp [receivers, leave]
  | reset id =>
    obtain ⟨r, hr, h⟩ := Res.bind_eq_ok.1 h
    cases h
    obtain ⟨p, -, hr⟩ := Res.bind_eq_ok.1 hr
    cases hr
    rw [resetLoop_eq]
    cases m.stack.dropWhile (fun p => decide (p.tmpl.id ≠ id)) with
    | nil =>
      simp only [resetEnd, receivers_append, receivers_clear, List.append_nil]
      simp [receivers, leave]
    | cons q rest =>
      simp only [resetEnd, receivers_append, receivers_updates, receivers_clear, List.append_nil]
      simp [receivers, leave]

/-- A navigation with a page shown works unless there is no room. -/
theorem step_ok {c : Conf δ} (hd : c.ndebug = false) {m : Pm δ ξ} {p : Page δ ξ} (hi : m.init = true) (hc : m.cur = some p)
    (mv : Move ξ) (h : ∀ t x, mv = .change t x → m.stack.length ≠ c.depth) : ∃ m', step c m mv.op = .ok m' := by
  cases mv with
  | change t x =>
    simp only [Move.op, step, change, hi, if_true, current, hc, Res.ok_bind, pushAssert, hd, Bool.false_eq_true, if_false,
      if_neg (h t x rfl), Res.pure_eq]
    exact ⟨_, rfl⟩
  | swap t x => exact ⟨_, by simp only [Move.op, step, swap, current, hc, Res.ok_bind, Res.pure_eq]; rfl⟩
  | rebase t x => exact ⟨_, by simp only [Move.op, step, rebase, current, hc, Res.ok_bind, Res.pure_eq]; rfl⟩
  | back =>
    simp only [Move.op, step, back, Conf.assert, hd, Bool.false_eq_true, if_false, cassert, hi, if_true, Res.ok_bind]
    cases hs : m.stack with
    | nil => exact ⟨_, rfl⟩
    | cons q rest => simp only [current, hc, Res.ok_bind]; exact ⟨_, rfl⟩
  | reset id => exact ⟨_, by simp only [Move.op, step, reset, current, hc, Res.ok_bind, Res.pure_eq]; rfl⟩

theorem allProcess_step {c : Conf δ} {s : Nav δ ξ} (h : AllProcess s) (mv : Move ξ) (hm : ∀ t, mv.page = some t → t.process = true) :
    AllProcess (s.step c mv.op) := by
  intro q hq
  cases mv with
  | change t x =>
    simp only [Move.op, Nav.step, List.mem_cons] at hq
    rcases hq with rfl | hq
    · exact hm t rfl
    · exact h _ hq
  | swap t x =>
    simp only [Move.op, Nav.step, List.mem_cons] at hq
    rcases hq with rfl | hq
    · exact hm t rfl
    · exact h _ (List.mem_of_mem_tail hq)
  | rebase t x =>
    simp only [Move.op, Nav.step, List.mem_singleton] at hq
    subst hq
    exact hm t rfl
  | back =>
    simp only [Move.op, Nav.step] at hq
    split at hq
    · exact h _ hq
    · exact h _ (List.mem_of_mem_tail hq)
  | reset id => exact h _ (List.mem_of_mem_tail ((List.dropWhile_suffix _).subset hq))

theorem depth_step {c : Conf δ} {s : Nav δ ξ} (h : s.pages.length ≤ c.depth + 1) (hne : s.pages ≠ []) (mv : Move ξ)
    (hm : ∀ t x, mv = .change t x → s.pages.length ≤ c.depth) : (s.step c mv.op).pages.length ≤ c.depth + 1 := by
  have hpos : 0 < s.pages.length := List.length_pos_iff.2 hne
  cases mv with
  | change t x =>
    have := hm t x rfl
    simp only [Move.op, Nav.step, List.length_cons]
    omega
  | swap t x =>
    simp only [Move.op, Nav.step, List.length_cons, List.length_tail]
    omega
  | rebase t x => simp [Move.op, Nav.step]
  | back =>
    simp only [Move.op, Nav.step]
    split
    · exact h
    · rw [List.length_tail]
      omega
  | reset id =>
    simp only [Move.op, Nav.step]
    have := (List.dropWhile_suffix (fun p : Page δ ξ => decide (p.tmpl.id ≠ id)) (l := s.pages.tail)).length_le
    rw [List.length_tail] at this
    omega

/-- What holds between two events. -/
structure Between (c : Conf δ) (m : Pm δ ξ) (s : Nav δ ξ) : Prop where
  nav : nav m = s
  inv : ∃ f, Inv m f
  process : AllProcess s
  depth : s.pages.length ≤ c.depth + 1

/-- One event. -/
theorem handle_spec (c : Conf δ) (hd : c.ndebug = false) (ans : Answers δ ξ ε α)
    (ha : ∀ p e a a' mv t, ans p e a = (a', some mv) → mv.page = some t → t.process = true) {m : Pm δ ξ} {s : Nav δ ξ}
    (h : Between c m s) (a : α) (e : ε) :
    match appStep c ans s a e with
    | some (s', a', p) => ∃ m', handle c ans m a e = .ok (m', a') ∧ Between c m' s' ∧ receivers m'.trace = receivers m.trace ++ [p]
    | none => handle c ans m a e = .abort := by
  obtain ⟨f, hI⟩ := h.inv
  by_cases hi : m.init = true
  · obtain ⟨p, hc, -⟩ := hI.cur hi
    have hnav : s = ⟨p :: m.stack, m.next⟩ := by rw [← h.nav]; simp [Pages.nav, hi, hc]
    have hpp : p.tmpl.process = true := h.process p (by rw [hnav]; simp)
    have hproc : process c m = .ok { m with trace := m.trace ++ [⟨.process, p⟩] } := by
      simp [process, Conf.assert, hd, cassert, hi, current, hc, hpp]
    have hI₁ := inv_process hI hd hproc
    have hnav₁ : Pages.nav { m with trace := m.trace ++ [⟨.process, p⟩] } = s := by rw [hnav]; simp [Pages.nav, hi, hc]
    have hrec₁ : receivers (m.trace ++ [⟨Kind.process, p⟩]) = receivers m.trace ++ [p] := by
      rw [receivers_append]
      rfl
    have hcur₁ : current { m with trace := m.trace ++ [⟨.process, p⟩] } = .ok p := by simp [current, hc]
    have hgo : ∀ a' mv, ans p e a = (a', some mv) → (∀ t x, mv = .change t x → m.stack.length ≠ c.depth) →
        ∃ m', handle c ans m a e = .ok (m', a') ∧ Between c m' (s.step c mv.op) ∧ receivers m'.trace = receivers m.trace ++ [p] := by
      intro a' mv hans hroom
      obtain ⟨m', hm'⟩ := step_ok (m := { m with trace := m.trace ++ [⟨.process, p⟩] }) hd hi hc mv hroom
      obtain ⟨hn, f', hI'⟩ := nav_step hI₁ hd mv.op (fun _ => by rw [hnav₁, hnav]; simp) hm'
      refine ⟨m', ?_, ⟨by rw [hn, hnav₁], ⟨f', hI'⟩, allProcess_step h.process mv fun t ht => ha _ _ _ _ _ _ hans ht, ?_⟩, ?_⟩
      · simp only [handle, hproc, Res.ok_bind, hcur₁, hans, hm', Res.pure_eq]
      · refine depth_step h.depth (by rw [hnav]; simp) mv fun t x hmv => ?_
        have := hroom t x hmv
        have := h.depth
        rw [hnav] at this ⊢
        simp only [List.length_cons] at this ⊢
        omega
      · rw [receivers_step mv hm', hrec₁]
    rcases hans : ans p e a with ⟨a', _ | mv⟩
    · simp only [appStep, hnav, hans]
      refine ⟨{ m with trace := m.trace ++ [⟨.process, p⟩] }, ?_, ?_, hrec₁⟩
      · simp only [handle, hproc, Res.ok_bind, hcur₁, hans, Res.pure_eq]
      · rw [← hnav]
        exact ⟨hnav₁, ⟨f, hI₁⟩, h.process, h.depth⟩
    · have hgo := hgo a' mv hans
      cases mv with
      | change t x =>
        simp only [appStep, hnav, hans]
        by_cases hroom : m.stack.length < c.depth
        · simp only [if_pos hroom]
          have := hgo fun t x _ => by omega
          simpa only [hnav, Move.op, Nav.step] using this
        · simp only [if_neg hroom]
          have hle : m.stack.length = c.depth := by
            have := h.depth
            rw [hnav] at this
            simp only [List.length_cons] at this
            omega
          simp only [handle, hproc, Res.ok_bind, hcur₁, hans]
          simp only [Move.op, step, change, hi, if_true, current, hc, Res.ok_bind, pushAssert, hd, Bool.false_eq_true, if_false, hle,
            Res.abort_bind]
      | swap t x => simp only [appStep, hnav, hans]; rw [← hnav]; exact hgo fun _ _ h => nomatch h
      | rebase t x => simp only [appStep, hnav, hans]; rw [← hnav]; exact hgo fun _ _ h => nomatch h
      | back => simp only [appStep, hnav, hans]; rw [← hnav]; exact hgo fun _ _ h => nomatch h
      | reset id => simp only [appStep, hnav, hans]; rw [← hnav]; exact hgo fun _ _ h => nomatch h
  · have hi : m.init = false := by simpa using hi
    have hs : s.pages = [] := by rw [← h.nav]; simp [Pages.nav, hi]
    simp [appStep, hs, handle, process, Conf.assert, hd, cassert, hi]

theorem loop_spec (c : Conf δ) (hd : c.ndebug = false) (ans : Answers δ ξ ε α)
    (ha : ∀ p e a a' mv t, ans p e a = (a', some mv) → mv.page = some t → t.process = true) (es : List ε) : ∀ {m : Pm δ ξ} {s : Nav δ ξ}
    (_ : Between c m s) (a : α),
    match appRun c ans s a es with
    | some (s', a', ps) => ∃ m', loop c ans m a es = .ok (m', a') ∧ Between c m' s' ∧ receivers m'.trace = receivers m.trace ++ ps
    | none => loop c ans m a es = .abort := by
  induction es with
  | nil => intro m s h a; exact ⟨m, rfl, h, by simp⟩
  | cons e es ih =>
    intro m s h a
    have h1 := handle_spec c hd ans ha h a e
    simp only [appRun, loop]
    rcases hs : appStep c ans s a e with _ | ⟨s₁, a₁, p⟩
    · rw [hs] at h1
      simp only at h1 ⊢
      rw [h1, Res.abort_bind]
    · rw [hs] at h1
      obtain ⟨m₁, hm₁, hb, hr⟩ := h1
      have h2 := ih hb a₁
      simp only [hm₁, Res.ok_bind]
      rcases hs' : appRun c ans s₁ a₁ es with _ | ⟨s₂, a₂, ps⟩
      · rw [hs'] at h2
        exact h2
      · rw [hs'] at h2
        obtain ⟨m₂, hm₂, hb₂, hr₂⟩ := h2
        exact ⟨m₂, hm₂, hb₂, by rw [hr₂, hr, List.append_assoc]; rfl⟩

/-- **C218**: an application whose pages all have `process_event` behaves as the stack of pages: it stops with a failed assertion
exactly if an event comes when the last `pman_reset_to_page` has found no page, or a page is to be shown on a full stack, and is never
undefined; otherwise every event has been given to the page that was on top, the pages are those of the stack, and no callback of a page
has been called out of turn: each is created, opened and closed alternately, given events only while open, and destroyed once. -/
theorem C218_app [Inhabited ξ] (c : Conf δ) (hd : c.ndebug = false) (ans : Answers δ ξ ε α)
    (ha : ∀ p e a a' mv t, ans p e a = (a', some mv) → mv.page = some t → t.process = true) (cur : Option (Page δ ξ)) (first : Tmpl)
    (hf : first.process = true) (x : ξ) (a : α) (es : List ε) :
    match appRun c ans ⟨[fresh c first x 0], 1⟩ a es with
    | some (s, a', ps) => ∃ m, app c ans cur first x a es = .ok (m, a') ∧ nav m = s ∧ receivers m.trace = ps ∧
        (∀ i, life i .unborn m.trace ≠ .wrong) ∧
        (∀ i, life i .unborn m.trace = .opened ↔ ∃ p, s.pages.head? = some p ∧ p.inst = i) ∧
        (∀ i, life i .unborn m.trace = .closed ↔ ∃ p ∈ s.pages.tail, p.inst = i)
    | none => app c ans cur first x a es = .abort := by
  have hinst : c.install first x 0 = fresh c first x 0 := by
    cases ht : first.create <;> simp [Conf.install, fresh, Tmpl.has, ht]
  have hchange : change c (init cur) first x =
      .ok ⟨true, some (fresh c first x 0), [], 1, c.show (fresh c first x 0)⟩ := by
    simp [change, init, hinst]
  obtain ⟨f₀, hI₀⟩ := inv_init c cur
  have hb : Between c ⟨true, some (fresh c first x 0), [], 1, c.show (fresh c first x 0)⟩ ⟨[fresh c first x 0], 1⟩ :=
    ⟨by simp [nav], inv_change hI₀ hd hchange, fun p hp => by rw [List.mem_singleton.1 hp]; exact hf, by simp⟩
  have h := loop_spec c hd ans ha es hb a
  simp only [app, hchange, Res.ok_bind]
  rcases hr : appRun c ans ⟨[fresh c first x 0], 1⟩ a es with _ | ⟨s, a', ps⟩
  · rw [hr] at h
    exact h
  · rw [hr] at h
    obtain ⟨m, hm, hbm, hrm⟩ := h
    obtain ⟨f, hI⟩ := hbm.inv
    obtain ⟨h1, h2, h3, -⟩ := life_inv hI
    rw [hbm.nav] at h2 h3
    exact ⟨m, hm, hbm.nav, by rw [hrm, receivers_show, List.nil_append], h1, h2, h3⟩

/-! ## Example: a menu, its settings and a warning -/

/-- Events: 0 goes back, 1 opens the settings, 2 replaces the page by a warning, 3 returns to the menu, 4 asks for a page that does not
exist. The model counts the events. -/
def exAns : Answers Nat Unit Nat Nat := fun _ e a => (a + 1, match e with
  | 0 => some .back
  | 1 => some (.change (exT 2) ())
  | 2 => some (.swap (exT 3) ())
  | 3 => some (.reset 1)
  | 4 => some (.reset 9)
  | _ => none)

/-- The pages, the model and the ids of the pages that have got events. -/
def exApp (es : List Nat) : Res (List Int × Nat × List Int) := do
  let r ← app exC exAns none (exT 1) () 0 es
  pure ((nav r.1).pages.map (·.tmpl.id), r.2, (receivers r.1.trace).map (·.tmpl.id))

example : exApp [1, 2, 7, 0, 1] = .ok ([2, 1], 5, [1, 2, 3, 3, 1]) ∧ exApp [1, 1, 3] = .ok ([1], 3, [1, 2, 2]) := by
  constructor <;> rfl

/-- No page is left for the event after a reset that has found none. -/
example : exApp [1, 4] = .ok ([], 2, [1, 2]) ∧ exApp [1, 4, 7] = .abort := by
  constructor <;> rfl

end Gel.Pages
