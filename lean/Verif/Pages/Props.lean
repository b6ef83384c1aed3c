import Verif.Pages.Lemmas

/-!
# Page manager: theorems (C68-C73)
-/
namespace Gel.Pages
open Spec

/-- The pages of a manager, the current one first. -/
def nav (m : Pm δ ξ) : Nav δ ξ := ⟨if m.init then m.cur.toList ++ m.stack else [], m.next⟩

theorem nav_step {c : Conf δ} {m m' : Pm δ ξ} {f} (hI : Inv m f) (hd : c.ndebug = false) (o : Op ξ)
    (hu : replaces o = true → (nav m).pages ≠ []) (h : step c m o = .ok m') :
    nav m' = (nav m).step c o ∧ ∃ f', Inv m' f' := by
  have hinst : ∀ (t : Tmpl) (x : ξ), c.install t x m.next = fresh c t x m.next := by
    intro t x
    cases ht : t.create <;> simp [Conf.install, fresh, Tmpl.has, ht]
  by_cases hi : m.init = true
  · obtain ⟨p, hc, -⟩ := hI.cur hi
    have hnav : nav m = ⟨p :: m.stack, m.next⟩ := by simp [nav, hi, hc]
    rw [hnav]
    cases o with
    | change t x =>
      refine ⟨?_, inv_change hI hd h⟩
      simp only [step, change, hi, if_true, current, hc, Res.ok_bind, pushAssert, hd, Bool.false_eq_true, if_false] at h
      by_cases hfull : m.stack.length = c.depth
      · simp [hfull] at h
      · simp only [if_neg hfull, Res.ok_bind, Res.pure_eq, Res.ok.injEq] at h
        subst h
        simp [nav, Nav.step, hinst]
    | swap t x =>
      refine ⟨?_, inv_swap hI hi h⟩
      simp only [step, swap, current, hc, Res.ok_bind, Res.pure_eq, Res.ok.injEq] at h
      subst h
      simp [nav, Nav.step, hinst, hi]
    | rebase t x =>
      refine ⟨?_, inv_rebase hI hi h⟩
      simp only [step, rebase, current, hc, Res.ok_bind, Res.pure_eq, Res.ok.injEq] at h
      subst h
      simp [nav, Nav.step, hinst, hi]
    | back =>
      refine ⟨?_, f, inv_back hI h⟩
      simp only [step, back, Conf.assert, hd, Bool.false_eq_true, if_false, cassert, hi, if_true, Res.ok_bind] at h
      cases hs : m.stack with
      | nil =>
        simp only [hs, Res.pure_eq, Res.ok.injEq] at h
        subst h
        simp [hnav, Nav.step, hs]
      | cons q rest =>
        simp only [hs, current, hc, Res.ok_bind, Res.pure_eq, Res.ok.injEq] at h
        subst h
        simp [nav, Nav.step, hi]
    | reset id =>
      obtain ⟨r, hr, h⟩ := Res.bind_eq_ok.1 h
      cases h
      refine ⟨?_, f, inv_reset hI hi hr⟩
      simp only [reset, current, hc, Res.ok_bind, Res.pure_eq, Res.ok.injEq, resetLoop_eq] at hr
      simp only [Nav.step, List.tail_cons]
      revert hr
      generalize m.stack.dropWhile (fun p => decide (p.tmpl.id ≠ id)) = below
      intro hr
      cases below with
      | nil =>
        simp only [resetEnd] at hr
        subst hr
        simp [nav]
      | cons q rest =>
        simp only [resetEnd] at hr
        subst hr
        simp [nav]
    | update =>
      refine ⟨?_, f, inv_update hI hd h⟩
      simp only [step, update, Conf.assert, hd, Bool.false_eq_true, if_false, cassert, hi, if_true, Res.ok_bind] at h
      by_cases hu : c.upd = true
      · simp only [hu, if_true, current, hc, Res.ok_bind, Res.pure_eq, Res.ok.injEq] at h
        subst h
        simp [nav, Nav.step, hi]
      · simp only [hu, Bool.false_eq_true, if_false, Res.pure_eq, Res.ok.injEq] at h
        subst h
        simp [hnav, Nav.step]
    | process =>
      refine ⟨?_, f, inv_process hI hd h⟩
      simp only [step, process, Conf.assert, hd, Bool.false_eq_true, if_false, cassert, hi, if_true, Res.ok_bind, current,
        hc] at h
      by_cases hp : p.tmpl.process = true
      · simp only [hp, if_true, Res.pure_eq, Res.ok.injEq] at h
        subst h
        simp [nav, Nav.step, hi]
      · simp [hp] at h
  · have hi' : m.init = false := by simpa using hi
    have hnav : nav m = ⟨[], m.next⟩ := by simp [nav, hi']
    rw [hnav] at hu ⊢
    cases o with
    | change t x =>
      refine ⟨?_, inv_change hI hd h⟩
      simp only [step, change, hi', Bool.false_eq_true, if_false, Res.pure_eq, Res.ok.injEq] at h
      subst h
      simp [nav, Nav.step, hinst, hI.none hi']
    | swap t x => exact absurd rfl (hu rfl)
    | rebase t x => exact absurd rfl (hu rfl)
    | reset id => exact absurd rfl (hu rfl)
    | back => simp [step, back, Conf.assert, hd, cassert, hi'] at h
    | update => simp [step, update, Conf.assert, hd, cassert, hi'] at h
    | process => simp [step, process, Conf.assert, hd, cassert, hi'] at h

theorem nav_run {c : Conf δ} (hd : c.ndebug = false) (os : List (Op ξ)) {m m' : Pm δ ξ} {f} (hI : Inv m f)
    (hu : Usable c (nav m) os) (h : run c m os = .ok m') :
    nav m' = os.foldl (Nav.step c) (nav m) ∧ ∃ f', Inv m' f' := by
  induction os generalizing m f with
  | nil =>
    simp only [run, Res.ok.injEq] at h
    subst h
    exact ⟨rfl, f, hI⟩
  | cons o os ih =>
    obtain ⟨m₁, h₁, h⟩ := Res.bind_eq_ok.1 h
    obtain ⟨hn, f₁, hI₁⟩ := nav_step hI hd o hu.1 h₁
    rw [List.foldl_cons, ← hn]
    exact ih hI₁ (by rw [hn]; exact hu.2) h

theorem inv_init [Inhabited ξ] (c : Conf δ) (cur : Option (Page δ ξ)) : ∃ f, Inv (init cur) f :=
  ⟨fun _ => ⟨⟨0, false, false, false, false, false, false⟩, 0, c.null, default⟩,
    ⟨fun h => by simp [init] at h, fun _ => rfl, by simp [init], by simp [init],
      fun i => by simp [init, life, expected], by simp [init]⟩⟩

/-! ## C68 -/

/-- Changing the page and going back: the second page is closed and destroyed, the first is current again, with its own
data, and opened. -/
theorem C68_back (c : Conf δ) (m : Pm δ ξ) (a : Page δ ξ) (t : Tmpl) (x : ξ) (hd : c.ndebug = false)
    (hi : m.init = true) (hc : m.cur = some a) (hs : m.stack.length < c.depth) :
    ∃ m₁ m₂, change c m t x = .ok m₁ ∧ m₁.cur = some (fresh c t x m.next) ∧ back c m₁ = .ok m₂ ∧
      m₂.init = true ∧ m₂.cur = some a ∧ m₂.stack = m.stack ∧
      m₂.trace = m₁.trace ++ [⟨.close, fresh c t x m.next⟩, ⟨.destroy, fresh c t x m.next⟩, ⟨.open, a⟩] ++ c.updates a := by
  have hinst : c.install t x m.next = fresh c t x m.next := by
    cases ht : t.create <;> simp [Conf.install, fresh, Tmpl.has, ht]
  have h1 : change c m t x = .ok
      { m with cur := some (fresh c t x m.next), stack := a :: m.stack, next := m.next + 1,
               trace := m.trace ++ [⟨.close, a⟩] ++ c.show (fresh c t x m.next) } := by
    simp only [change, hi, if_true, current, hc, Res.ok_bind, pushAssert, hd, Bool.false_eq_true, if_false,
      if_neg (show ¬ m.stack.length = c.depth by omega), Res.pure_eq, hinst]
  refine ⟨_, { m with cur := some a, next := m.next + 1,
                      trace := m.trace ++ [⟨.close, a⟩] ++ c.show (fresh c t x m.next) ++ leave (fresh c t x m.next) ++
                        [⟨.open, a⟩] ++ c.updates a }, h1, rfl, ?_, hi, rfl, rfl, ?_⟩
  · simp only [back, Conf.assert, hd, Bool.false_eq_true, if_false, cassert, hi, if_true, Res.ok_bind, current, Res.pure_eq]
  · simp [leave]

/-- Going back from the bottom page does nothing. -/
theorem C68_bottom (c : Conf δ) (m : Pm δ ξ) (hi : m.init = true) (hs : m.stack = []) : back c m = .ok m := by
  cases hd : c.ndebug <;> simp [back, Conf.assert, cassert, hi, hs, hd]

/-- In every history in which swap, rebase and reset are not called without a page, the pages of the manager are those of
the stack discipline. -/
theorem C68_stack_partial [Inhabited ξ] (c : Conf δ) (hd : c.ndebug = false) (cur : Option (Page δ ξ)) (os : List (Op ξ))
    (hu : Usable c ⟨[], 0⟩ os) (h : run c (init cur) os = .ok m) :
    nav m = os.foldl (Nav.step c) ⟨[], 0⟩ := by
  obtain ⟨f, hI⟩ := inv_init c cur
  exact (nav_run hd os hI hu h).1

/-! ## C69 -/

/-- The lives of the pages in a state of such a history. -/
theorem life_inv {m : Pm δ ξ} {f : Nat → Page δ ξ} (hI : Inv m f) :
    (∀ i, life i .unborn m.trace ≠ .wrong) ∧
    (∀ i, life i .unborn m.trace = .opened ↔ ∃ p, (nav m).pages.head? = some p ∧ p.inst = i) ∧
    (∀ i, life i .unborn m.trace = .closed ↔ ∃ p ∈ (nav m).pages.tail, p.inst = i) ∧
    (∀ i, life i .unborn m.trace = .unborn ↔ m.next ≤ i) ∧
    ((nav m).pages.map (·.inst)).Nodup ∧
    (∀ e ∈ m.trace, ∀ e' ∈ m.trace, e.page.inst = e'.page.inst → e.page = e'.page) ∧
    (∀ p ∈ (nav m).pages, ∀ e ∈ m.trace, e.page.inst = p.inst → e.page = p) := by
  have hf : ∀ p ∈ (nav m).pages, p = f p.inst := by
    intro p hp
    by_cases hi : m.init = true
    · obtain ⟨q, hc, -, -, hq⟩ := hI.cur hi
      simp only [nav, hi, if_true, hc, Option.toList_some, List.cons_append, List.nil_append, List.mem_cons] at hp
      rcases hp with rfl | hp
      · exact hq
      · exact (hI.lt p hp).2
    · simp [nav, hi] at hp
  refine ⟨?_, ?_, ?_, ?_, ?_, ?_, ?_⟩
  · intro i
    rw [hI.life, expected]
    split_ifs <;> simp
  · intro i
    rw [hI.life, expected]
    by_cases hi : m.init = true
    · obtain ⟨q, hc, -⟩ := hI.cur hi
      simp only [nav, hi, hc]
      by_cases hq : q.inst = i
      · simp [hq]
      · simp only [true_and, Option.some.injEq, exists_eq_left', hq, if_false, if_true, Option.toList_some, List.cons_append,
          List.head?_cons, iff_false]
        split_ifs <;> simp
    · simp only [nav, hi, Bool.false_eq_true, false_and, if_false, List.head?_nil]
      constructor
      · intro h
        split_ifs at h
      · rintro ⟨p, h, -⟩
        cases h
  · intro i
    rw [hI.life, expected]
    by_cases hi : m.init = true
    · obtain ⟨q, hc, -, hns, -⟩ := hI.cur hi
      simp only [nav, hi, hc, true_and, Option.some.injEq, exists_eq_left', if_true, Option.toList_some, List.cons_append,
        List.nil_append, List.tail_cons]
      by_cases hq : q.inst = i
      · subst hq
        simpa using hns
      · rw [if_neg hq]
        by_cases hm : i ∈ m.stack.map (·.inst)
        · rw [if_pos hm]
          simpa using hm
        · rw [if_neg hm]
          constructor
          · intro h
            split_ifs at h
          · rintro ⟨p, hp, rfl⟩
            exact absurd (List.mem_map.2 ⟨p, hp, rfl⟩) hm
    · have hs := hI.none (by simpa using hi)
      simp only [nav, hi, hs, Bool.false_eq_true, false_and, if_false, List.map_nil, List.not_mem_nil, List.tail_nil]
      constructor
      · intro h
        split_ifs at h
      · rintro ⟨p, h, -⟩
  · intro i
    rw [hI.life, expected]
    have hlt : ∀ j ∈ m.stack.map (·.inst), j < m.next := by
      intro j hj
      obtain ⟨p, hp, rfl⟩ := List.mem_map.1 hj
      exact (hI.lt p hp).1
    by_cases hi : m.init = true ∧ ∃ p, m.cur = some p ∧ p.inst = i
    · rw [if_pos hi]
      obtain ⟨hi, p, hc, rfl⟩ := hi
      obtain ⟨q, hc', hq, -⟩ := hI.cur hi
      rw [hc] at hc'
      cases hc'
      constructor
      · intro h
        cases h
      · intro h
        omega
    · rw [if_neg hi]
      by_cases hm : i ∈ m.stack.map (·.inst)
      · rw [if_pos hm]
        have := hlt i hm
        constructor
        · intro h
          cases h
        · intro h
          omega
      · rw [if_neg hm]
        by_cases hn : i < m.next
        · rw [if_pos hn]
          constructor
          · intro h
            cases h
          · intro h
            omega
        · rw [if_neg hn]
          constructor
          · intro
            omega
          · intro
            rfl
  · by_cases hi : m.init = true
    · obtain ⟨q, hc, -, hns, -⟩ := hI.cur hi
      simp only [nav, hi, hc, if_true, Option.toList_some, List.cons_append, List.nil_append, List.map_cons, List.nodup_cons]
      exact ⟨hns, hI.nodup⟩
    · simp [nav, hi]
  · intro e he e' he' heq
    rw [(hI.evs e he).2, (hI.evs e' he').2, heq]
  · intro p hp e he heq
    rw [(hI.evs e he).2, hf p hp, heq]

/-- In such histories every page lives as it should, and the pages that have been created and not destroyed are the
current one, which is open, and those on the stack, which are closed. All calls for a page get the same data. -/
theorem C69_life_partial [Inhabited ξ] (c : Conf δ) (hd : c.ndebug = false) (cur : Option (Page δ ξ)) (os : List (Op ξ))
    (hu : Usable c ⟨[], 0⟩ os) (h : run c (init cur) os = .ok m) :
    (∀ i, life i .unborn m.trace ≠ .wrong) ∧
    (∀ i, life i .unborn m.trace = .opened ↔ ∃ p, (nav m).pages.head? = some p ∧ p.inst = i) ∧
    (∀ i, life i .unborn m.trace = .closed ↔ ∃ p ∈ (nav m).pages.tail, p.inst = i) ∧
    (∀ i, life i .unborn m.trace = .unborn ↔ m.next ≤ i) ∧
    ((nav m).pages.map (·.inst)).Nodup ∧
    (∀ e ∈ m.trace, ∀ e' ∈ m.trace, e.page.inst = e'.page.inst → e.page = e'.page) ∧
    (∀ p ∈ (nav m).pages, ∀ e ∈ m.trace, e.page.inst = p.inst → e.page = p) := by
  obtain ⟨f, hI⟩ := inv_init c cur
  obtain ⟨-, f, hI⟩ := nav_run hd os hI hu h
  exact life_inv hI

/-! ## C70 -/

/-- A page with no callbacks and no data: `current_page` of a manager in zeroed memory. -/
def zero (null : δ) (noExtra : ξ) (i : Nat) : Page δ ξ := ⟨⟨0, false, false, false, false, false, false⟩, i, null, noExtra⟩

/-- The calls that are really made: of callbacks that are not null. -/
def calls (m : Pm δ ξ) : List (Ev δ ξ) := m.trace.filter fun e => e.page.tmpl.has e.kind

/-- If the manager's memory was not zeroed, `pman_init` followed by a swap or rebase uses an indeterminate page. -/
theorem C70_fresh_wrong (c : Conf δ) (t : Tmpl) (x : ξ) (id : Int) :
    swap c (init none) t x = .ub ∧ rebase c (init none) t x = .ub ∧ reset c (init (none : Option (Page δ ξ))) id = .ub :=
  ⟨rfl, rfl, rfl⟩

/-- If it was zeroed, the page is created and opened, with nothing else called (given a page with these callbacks and
no update). -/
theorem C70_shown_partial (c : Conf δ) (t : Tmpl) (x y : ξ) (i : Nat) (hc : t.create = true) (ho : t.open = true)
    (hup : c.upd = false) :
    (∃ m, swap c (init (some (zero c.null y i))) t x = .ok m ∧ m.cur = some (fresh c t x 0) ∧
      calls m = [⟨.create, fresh c t x 0⟩, ⟨.open, fresh c t x 0⟩]) ∧
    ∃ m, rebase c (init (some (zero c.null y i))) t x = .ok m ∧ m.cur = some (fresh c t x 0) ∧
      calls m = [⟨.create, fresh c t x 0⟩, ⟨.open, fresh c t x 0⟩] := by
  have hinst : c.install t x 0 = fresh c t x 0 := by simp [Conf.install, fresh, Tmpl.has, hc]
  constructor
  · refine ⟨_, rfl, congrArg some hinst, ?_⟩
    simp only [calls, init, hinst, Conf.show, Conf.updates, hup, leave]
    have h1 : (fresh c t x 0).tmpl.create = true := hc
    have h2 : (fresh c t x 0).tmpl.open = true := ho
    simp [zero, Tmpl.has, h1, h2]
  · refine ⟨_, rfl, congrArg some hinst, ?_⟩
    simp only [calls, init, hinst, Conf.show, Conf.updates, hup, leave, clearStack]
    have h1 : (fresh c t x 0).tmpl.create = true := hc
    have h2 : (fresh c t x 0).tmpl.open = true := ho
    simp [zero, Tmpl.has, h1, h2]

/-- But the manager does not count as initialized afterwards: going back, updates and events fail an assertion, and a
change to another page neither closes the page nor keeps it on the stack. -/
theorem C70_zeroed_wrong (c : Conf δ) (hd : c.ndebug = false) (t t' : Tmpl) (x x' y : ξ) (i : Nat) :
    ∃ m, rebase c (init (some (zero c.null y i))) t x = .ok m ∧
      back c m = .abort ∧ update c m = .abort ∧ process c m = .abort ∧
      ∃ m', change c m t' x' = .ok m' ∧ m'.stack = [] ∧ m'.cur = some (fresh c t' x' 1) ∧
        ⟨.close, c.install t x 0⟩ ∉ m'.trace.drop m.trace.length := by
  have hinst : c.install t' x' 1 = fresh c t' x' 1 := by
    cases ht : t'.create <;> simp [Conf.install, fresh, Tmpl.has, ht]
  refine ⟨_, rfl, ?_, ?_, ?_, _, rfl, rfl, congrArg some hinst, ?_⟩
  · simp [back, Conf.assert, hd, cassert, init]
  · simp [update, Conf.assert, hd, cassert, init]
  · simp [process, Conf.assert, hd, cassert, init]
  · simp only [init, List.drop_left']
    intro h
    have := mem_show h
    simp [Conf.install] at this

/-! ## C71 -/

/-- After a failed reset every page that was created is destroyed, once, and there is no page left; a following
`change_page` is covered by `C69_life_partial`. -/
theorem C71_failed_partial [Inhabited ξ] {id : Int} (c : Conf δ) (hd : c.ndebug = false) (cur : Option (Page δ ξ)) (os : List (Op ξ))
    (hu : Usable c ⟨[], 0⟩ os) (h : run c (init cur) os = .ok m) (hi : m.init = true)
    (hr : reset c m id = .ok (m', false)) :
    m'.init = false ∧ m'.stack = [] ∧ (∀ i, i < m'.next → life i .unborn m'.trace = .dead) ∧
      ∀ t x, ∃ m'', change c m' t x = .ok m'' ∧ (∀ i, life i .unborn m''.trace ≠ .wrong) := by
  obtain ⟨f, hI⟩ := inv_init c cur
  obtain ⟨-, f, hI⟩ := nav_run hd os hI hu h
  have hI' := inv_reset hI hi hr
  obtain ⟨p, hc, -⟩ := hI.cur hi
  have hend : m'.init = false ∧ m'.stack = [] := by
    simp only [reset, current, hc, Res.ok_bind, Res.pure_eq, Res.ok.injEq] at hr
    generalize resetLoop id m.stack = l at hr
    obtain ⟨evs, _ | ⟨q, rest⟩⟩ := l
    · simp only [resetEnd, Prod.mk.injEq] at hr
      obtain ⟨rfl, -⟩ := hr
      exact ⟨rfl, rfl⟩
    · simp [resetEnd] at hr
  refine ⟨hend.1, hend.2, ?_, ?_⟩
  · intro i hlt
    rw [hI'.life, expected_none hend.1 hend.2, if_pos hlt]
  · intro t x
    have hch : ∃ m'', change c m' t x = .ok m'' := by
      simp [change, hend.1]
    obtain ⟨m'', hm⟩ := hch
    obtain ⟨f'', hI''⟩ := inv_change hI' hd hm
    refine ⟨m'', hm, ?_⟩
    intro i
    rw [hI''.life, expected]
    split_ifs <;> simp

/-- A swap, rebase or reset after a failed reset closes and destroys the destroyed page again. -/
theorem C71_again_wrong [Inhabited ξ] {id : Int} (c : Conf δ) (hd : c.ndebug = false) (cur : Option (Page δ ξ)) (os : List (Op ξ))
    (hu : Usable c ⟨[], 0⟩ os) (h : run c (init cur) os = .ok m) (hi : m.init = true)
    (hr : reset c m id = .ok (m', false)) (o : Op ξ) (ho : replaces o = true) :
    ∃ p m'', m.cur = some p ∧ step c m' o = .ok m'' ∧ life p.inst .unborn m'.trace = .dead ∧
      life p.inst .unborn m''.trace = .wrong ∧ (⟨.close, p⟩ : Ev δ ξ) ∈ m''.trace.drop m'.trace.length := by
  obtain ⟨f, hI⟩ := inv_init c cur
  obtain ⟨-, f, hI⟩ := nav_run hd os hI hu h
  have hI' := inv_reset hI hi hr
  obtain ⟨p, hc, hlt, -⟩ := hI.cur hi
  have hend : m'.init = false ∧ m'.stack = [] ∧ m'.cur = some p ∧ m'.next = m.next := by
    simp only [reset, current, hc, Res.ok_bind, Res.pure_eq, Res.ok.injEq] at hr
    generalize resetLoop id m.stack = l at hr
    obtain ⟨evs, _ | ⟨q, rest⟩⟩ := l
    · simp only [resetEnd, Prod.mk.injEq] at hr
      obtain ⟨rfl, -⟩ := hr
      exact ⟨rfl, rfl, hc, rfl⟩
    · simp [resetEnd] at hr
  obtain ⟨h1, h2, h3, h4⟩ := hend
  have hdead : life p.inst .unborn m'.trace = .dead := by
    rw [hI'.life, expected_none h1 h2, h4, if_pos hlt]
  have hstuck : ∀ (l : List (Ev δ ξ)) (i : Nat), life i .wrong l = .wrong := by
    intro l i
    induction l with
    | nil => rfl
    | cons e es ih =>
      simp only [life]
      split <;> exact ih
  have hleave : ∀ l, life p.inst .unborn (m'.trace ++ leave p ++ l) = .wrong := by
    intro l
    rw [life_append, life_append, hdead]
    have : life p.inst .dead (leave p) = .wrong := by simp [leave, life, Life.next]
    rw [this, hstuck]
  have hmem : ∀ l, (⟨.close, p⟩ : Ev δ ξ) ∈ (m'.trace ++ (leave p ++ l)).drop m'.trace.length := by
    intro l
    rw [List.drop_left']
    · simp [leave]
    · rfl
  have hgen : ∀ l (m'' : Pm δ ξ), m''.trace = m'.trace ++ (leave p ++ l) → life p.inst .unborn m''.trace = .wrong ∧
      (⟨.close, p⟩ : Ev δ ξ) ∈ m''.trace.drop m'.trace.length := by
    intro l m'' hm
    rw [hm]
    exact ⟨by rw [← List.append_assoc]; exact hleave l, hmem l⟩
  refine ⟨p, ?_⟩
  cases o with
  | swap t x =>
    refine ⟨_, hc, ?_, hdead, hgen (c.show (c.install t x m'.next))
      { m' with cur := some (c.install t x m'.next), next := m'.next + 1,
                trace := m'.trace ++ leave p ++ c.show (c.install t x m'.next) } (by simp)⟩
    simp only [step, swap, current, h3, Res.ok_bind, Res.pure_eq]
  | rebase t x =>
    refine ⟨_, hc, ?_, hdead, hgen (c.show (c.install t x m'.next))
      { m' with cur := some (c.install t x m'.next), next := m'.next + 1,
                trace := m'.trace ++ leave p ++ c.show (c.install t x m'.next) } (by simp)⟩
    simp only [step, rebase, current, h3, Res.ok_bind, Res.pure_eq, h2]
    simp [clearStack]
  | reset id' =>
    refine ⟨_, hc, ?_, hdead, hgen []
      { m' with init := false, stack := [], trace := m'.trace ++ leave p } (by simp)⟩
    simp only [step, reset, current, h3, Res.ok_bind, Res.pure_eq, h2, resetLoop, resetEnd]
    simp
  | _ => cases ho

/-! ## C72 -/

/-- `pman_reset_to_page` on a manager with a page, found: the current page is closed and destroyed, the pages above the
topmost one with the id are destroyed, that page is opened. -/
theorem C72_found (c : Conf δ) (m : Pm δ ξ) (p q : Page δ ξ) (id : Int) (above rest : List (Page δ ξ)) (hc : m.cur = some p)
    (hs : m.stack = above ++ q :: rest) (hq : q.tmpl.id = id) (ha : ∀ r ∈ above, r.tmpl.id ≠ id) :
    reset c m id = .ok ({ m with init := true, cur := some q, stack := rest,
                                 trace := m.trace ++ [⟨.close, p⟩, ⟨.destroy, p⟩] ++ above.map (⟨.destroy, ·⟩) ++
                                   [⟨.open, q⟩] ++ c.updates q }, true) := by
  have hall : ∀ r ∈ above, (fun p : Page δ ξ => decide (p.tmpl.id ≠ id)) r = true := by
    intro r hr
    simpa using ha r hr
  simp only [reset, current, hc, Res.ok_bind, resetLoop_eq, hs, List.takeWhile_append_of_pos hall,
    List.dropWhile_append_of_pos hall]
  simp [hq, resetEnd, leave, clearStack]

/-- Not found: everything is destroyed and there is no page. -/
theorem C72_not_found (c : Conf δ) (m : Pm δ ξ) (p : Page δ ξ) (id : Int) (hc : m.cur = some p)
    (ha : ∀ r ∈ m.stack, r.tmpl.id ≠ id) :
    ∃ m', reset c m id = .ok (m', false) ∧ m'.init = false ∧ m'.stack = [] ∧
      m'.trace = m.trace ++ [⟨.close, p⟩, ⟨.destroy, p⟩] ++ m.stack.map (⟨.destroy, ·⟩) := by
  have hall : ∀ r ∈ m.stack, (fun p : Page δ ξ => decide (p.tmpl.id ≠ id)) r = true := by
    intro r hr
    simpa using ha r hr
  refine ⟨{ m with init := false, stack := [], trace := m.trace ++ leave p ++ clearStack m.stack }, ?_, rfl, rfl, rfl⟩
  have h1 := List.takeWhile_append_of_pos (l₂ := []) hall
  have h2 := List.dropWhile_append_of_pos (l₂ := []) hall
  simp only [List.append_nil, List.takeWhile_nil, List.dropWhile_nil] at h1 h2
  simp only [reset, current, hc, Res.ok_bind, resetLoop_eq, h1, h2]
  simp [resetEnd, hc]

/-! ## C73 -/

/-- What does not depend on the assertions: all steps but a change from a page to another one. -/
theorem C73_ndebug_partial (c : Conf δ) (m m' : Pm δ ξ) (o : Op ξ) (h : step { c with ndebug := false } m o = .ok m')
    (ho : m.init = true → ∀ t x, o ≠ .change t x) : step { c with ndebug := true } m o = .ok m' := by
  have hassert : ∀ b, Conf.assert { c with ndebug := true } b = .ok () := fun b => rfl
  cases o with
  | change t x =>
    have hi : m.init = false := by
      cases hi : m.init
      · rfl
      · exact absurd rfl (ho hi t x)
    simp only [step, change, hi, Bool.false_eq_true, if_false] at h ⊢
    exact h
  | swap t x => exact h
  | rebase t x => exact h
  | reset id => exact h
  | back =>
    obtain ⟨_, -, h⟩ := Res.bind_eq_ok.1 h
    simp only [step, back, hassert, Res.ok_bind]
    exact h
  | update =>
    obtain ⟨_, -, h⟩ := Res.bind_eq_ok.1 h
    simp only [step, update, hassert, Res.ok_bind]
    exact h
  | process =>
    obtain ⟨_, -, h⟩ := Res.bind_eq_ok.1 h
    simp only [step, process, hassert, Res.ok_bind]
    exact h

/-- With `NDEBUG` a change of the page does not push the page that is left: going back does nothing at all, and the page
is never opened or destroyed again. -/
theorem C73_push_wrong (c : Conf δ) (m : Pm δ ξ) (a : Page δ ξ) (t : Tmpl) (x : ξ) (hd : c.ndebug = true)
    (hi : m.init = true) (hc : m.cur = some a) (hs : m.stack = []) :
    ∃ m', change c m t x = .ok m' ∧ m'.stack = [] ∧ m'.cur = some (fresh c t x m.next) ∧ back c m' = .ok m' := by
  have hinst : c.install t x m.next = fresh c t x m.next := by
    cases ht : t.create <;> simp [Conf.install, fresh, Tmpl.has, ht]
  refine ⟨{ m with cur := some (fresh c t x m.next), next := m.next + 1,
                   trace := m.trace ++ [⟨.close, a⟩] ++ c.show (fresh c t x m.next) }, ?_, hs, rfl, ?_⟩
  · simp only [change, hi, if_true, current, hc, Res.ok_bind, pushAssert, hd, Res.pure_eq, hinst]
  · simp [back, Conf.assert, hd, hs]

/-! ## Examples -/

def exC : Conf Nat := ⟨50, true, false, 0, fun i => i + 100⟩
def exT (id : Int) : Tmpl := ⟨id, true, true, true, true, true, true⟩
def exNav (r : Res (Pm Nat Unit)) : Option (List (Int × Nat)) :=
  match r with
  | .ok m => some ((nav m).pages.map fun p => (p.tmpl.id, p.data))
  | _ => none

example : exNav (run exC (init none) [.change (exT 1) (), .change (exT 2) (), .back]) = some [(1, 100)] := by decide
example : exNav (run exC (init none) [.change (exT 1) (), .change (exT 2) (), .change (exT 3) (), .swap (exT 4) ()])
    = some [(4, 103), (2, 101), (1, 100)] := by decide
example : exNav (run exC (init none) [.change (exT 1) (), .change (exT 2) (), .change (exT 3) (), .reset 1])
    = some [(1, 100)] := by decide
example : exNav (run exC (init none) [.change (exT 1) (), .change (exT 2) (), .reset 7, .change (exT 3) ()])
    = some [(3, 102)] := by decide
example : exNav (run exC (init none) [.change (exT 1) (), .change (exT 2) (), .rebase (exT 5) (), .back])
    = some [(5, 102)] := by decide
/-- The histories of the theorems. -/
example : Usable exC ⟨[], 0⟩ [.change (exT 1) (), .change (exT 2) (), .reset 7, .change (exT 3) (), .swap (exT 1) ()] := by
  simp [Usable, Nav.step, replaces, exT]
/-- C71: the page 2 (number 1) is closed and destroyed twice. -/
example : exNav (run exC (init none) [.change (exT 1) (), .change (exT 2) (), .reset 7, .swap (exT 3) ()]) = some [] := by
  decide
example : (match run exC (init (none : Option (Page Nat Unit))) [.change (exT 1) (), .change (exT 2) (), .reset 7, .swap (exT 3) ()] with
    | .ok m => (m.trace.filter fun e => e.kind = .destroy).map fun e => e.page.data
    | _ => []) = [101, 100, 101] := by decide
/-- C73. -/
example : exNav (run { exC with ndebug := true } (init none) [.change (exT 1) (), .change (exT 2) (), .back])
    = some [(2, 101)] := by decide

end Gel.Pages
