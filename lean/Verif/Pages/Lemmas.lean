import Verif.Pages.Spec
import Mathlib.Tactic.SplitIfs
import Mathlib.Data.List.Nodup
import Mathlib.Logic.Function.Basic

namespace Gel.Pages
open Spec

theorem life_append (i : Nat) (s : Life) (l₁ l₂ : List (Ev δ ξ)) :
    life i s (l₁ ++ l₂) = life i (life i s l₁) l₂ := by
  induction l₁ generalizing s with
  | nil => rfl
  | cons e es ih => exact ih _

/-- The life of page number `i` as far as the manager's state tells. -/
def expected (m : Pm δ ξ) (i : Nat) : Life :=
  if m.init = true ∧ ∃ p, m.cur = some p ∧ p.inst = i then .opened
  else if i ∈ m.stack.map (·.inst) then .closed
  else if i < m.next then .dead
  else .unborn

structure Inv (m : Pm δ ξ) (f : Nat → Page δ ξ) : Prop where
  cur : m.init = true → ∃ p, m.cur = some p ∧ p.inst < m.next ∧ p.inst ∉ m.stack.map (·.inst) ∧ p = f p.inst
  none : m.init = false → m.stack = []
  nodup : (m.stack.map (·.inst)).Nodup
  lt : ∀ p ∈ m.stack, p.inst < m.next ∧ p = f p.inst
  life : ∀ i, life i .unborn m.trace = expected m i
  evs : ∀ e ∈ m.trace, e.page.inst < m.next ∧ e.page = f e.page.inst

theorem life_destroy (i : Nat) : ∀ (l : List (Page δ ξ)) (s : Life), (l.map (·.inst)).Nodup →
    life i s (clearStack l) = if i ∈ l.map (·.inst) then s.next .destroy else s
  | [], s, _ => by simp [clearStack, life]
  | p :: ps, s, h => by
    have hn : p.inst ∉ ps.map (·.inst) ∧ (ps.map (·.inst)).Nodup := by simpa using h
    have ih := fun s => life_destroy i ps s hn.2
    simp only [clearStack] at ih
    simp only [clearStack, List.map_cons, life]
    rw [ih]
    by_cases hp : p.inst = i
    · subst hp
      simp only [if_neg hn.1]
      simp
    · simp only [if_neg hp, List.mem_cons, show (i = p.inst) = False from by simp; exact fun h => hp h.symm, false_or]

theorem resetLoop_eq (id : Int) (l : List (Page δ ξ)) :
    resetLoop id l = (clearStack (l.takeWhile fun p => p.tmpl.id ≠ id),
      match l.dropWhile fun p => p.tmpl.id ≠ id with
      | [] => none
      | q :: rest => some (q, rest)) := by
  induction l with
  | nil => rfl
  | cons p ps ih =>
    by_cases h : p.tmpl.id = id
    · simp [resetLoop, h, clearStack]
    · simp only [resetLoop, if_neg h, ih]
      simp [h, clearStack]

theorem expected_init {m : Pm δ ξ} (h : m.init = true) (hc : m.cur = some p) (i : Nat) :
    expected m i = if p.inst = i then .opened else if i ∈ m.stack.map (·.inst) then .closed
      else if i < m.next then .dead else .unborn := by
  simp [expected, h, hc]

theorem expected_mk {b : Bool} (h : b = true) (p : Page δ ξ) (s : List (Page δ ξ)) (n : Nat) (tr : List (Ev δ ξ)) (i : Nat) :
    expected ⟨b, some p, s, n, tr⟩ i = if p.inst = i then .opened else if i ∈ s.map (·.inst) then .closed
      else if i < n then .dead else .unborn := by
  simp [expected, h]

theorem expected_none {m : Pm δ ξ} (h : m.init = false) (hs : m.stack = []) (i : Nat) :
    expected m i = if i < m.next then .dead else .unborn := by
  simp [expected, h, hs]

theorem life_updates (c : Conf δ) (q : Page δ ξ) (i : Nat) (s : Life) (h : q.inst = i → s = .opened) :
    life i s (c.updates q) = s := by
  unfold Conf.updates
  split
  · simp only [life]
    by_cases hq : q.inst = i
    · simp [hq, h hq, Life.next]
    · simp [hq]
  · rfl

theorem life_show (c : Conf δ) (q : Page δ ξ) (i : Nat) (s : Life) (h : q.inst = i → s = .unborn) :
    life i s (c.show q) = if q.inst = i then .opened else s := by
  rw [Conf.show, life_append]
  by_cases hq : q.inst = i
  · have : life i s [⟨.create, q⟩, ⟨.open, q⟩] = .opened := by simp [life, hq, h hq, Life.next]
    rw [this, life_updates _ _ _ _ (fun _ => rfl), if_pos hq]
  · have : life i s [⟨.create, q⟩, ⟨.open, q⟩] = s := by simp [life, hq]
    rw [this, life_updates _ _ _ _ (fun h => absurd h hq), if_neg hq]

theorem life_leave (p : Page δ ξ) (i : Nat) (s : Life) (h : p.inst = i → s = .opened) :
    life i s (leave p) = if p.inst = i then .dead else s := by
  by_cases hp : p.inst = i
  · simp [leave, life, hp, h hp, Life.next]
  · simp [leave, life, hp]

theorem mem_updates {c : Conf δ} {q : Page δ ξ} (h : e ∈ c.updates q) : e.page = q := by
  unfold Conf.updates at h
  split at h
  · simp at h; simp [h]
  · simp at h

theorem mem_show {c : Conf δ} {q : Page δ ξ} (h : e ∈ c.show q) : e.page = q := by
  simp only [Conf.show, List.mem_append, List.mem_cons, List.not_mem_nil, or_false] at h
  rcases h with (h | h) | h
  · simp [h]
  · simp [h]
  · exact mem_updates h

theorem mem_leave {p : Page δ ξ} (h : e ∈ leave p) : e.page = p := by
  simp only [leave, List.mem_cons, List.not_mem_nil, or_false] at h
  rcases h with h | h <;> simp [h]

theorem mem_clear {l : List (Page δ ξ)} (h : e ∈ clearStack l) : e.page ∈ l := by
  simp only [clearStack, List.mem_map] at h
  obtain ⟨p, hp, rfl⟩ := h
  exact hp

theorem install_inst (c : Conf δ) (t : Tmpl) (e : ξ) (i : Nat) : (c.install t e i).inst = i := rfl

theorem upd_of_lt {f : Nat → Page δ ξ} (q : Page δ ξ) {n : Nat} {p : Page δ ξ} (h : p.inst < n) (hp : p = f p.inst) :
    p.inst < n + 1 ∧ p = Function.update f n q p.inst := by
  refine ⟨by omega, ?_⟩
  rw [Function.update_of_ne (by omega)]
  exact hp

theorem inv_swap {c : Conf δ} {m m' : Pm δ ξ} {f} (hI : Inv m f) (hi : m.init = true) (h : swap c m t x = .ok m') :
    ∃ f', Inv m' f' := by
  obtain ⟨p, hc, hlt, hns, hf⟩ := hI.cur hi
  simp only [swap, current, hc, Res.ok_bind, Res.pure_eq, Res.ok.injEq] at h
  subst h
  refine ⟨Function.update f m.next (c.install t x m.next), ⟨fun _ => ⟨_, rfl, ?_, ?_, ?_⟩, ?_, hI.nodup, ?_, ?_, ?_⟩⟩
  · show m.next < m.next + 1
    omega
  · intro hmem
    obtain ⟨q, hq, hqi⟩ := List.mem_map.1 hmem
    have := (hI.lt q hq).1
    rw [install_inst] at hqi
    omega
  · rw [install_inst, Function.update_self]
  · intro hn
    exact absurd (hi.symm.trans hn) (by decide)
  · intro q hq
    exact upd_of_lt _ (hI.lt q hq).1 (hI.lt q hq).2
  · intro i
    rw [life_append, life_append, hI.life, expected_init hi hc, expected_mk hi]
    rw [life_leave]
    · rw [life_show]
      · simp only [install_inst]
        by_cases h1 : m.next = i
        · simp [h1]
        · by_cases h2 : p.inst = i
          · have : i ∉ m.stack.map (·.inst) := h2 ▸ hns
            simp only [if_neg h1, if_pos h2, if_neg this, if_pos (show i < m.next + 1 by omega)]
          · have : (i < m.next + 1) ↔ i < m.next := by omega
            simp only [if_neg h1, if_neg h2, this]
      · rw [install_inst]
        rintro rfl
        have h1 : ¬ p.inst = m.next := by omega
        have h2 : m.next ∉ m.stack.map (·.inst) := by
          intro hmem
          obtain ⟨q, hq, hqi⟩ := List.mem_map.1 hmem
          have := (hI.lt q hq).1
          omega
        simp only [if_neg h1, if_neg h2, if_neg (Nat.lt_irrefl _)]
    · rintro rfl
      simp
  · intro e he
    simp only [List.mem_append] at he
    rcases he with (he | he) | he
    · exact upd_of_lt _ (hI.evs e he).1 (hI.evs e he).2
    · rw [mem_leave he]
      exact upd_of_lt _ hlt hf
    · rw [mem_show he, install_inst, Function.update_self]
      exact ⟨by simp, rfl⟩

theorem inv_rebase {c : Conf δ} {m m' : Pm δ ξ} {f} (hI : Inv m f) (hi : m.init = true) (h : rebase c m t x = .ok m') :
    ∃ f', Inv m' f' := by
  obtain ⟨p, hc, hlt, hns, hf⟩ := hI.cur hi
  simp only [rebase, current, hc, Res.ok_bind, Res.pure_eq, Res.ok.injEq] at h
  subst h
  refine ⟨Function.update f m.next (c.install t x m.next), ⟨fun _ => ⟨_, rfl, ?_, by simp, ?_⟩, fun _ => rfl, by simp, by simp, ?_, ?_⟩⟩
  · show m.next < m.next + 1
    omega
  · rw [install_inst, Function.update_self]
  · intro i
    rw [life_append, life_append, life_append, hI.life, expected_init hi hc, expected_mk hi]
    have hn : m.next ∉ m.stack.map (·.inst) := by
      intro hmem
      obtain ⟨q, hq, hqi⟩ := List.mem_map.1 hmem
      have := (hI.lt q hq).1
      omega
    rw [life_leave, life_destroy _ _ _ hI.nodup]
    · rw [life_show]
      · simp only [install_inst, List.map_nil, List.not_mem_nil, if_false]
        by_cases h1 : m.next = i
        · simp [h1]
        · by_cases h2 : p.inst = i
          · have : i ∉ m.stack.map (·.inst) := h2 ▸ hns
            simp only [if_neg h1, if_pos h2, if_neg this, if_pos (show i < m.next + 1 by omega)]
          · have h3 : (i < m.next + 1) ↔ i < m.next := by omega
            by_cases h4 : i ∈ m.stack.map (·.inst)
            · obtain ⟨q, hq, hqi⟩ := List.mem_map.1 h4
              have := (hI.lt q hq).1
              simp only [if_neg h1, if_neg h2, if_pos h4, if_pos (show i < m.next + 1 by omega), Life.next]
            · simp only [if_neg h1, if_neg h2, if_neg h4, h3]
      · rw [install_inst]
        rintro rfl
        simp only [if_neg hn, if_neg (show ¬ p.inst = m.next by omega), if_neg (Nat.lt_irrefl _)]
    · rintro rfl
      simp
  · intro e he
    simp only [List.mem_append] at he
    rcases he with ((he | he) | he) | he
    · exact upd_of_lt _ (hI.evs e he).1 (hI.evs e he).2
    · rw [mem_leave he]
      exact upd_of_lt _ hlt hf
    · have := hI.lt _ (mem_clear he)
      exact upd_of_lt _ this.1 this.2
    · rw [mem_show he, install_inst, Function.update_self]
      exact ⟨by simp, rfl⟩

theorem inv_change {c : Conf δ} {m m' : Pm δ ξ} {f} (hI : Inv m f) (hd : c.ndebug = false) (h : change c m t x = .ok m') :
    ∃ f', Inv m' f' := by
  have hn : m.next ∉ m.stack.map (·.inst) := by
    intro hmem
    obtain ⟨q, hq, hqi⟩ := List.mem_map.1 hmem
    have := (hI.lt q hq).1
    omega
  by_cases hi : m.init = true
  · obtain ⟨p, hc, hlt, hns, hf⟩ := hI.cur hi
    simp only [change, hi, if_true, current, hc, Res.ok_bind, pushAssert, hd, Bool.false_eq_true, if_false] at h
    by_cases hfull : m.stack.length = c.depth
    · simp [hfull] at h
    · simp only [if_neg hfull, Res.ok_bind, Res.pure_eq, Res.ok.injEq] at h
      subst h
      refine ⟨Function.update f m.next (c.install t x m.next), ⟨fun _ => ⟨_, rfl, ?_, ?_, ?_⟩, ?_, ?_, ?_, ?_, ?_⟩⟩
      · show m.next < m.next + 1
        omega
      · rw [install_inst]
        simp only [List.map_cons, List.mem_cons, not_or]
        exact ⟨by omega, hn⟩
      · rw [install_inst, Function.update_self]
      · intro hn
        cases hn
      · simp only [List.map_cons, List.nodup_cons]
        exact ⟨hns, hI.nodup⟩
      · intro q hq
        rcases List.mem_cons.1 hq with rfl | hq
        · exact upd_of_lt _ hlt hf
        · exact upd_of_lt _ (hI.lt q hq).1 (hI.lt q hq).2
      · intro i
        rw [life_append, life_append, hI.life, expected_init hi hc, expected_mk rfl, life_show]
        · simp only [install_inst, life, List.map_cons, List.mem_cons]
          by_cases h1 : m.next = i
          · simp [h1]
          · by_cases h2 : p.inst = i
            · have : i = p.inst := h2.symm
              simp [h1, this, Life.next, show ¬ m.next = p.inst by omega]
            · have h3 : (i < m.next + 1) ↔ i < m.next := by omega
              have h4 : ¬ i = p.inst := fun h => h2 h.symm
              simp only [if_neg h1, if_neg h2, h4, false_or, h3]
        · rw [install_inst]
          rintro rfl
          simp only [life, if_neg hn, if_neg (show ¬ p.inst = m.next by omega), if_neg (Nat.lt_irrefl _)]
      · intro e he
        simp only [List.mem_append, List.mem_cons, List.not_mem_nil, or_false] at he
        rcases he with (he | he) | he
        · exact upd_of_lt _ (hI.evs e he).1 (hI.evs e he).2
        · subst he
          exact upd_of_lt _ hlt hf
        · rw [mem_show he, install_inst, Function.update_self]
          exact ⟨by simp, rfl⟩
  · have hi' : m.init = false := by simpa using hi
    have hs := hI.none hi'
    simp only [change, hi', Bool.false_eq_true, if_false, Res.pure_eq, Res.ok.injEq] at h
    subst h
    refine ⟨Function.update f m.next (c.install t x m.next), ⟨fun _ => ⟨_, rfl, ?_, ?_, ?_⟩, ?_, ?_, ?_, ?_, ?_⟩⟩
    · show m.next < m.next + 1
      omega
    · exact hn
    · rw [install_inst, Function.update_self]
    · intro hn
      cases hn
    · exact hI.nodup
    · simp [hs]
    · intro i
      rw [life_append, hI.life, expected_none hi' hs, expected_mk rfl, life_show]
      · simp only [install_inst, hs, List.map_nil, List.not_mem_nil, if_false]
        by_cases h1 : m.next = i
        · simp [h1]
        · have h3 : (i < m.next + 1) ↔ i < m.next := by omega
          simp [h1, h3]
      · rw [install_inst]
        rintro rfl
        simp
    · intro e he
      simp only [List.mem_append] at he
      rcases he with he | he
      · exact upd_of_lt _ (hI.evs e he).1 (hI.evs e he).2
      · rw [mem_show he, install_inst, Function.update_self]
        exact ⟨by simp, rfl⟩

theorem inv_back {c : Conf δ} {m m' : Pm δ ξ} {f} (hI : Inv m f) (h : back c m = .ok m') : Inv m' f := by
  unfold back at h
  obtain ⟨_, _, h⟩ := Res.bind_eq_ok.1 h
  cases hs : m.stack with
  | nil =>
    simp only [hs, Res.pure_eq, Res.ok.injEq] at h
    exact h ▸ hI
  | cons q rest =>
    have hi : m.init = true := by
      by_contra hn
      rw [hI.none (by simpa using hn)] at hs
      cases hs
    obtain ⟨p, hc, hlt, hns, hf⟩ := hI.cur hi
    simp only [hs, current, hc, Res.ok_bind, Res.pure_eq, Res.ok.injEq] at h
    subst h
    have hnd := hI.nodup
    rw [hs] at hnd hns
    simp only [List.map_cons, List.nodup_cons, List.mem_cons, not_or] at hnd hns
    have hq := hI.lt q (hs ▸ List.mem_cons_self)
    refine ⟨fun _ => ⟨q, rfl, hq.1, hnd.1, hq.2⟩, ?_, hnd.2, ?_, ?_, ?_⟩
    · intro hn
      exact absurd (hi.symm.trans hn) (by decide)
    · intro r hr
      exact hI.lt r (hs ▸ List.mem_cons_of_mem _ hr)
    · intro i
      rw [life_append, life_append, life_append, hI.life, expected_init hi hc, expected_mk hi, life_leave, hs]
      · have key : life i (if p.inst = i then Life.dead else if p.inst = i then .opened else
            if i ∈ (q :: rest).map (·.inst) then .closed else if i < m.next then .dead else .unborn) [⟨.open, q⟩]
            = if q.inst = i then .opened else if i ∈ rest.map (·.inst) then .closed else if i < m.next then .dead
              else .unborn := by
          simp only [life, List.map_cons, List.mem_cons]
          by_cases h1 : q.inst = i
          · have h2 : ¬ p.inst = i := by rw [← h1]; exact hns.1
            simp [h1, h2, Life.next]
          · have h4 : ¬ i = q.inst := fun h => h1 h.symm
            by_cases h2 : p.inst = i
            · have h3 : i ∉ rest.map (·.inst) := h2 ▸ hns.2
              simp only [if_neg h1, if_pos h2, if_neg h3, if_pos (show i < m.next by omega)]
            · simp only [if_neg h1, if_neg h2, h4, false_or]
        rw [key, life_updates]
        intro h1
        simp [h1]
      · rintro rfl
        simp
    · intro e he
      simp only [List.mem_append, List.mem_cons, List.not_mem_nil, or_false] at he
      rcases he with ((he | he) | he) | he
      · exact hI.evs e he
      · rw [mem_leave he]
        exact ⟨hlt, hf⟩
      · subst he
        exact hq
      · rw [mem_updates he]
        exact hq

theorem inv_use {m : Pm δ ξ} {f} (hI : Inv m f) (hi : m.init = true) (hc : m.cur = some p) (k : Kind)
    (hk : k = .update ∨ k = .process) : Inv { m with trace := m.trace ++ [⟨k, p⟩] } f := by
  obtain ⟨p', hc', hlt, hns, hf⟩ := hI.cur hi
  rw [hc] at hc'
  cases hc'
  refine ⟨hI.cur, hI.none, hI.nodup, hI.lt, ?_, ?_⟩
  · intro i
    rw [life_append, hI.life]
    show _ = expected m i
    rw [expected_init hi hc]
    by_cases h : p.inst = i
    · simp only [life, if_pos h]
      rcases hk with rfl | rfl <;> rfl
    · simp only [life, if_neg h]
  · intro e he
    simp only [List.mem_append, List.mem_cons, List.not_mem_nil, or_false] at he
    rcases he with he | he
    · exact hI.evs e he
    · subst he
      exact ⟨hlt, hf⟩

theorem inv_update {c : Conf δ} {m m' : Pm δ ξ} {f} (hI : Inv m f) (hd : c.ndebug = false) (h : update c m = .ok m') :
    Inv m' f := by
  unfold update at h
  obtain ⟨_, ha, h⟩ := Res.bind_eq_ok.1 h
  have hi : m.init = true := by
    by_contra hn
    simp [Conf.assert, hd, cassert, hn] at ha
  by_cases hu : c.upd = true
  · obtain ⟨p, hc, -⟩ := hI.cur hi
    simp only [hu, if_true, current, hc, Res.ok_bind, Res.pure_eq, Res.ok.injEq] at h
    subst h
    have := inv_use hI hi hc _ (Or.inl rfl)
    rwa [hc] at this
  · simp only [hu, Bool.false_eq_true, if_false, Res.pure_eq, Res.ok.injEq] at h
    exact h ▸ hI

theorem inv_process {c : Conf δ} {m m' : Pm δ ξ} {f} (hI : Inv m f) (hd : c.ndebug = false) (h : process c m = .ok m') :
    Inv m' f := by
  unfold process at h
  obtain ⟨_, ha, h⟩ := Res.bind_eq_ok.1 h
  have hi : m.init = true := by
    by_contra hn
    simp [Conf.assert, hd, cassert, hn] at ha
  obtain ⟨p, hc, -⟩ := hI.cur hi
  simp only [current, hc, Res.ok_bind] at h
  by_cases hp : p.tmpl.process = true
  · simp only [hp, if_true, Res.pure_eq, Res.ok.injEq] at h
    subst h
    have := inv_use hI hi hc _ (Or.inr rfl)
    rwa [hc] at this
  · simp [hp] at h

theorem inv_reset {c : Conf δ} {m : Pm δ ξ} {id : Int} {r} {f} (hI : Inv m f) (hi : m.init = true) (h : reset c m id = .ok r) :
    Inv r.1 f := by
  obtain ⟨p, hc, hlt, hns, hf⟩ := hI.cur hi
  simp only [reset, current, hc, Res.ok_bind, Res.pure_eq, Res.ok.injEq, resetLoop_eq] at h
  have hsplit := List.takeWhile_append_dropWhile (p := fun p : Page δ ξ => decide (p.tmpl.id ≠ id)) (l := m.stack)
  revert h hsplit
  generalize m.stack.takeWhile (fun p => decide (p.tmpl.id ≠ id)) = above
  generalize m.stack.dropWhile (fun p => decide (p.tmpl.id ≠ id)) = below
  intro h hsplit
  have hnd := hI.nodup
  rw [← hsplit] at hnd hns
  simp only [List.map_append, List.nodup_append, List.mem_append, not_or] at hnd hns
  cases below with
  | nil =>
    simp only [resetEnd] at h
    subst h
    simp only [List.append_nil] at hsplit
    subst hsplit
    refine ⟨fun h => (by cases h), fun _ => rfl, by simp, by simp, ?_, ?_⟩
    · intro i
      rw [life_append, life_append, hI.life, expected_init hi hc, expected_none rfl rfl, life_leave,
        life_destroy _ _ _ hI.nodup]
      · by_cases h1 : p.inst = i
        · have : i ∉ m.stack.map (·.inst) := h1 ▸ hns.1
          simp only [if_pos h1, if_neg this, if_pos (show i < m.next by omega)]
        · by_cases h2 : i ∈ m.stack.map (·.inst)
          · obtain ⟨q, hq, hqi⟩ := List.mem_map.1 h2
            have := (hI.lt q hq).1
            simp only [if_neg h1, if_pos h2, if_pos (show i < m.next by omega), Life.next]
          · simp only [if_neg h1, if_neg h2]
      · rintro rfl
        simp
    · intro e he
      simp only [List.mem_append] at he
      rcases he with (he | he) | he
      · exact hI.evs e he
      · rw [mem_leave he]
        exact ⟨hlt, hf⟩
      · exact hI.lt _ (mem_clear he)
  | cons q rest =>
    simp only [resetEnd] at h
    subst h
    have hq := hI.lt q (by rw [← hsplit]; simp)
    have hrest : ∀ x ∈ rest, x ∈ m.stack := by
      intro x hx
      rw [← hsplit]
      simp [hx]
    have habove : ∀ x ∈ above, x ∈ m.stack := by
      intro x hx
      rw [← hsplit]
      simp [hx]
    obtain ⟨hn1, hn2, hn3⟩ := hnd
    simp only [List.map_cons, List.nodup_cons, List.mem_cons, not_or] at hn2 hns
    refine ⟨fun _ => ⟨q, rfl, hq.1, hn2.1, hq.2⟩, fun h => (by cases h), hn2.2, fun x hx => hI.lt x (hrest x hx), ?_, ?_⟩
    · intro i
      rw [life_append, life_append, life_append, life_append, hI.life, expected_init hi hc, expected_mk rfl, life_leave,
        life_destroy _ _ _ hn1, ← hsplit]
      · have key : life i (if i ∈ above.map (·.inst) then (if p.inst = i then Life.dead else if p.inst = i then .opened else
            if i ∈ (above ++ q :: rest).map (·.inst) then .closed else if i < m.next then .dead else .unborn).next .destroy
            else (if p.inst = i then Life.dead else if p.inst = i then .opened else
            if i ∈ (above ++ q :: rest).map (·.inst) then .closed else if i < m.next then .dead else .unborn)) [⟨.open, q⟩]
            = if q.inst = i then .opened else if i ∈ rest.map (·.inst) then .closed else if i < m.next then .dead
              else .unborn := by
          simp only [life, List.map_append, List.map_cons, List.mem_append, List.mem_cons]
          by_cases h1 : q.inst = i
          · have h2 : ¬ p.inst = i := by rw [← h1]; exact hns.2.1
            have h3 : i ∉ above.map (·.inst) := fun h => hn3 i h q.inst (by simp) h1.symm
            rw [if_neg h3]
            simp [h1, h2, Life.next]
          · have h4 : ¬ i = q.inst := fun h => h1 h.symm
            by_cases h2 : p.inst = i
            · have h3 : i ∉ rest.map (·.inst) := h2 ▸ hns.2.2
              have h5 : i ∉ above.map (·.inst) := h2 ▸ hns.1
              simp only [if_neg h1, if_pos h2, if_neg h3, if_neg h5, if_pos (show i < m.next by omega)]
            · by_cases h5 : i ∈ above.map (·.inst)
              · have h3 : i ∉ rest.map (·.inst) := fun h => hn3 i h5 i (List.mem_cons_of_mem _ h) rfl
                obtain ⟨r, hr, hri⟩ := List.mem_map.1 h5
                have := (hI.lt r (habove r hr)).1
                rw [if_neg h1, if_pos h5, if_neg h2, if_neg h2, if_pos (Or.inl h5), if_neg h1, if_neg h3,
                  if_pos (show i < m.next by omega)]
                rfl
              · have h6 : (i ∈ above.map (·.inst) ∨ i = q.inst ∨ i ∈ rest.map (·.inst)) ↔ i ∈ rest.map (·.inst) := by
                  constructor
                  · rintro (h | h | h)
                    · exact absurd h h5
                    · exact absurd h h4
                    · exact h
                  · exact fun h => Or.inr (Or.inr h)
                rw [if_neg h1, if_neg h5, if_neg h2, if_neg h2, if_neg h1]
                simp only [h6]
        rw [key, life_updates]
        intro h1
        simp [h1]
      · rintro rfl
        simp
    · intro e he
      simp only [List.mem_append, List.mem_cons, List.not_mem_nil, or_false] at he
      rcases he with (((he | he) | he) | he) | he
      · exact hI.evs e he
      · rw [mem_leave he]
        exact ⟨hlt, hf⟩
      · exact hI.lt _ (habove _ (mem_clear he))
      · subst he
        exact hq
      · rw [mem_updates he]
        exact hq

end Gel.Pages
