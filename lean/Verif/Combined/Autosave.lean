import Verif.Watcher.Props
import Verif.Wear.Props

/-!
# Settings that are saved when they change: property C195

An application keeps its settings in RAM, watches them with watchers without delay whose callbacks write all of them to a wear leveled
memory, and calls `watcher_process_changes` in its loop. After power-up it reads the settings and initializes the watchers.
-/
namespace Gel.Combined
open Watcher (Watcher)
open Wear.Spec (Block flash Fits Ideal)
open Wear (Wlm)

/-- RAM, the memory device, and whether a write had undefined behaviour. -/
structure Mem where
  ram : List (BitVec 8)
  dev : List Block × Wlm
  bad : Bool

/-- Watcher `i` is on the settings from `off i` on; every callback writes all settings (`wearleveling_write`, gel/wearleveling/wearleveling.c:48). -/
def settings (size : Nat) (off : Nat → Nat) : Watcher.Env Mem where
  view m i := m.ram.drop (off i)
  cb m _ := match Wear.write (flash size) m.dev.1 m.dev.2 m.ram with
    | .ok r => { m with dev := (r.1, r.2.1) }
    | _ => { m with bad := true }

/-- The application. -/
structure App (w : Nat) where
  mem : Mem
  watchers : List (Watcher w)

/-- The settings are changed to `ram` and the changes processed at time `ts`; or power is lost, and the application starts again. -/
inductive Act (w : Nat) where
  | change (ram : List (BitVec 8)) (ts : BitVec w)
  | restart

/-- Power-up: `wearleveling_init`, `wearleveling_read`, `watcher_list_init`. -/
def start (size n len : Nat) (off : Nat → Nat) (d : List Block) (l : List (Watcher w)) : Res (App w) := do
  let wl ← Wear.init (flash size) d n
  let m : Mem := ⟨(Wear.read (flash size) d wl len).2, (d, wl), false⟩
  let l ← Watcher.init none (settings size off) m 0 l
  pure ⟨m, l⟩

def act (size n len : Nat) (off : Nat → Nat) (a : App w) : Act w → Res (App w)
  | .change ram ts =>
    let o := Watcher.process (settings size off) { a.mem with ram := ram } ts 0 a.watchers
    .ok ⟨o.mem, o.list⟩
  | .restart => start size n len off a.mem.dev.1 a.watchers

def acts (size n len : Nat) (off : Nat → Nat) : App w → List (Act w) → Res (App w)
  | a, [] => .ok a
  | a, x :: xs => do
    let a ← act size n len off a x
    acts size n len off a xs

namespace Spec

/-- The settings and how often they changed. -/
def kept : List (Act w) → List (BitVec 8) → Nat → List (BitVec 8) × Nat
  | [], r, k => (r, k)
  | .restart :: l, r, k => kept l r k
  | .change s _ :: l, r, k => if s = r then kept l r k else kept l s (k + 1)

/-- Power is not lost while the last of several blocks is in use (C44). -/
def PowerSafe (n : Nat) : List (Act w) → List (BitVec 8) → Nat → Prop
  | [], _, _ => True
  | .restart :: l, r, k => (n = 1 ∨ (k + 1) % n ≠ 0) ∧ PowerSafe n l r k
  | .change s _ :: l, r, k => if s = r then PowerSafe n l r k else PowerSafe n l s (k + 1)

/-- Every byte of the settings is watched, without delay. -/
def Watched (len : Nat) (off : Nat → Nat) (l : List (Watcher w)) : Prop :=
  (∀ x ∈ l, x.delay = 0 ∧ x.moved = false) ∧
  ∀ j < len, ∃ i x, l[i]? = some x ∧ off i ≤ j ∧ j < off i + x.size

end Spec

theorem settings_quiet (size : Nat) (off : Nat → Nat) : Gel.Watcher.Spec.Quiet (settings size off) := by
  intro m i j
  simp only [settings]
  split <;> rfl

/-- The memory after the loop: the callbacks in turn. -/
theorem process_mem {M : Type} (env : Watcher.Env M) (ts : BitVec w) (l : List (Watcher w)) : ∀ (i : Nat) (m : M),
    (Watcher.process env m ts i l).mem = (Watcher.process env m ts i l).calls.foldl env.cb m := by
  induction l with
  | nil => intro i m; rfl
  | cons x xs ih =>
    intro i m
    simp only [Watcher.process]
    rw [ih]
    have hm : (Watcher.step env m ts i x).mem = if (Watcher.step env m ts i x).called then env.cb m i else m := by
      rw [Watcher.step]
      split_ifs <;> simp_all
    rw [hm]
    split <;> rfl

/-- Saving the same settings any number of times. -/
theorem save_again {size n len : Nat} (hn0 : 0 < n) (hn : n < 256) (h0 : 0 < len) (hl : len ≤ size) (off : Nat → Nat) (calls : List Nat) :
    ∀ (m : Mem) (i : Ideal), m.bad = false → m.ram.length = len → Wear.Rel size n len m.dev i →
      (calls ≠ [] ∨ i.data = m.ram) → ∃ dev, calls.foldl (settings size off).cb m = ⟨m.ram, dev, false⟩ ∧ Wear.Rel size n len dev (i.write m.ram) := by
  induction calls with
  | nil =>
    intro m i hb hr hrel hc
    have hd : i.data = m.ram := by simpa using hc
    refine ⟨m.dev, ?_, ?_⟩
    · rw [List.foldl_nil, ← hb]
    · rw [Ideal.write, if_pos hd.symm]; exact hrel
  | cons c cs ih =>
    intro m i hb hr hrel _
    obtain ⟨d, w', h1, h2⟩ := Wear.rel_write hn0 hn h0 hl hrel m.ram hr
    have hcb : (settings size off).cb m c = { m with dev := (d, w') } := by simp only [settings, h1]
    have hw : (i.write m.ram).write m.ram = i.write m.ram := by
      have : (i.write m.ram).data = m.ram := by
        rw [Ideal.write]; split
        · rename_i h; exact h.symm
        · rfl
      rw [Ideal.write, if_pos this.symm]
    obtain ⟨dev, h3, h4⟩ := ih { m with dev := (d, w') } (i.write m.ram) hb hr h2 (Or.inr (by
      show (i.write m.ram).data = m.ram
      rw [Ideal.write]; split
      · rename_i h; exact h.symm
      · rfl))
    refine ⟨dev, ?_, ?_⟩
    · rw [List.foldl_cons, hcb]; exact h3
    · rw [← hw]; exact h4

theorem same_ram {w len : Nat} {off : Nat → Nat} {l : List (Watcher w)} (hw : Spec.Watched len off l) (r s : List (BitVec 8))
    (hr : r.length = len) (hs : s.length = len)
    (h : ∀ i x, l[i]? = some x → (r.drop (off i)).take x.size = (s.drop (off i)).take x.size) : r = s := by
  apply List.ext_getElem?
  intro j
  by_cases hj : j < len
  · obtain ⟨i, x, hx, h1, h2⟩ := hw.2 j hj
    have := congrArg (fun z : List (BitVec 8) => z[j - off i]?) (h i x hx)
    simp only [List.getElem?_take_of_lt (show j - off i < x.size by omega), List.getElem?_drop] at this
    rwa [show off i + (j - off i) = j by omega] at this
  · rw [List.getElem?_eq_none (by omega), List.getElem?_eq_none (by omega)]

/-- What holds after every step. -/
def Good (size n len : Nat) (off : Nat → Nat) (a : App w) (r : List (BitVec 8)) (k : Nat) : Prop :=
  a.mem.ram = r ∧ r.length = len ∧ a.mem.bad = false ∧ Wear.Rel size n len a.mem.dev ⟨r, k⟩ ∧
  Watcher.Fresh (settings size off) a.mem a.watchers ∧ Spec.Watched len off a.watchers

theorem watched_of_map {w len : Nat} {off : Nat → Nat} {l l' : List (Watcher w)} (hw : Spec.Watched len off l)
    (hs : l'.map (·.size) = l.map (·.size)) (hd : ∀ x ∈ l', x.delay = 0 ∧ x.moved = false) : Spec.Watched len off l' := by
  refine ⟨hd, ?_⟩
  intro j hj
  obtain ⟨i, x, hx, h1, h2⟩ := hw.2 j hj
  have h3 := congrArg (fun z : List Nat => z[i]?) hs
  simp only [List.getElem?_map, hx, Option.map_some] at h3
  cases hy : l'[i]? with
  | none => rw [hy] at h3; cases h3
  | some y =>
    rw [hy, Option.map_some, Option.some.injEq] at h3
    exact ⟨i, y, hy, h1, by omega⟩

theorem good_change {size n len : Nat} (hn0 : 0 < n) (hn : n < 256) (h0 : 0 < len) (hl : len ≤ size) (off : Nat → Nat) {a : App w}
    {r s : List (BitVec 8)} {k : Nat} (hg : Good size n len off a r k) (hs : s.length = len) (ts : BitVec w) :
    ∃ a', act size n len off a (.change s ts) = .ok a' ∧ Good size n len off a' s (if s = r then k else k + 1) := by
  obtain ⟨g1, g2, g3, g4, g5, g6⟩ := hg
  have hq := settings_quiet size off
  have hfr : Watcher.Fresh (settings size off) a.mem a.watchers := g5
  have hmv : ∀ x ∈ a.watchers, x.delay = 0 → x.moved = false := fun x hx _ => (g6.1 x hx).2
  obtain ⟨-, c2, -, -⟩ := Watcher.C62_immediate (settings size off) hq a.mem { a.mem with ram := s } ts a.watchers hfr hmv
  have hcalls : (Watcher.process (settings size off) { a.mem with ram := s } ts 0 a.watchers).calls ≠ [] ∨ r = s := by
    by_cases hc : (Watcher.process (settings size off) { a.mem with ram := s } ts 0 a.watchers).calls = []
    · refine Or.inr (same_ram g6 r s g2 hs ?_)
      intro i x hx
      have := (not_congr (c2 i x hx (g6.1 x (List.mem_of_getElem? hx)).1)).1 (by rw [hc]; simp)
      rw [not_not] at this
      rw [← g1]
      exact this
    · exact Or.inl hc
  obtain ⟨dev, e1, e2⟩ := save_again hn0 hn h0 hl off _ { a.mem with ram := s } ⟨r, k⟩ g3 hs g4 hcalls
  refine ⟨_, rfl, ?_⟩
  obtain ⟨-, -, f1, f2, f3⟩ := Watcher.C62_fresh (settings size off) hq { a.mem with ram := s } ts a.watchers
  have hmem : (Watcher.process (settings size off) { a.mem with ram := s } ts 0 a.watchers).mem = ⟨s, dev, false⟩ := by
    rw [process_mem]; exact e1
  refine ⟨?_, hs, ?_, ?_, ?_, ?_⟩
  · show (Watcher.process (settings size off) _ _ _ _).mem.ram = s
    rw [hmem]
  · show (Watcher.process (settings size off) _ _ _ _).mem.bad = false
    rw [hmem]
  · show Wear.Rel size n len (Watcher.process (settings size off) _ _ _ _).mem.dev _
    rw [hmem]
    have : (⟨r, k⟩ : Ideal).write s = ⟨s, if s = r then k else k + 1⟩ := by
      rw [Ideal.write]
      by_cases h : s = r
      · rw [if_pos h, if_pos h, h]
      · rw [if_neg h, if_neg h]
    rw [← this]
    exact e2
  · intro i x hx
    have := f1 i x hx
    rw [this]
    show List.take x.size (s.drop (off i)) = List.take x.size ((Watcher.process (settings size off) _ _ _ _).mem.ram.drop (off i))
    rw [hmem]
  · refine watched_of_map g6 f2 ?_
    intro x hx
    have hd : x.delay = 0 := by
      have : x.delay ∈ a.watchers.map (·.delay) := by rw [← f3]; exact List.mem_map_of_mem hx
      obtain ⟨y, hy, e⟩ := List.mem_map.1 this
      rw [← e]; exact (g6.1 y hy).1
    exact ⟨hd, (Watcher.C62_moved (settings size off) { a.mem with ram := s } ts a.watchers hmv).2 x hx hd⟩

theorem init_ok {M : Type} (env : Watcher.Env M) (m : M) (l : List (Watcher w)) : ∀ i, ∃ l', Watcher.init none env m i l = .ok l' ∧
    (∀ x ∈ l', ∃ y ∈ l, x.delay = y.delay ∧ x.moved = y.moved) := by
  induction l with
  | nil => intro i; exact ⟨[], rfl, by simp⟩
  | cons x xs ih =>
    intro i
    obtain ⟨l', h1, h2⟩ := ih (i + 1)
    refine ⟨_, by rw [Watcher.init, h1]; rfl, ?_⟩
    intro y hy
    rcases List.mem_cons.1 hy with rfl | hy
    · exact ⟨x, by simp, rfl, rfl⟩
    · obtain ⟨z, hz, h3⟩ := h2 y hy
      exact ⟨z, by simp [hz], h3⟩

theorem good_start {size n len : Nat} (hl : len ≤ size) (off : Nat → Nat) {d : List Block} {wl : Wlm} (hi : Wear.init (flash size) d n = .ok wl)
    {r : List (BitVec 8)} {k : Nat} (hr : r.length = len) (hrel : Wear.Rel size n len (d, wl) ⟨r, k⟩) {l : List (Watcher w)}
    (hw : Spec.Watched len off l) : ∃ a, start size n len off d l = .ok a ∧ Good size n len off a r k := by
  have hread := Wear.holds_read hl hrel.1
  simp only at hread
  obtain ⟨l', h1, h2⟩ := init_ok (settings size off) ⟨r, (d, wl), false⟩ l 0
  obtain ⟨f, -, -⟩ := Watcher.C62_fresh (settings size off) (settings_quiet size off) ⟨r, (d, wl), false⟩ 0 l
  obtain ⟨f1, f2, f3⟩ := f none l' h1
  refine ⟨⟨⟨r, (d, wl), false⟩, l'⟩, ?_, rfl, hr, rfl, hrel, f1, ?_⟩
  · rw [start, hi, Res.ok_bind]
    simp only [hread, h1, Res.ok_bind, Res.pure_eq]
  · refine watched_of_map hw f2 ?_
    intro x hx
    obtain ⟨y, hy, e1, e2⟩ := h2 x hx
    rw [e1, e2]; exact hw.1 y hy

/-- **C195.** From a fresh memory, in every history of changes and power losses in which power is not lost while the last of several blocks is
in use: after every step the settings in RAM are those of the last change processed, also after power-up, and so is the record; no write has
undefined behaviour. -/
theorem C195_autosave (size n len : Nat) (d : List Block) (hd : Fits size n d) (hn0 : 0 < n) (hn : n < 256) (h0 : 0 < len) (hl : len ≤ size)
    (mk : BitVec 8) (hm : ∀ b ∈ d, b.marker = mk) (off : Nat → Nat) (l : List (Watcher w)) (hw : Spec.Watched len off l) :
    ∃ a, start size n len off d l = .ok a ∧ a.mem.ram.length = len ∧ ∀ xs : List (Act w), (∀ s ts, Act.change s ts ∈ xs → s.length = len) →
      Spec.PowerSafe n xs a.mem.ram 0 → ∃ b, acts size n len off a xs = .ok b ∧ b.mem.ram = (Spec.kept xs a.mem.ram 0).1 ∧
        Wear.read (flash size) b.mem.dev.1 b.mem.dev.2 len = (0, b.mem.ram) ∧ b.mem.bad = false := by
  obtain ⟨wl, e, h, hr⟩ := Wear.rel_start len hd hn0 hn mk hm
  have hlen : (d[0].data.take len).length = len := by
    have := hd.2 d[0] (List.getElem_mem h)
    rw [List.length_take]; omega
  obtain ⟨a, h1, h2⟩ := good_start hl off e hlen hr hw
  refine ⟨a, h1, by rw [h2.1]; exact hlen, ?_⟩
  have key : ∀ (xs : List (Act w)) (a : App w) (r : List (BitVec 8)) (k : Nat), Good size n len off a r k →
      (∀ s ts, Act.change s ts ∈ xs → s.length = len) → Spec.PowerSafe n xs r k →
      ∃ b, acts size n len off a xs = .ok b ∧ Good size n len off b (Spec.kept xs r k).1 (Spec.kept xs r k).2 := by
    intro xs
    induction xs with
    | nil => intro a r k hg _ _; exact ⟨a, rfl, hg⟩
    | cons x xs ih =>
      intro a r k hg hx hs
      cases x with
      | restart =>
        have hst := Wear.rel_restart hn0 hn hg.2.2.2.1 hs.1
        rw [Wear.step, hg.2.2.2.1.1.2.1, Res.bind_eq_ok] at hst
        obtain ⟨wl', i1, i2⟩ := hst
        injection i2 with i2
        obtain ⟨a', j1, j2⟩ := good_start (w := w) hl off i1 hg.2.1 (k := k) (by rw [i2]; exact hg.2.2.2.1) hg.2.2.2.2.2
        obtain ⟨b, b1, b2⟩ := ih a' r k j2 (fun s ts hm => hx s ts (List.mem_cons_of_mem _ hm)) hs.2
        exact ⟨b, by rw [acts, act, j1, Res.ok_bind]; exact b1, b2⟩
      | change s ts =>
        obtain ⟨a', j1, j2⟩ := good_change hn0 hn h0 hl off hg (hx s ts List.mem_cons_self) ts
        rw [Spec.PowerSafe] at hs
        rw [Spec.kept]
        by_cases hc : s = r
        · rw [if_pos hc] at hs j2 ⊢
          rw [hc] at j2
          obtain ⟨b, b1, b2⟩ := ih a' r k j2 (fun s ts hm => hx s ts (List.mem_cons_of_mem _ hm)) hs
          exact ⟨b, by rw [acts, j1, Res.ok_bind]; exact b1, b2⟩
        · rw [if_neg hc] at hs j2 ⊢
          obtain ⟨b, b1, b2⟩ := ih a' s (k + 1) j2 (fun s ts hm => hx s ts (List.mem_cons_of_mem _ hm)) hs
          exact ⟨b, by rw [acts, j1, Res.ok_bind]; exact b1, b2⟩
  intro xs hx hs
  rw [h2.1] at hs
  obtain ⟨b, b1, b2⟩ := key xs a _ 0 h2 hx hs
  refine ⟨b, b1, by rw [b2.1, h2.1], ?_, b2.2.2.1⟩
  rw [b2.1]
  exact Wear.holds_read hl b2.2.2.2.1.1

/-- Four bytes of settings, watched in two halves, and three blocks: the second byte is changed, then power is lost. -/
example : (do
    let a ← start 4 3 4 (fun i => 2 * i) (List.replicate 3 ⟨0xff, [1, 2, 3, 4]⟩)
      [Watcher.make 32 false 2 0, Watcher.make 32 false 2 0]
    let b ← acts 4 3 4 (fun i => 2 * i) a [.change [1, 9, 3, 4] 100, .restart]
    pure (b.mem.ram, b.mem.dev.2.last)) = (.ok ([1, 9, 3, 4], 1) : Res (List (BitVec 8) × Nat)) := by
  decide +kernel

end Gel.Combined
