import Verif.Combined.Autosave
import Verif.Wear.Restart

/-!
# Settings that are saved when they change, with any power losses: property C241

The application of C195 (`Combined/Autosave.lean`). There power is not lost while the last of several blocks is in use; here it
may be lost at any time between two calls of `watcher_process_changes`.
-/
namespace Gel.Combined
open Watcher (Watcher)
open Wear.Spec (Block flash Fits Lossy)
open Wear (Wlm RelL)

namespace Spec

/-- What the memory is asked to do: every change is one write of all settings. -/
def memOps : List (Act w) → List Wear.Spec.Op
  | [] => []
  | .change s _ :: l => .write s :: memOps l
  | .restart :: l => .restart :: memOps l

end Spec

theorem lossy_again (n : Nat) (r : Lossy) (x : List (BitVec 8)) :
    (r.step n (.write x)).step n (.write x) = r.step n (.write x) := by
  have : (r.step n (.write x)).data = x := by
    rw [Lossy.step]
    by_cases h : x = r.data
    · rw [if_pos h, h]
    · rw [if_neg h]
  generalize r.step n (.write x) = q at *
  rw [Lossy.step, if_pos this.symm]

theorem lossy_data (n : Nat) (r : Lossy) (x : List (BitVec 8)) : (r.step n (.write x)).data = x := by
  rw [Lossy.step]
  by_cases h : x = r.data
  · rw [if_pos h, h]
  · rw [if_neg h]

/-- Saving the same settings any number of times. -/
theorem save_any {size n len : Nat} (hn : n < 256) (h0 : 0 < len) (hl : len ≤ size) (off : Nat → Nat) (calls : List Nat) :
    ∀ (m : Mem) (r : Lossy), m.bad = false → m.ram.length = len → RelL size n len m.dev r → (calls ≠ [] ∨ r.data = m.ram) →
      ∃ dev, calls.foldl (settings size off).cb m = ⟨m.ram, dev, false⟩ ∧ RelL size n len dev (r.step n (.write m.ram)) := by
  induction calls with
  | nil =>
    intro m r hb hr hrel hc
    have hd : r.data = m.ram := by simpa using hc
    refine ⟨m.dev, ?_, ?_⟩
    · rw [List.foldl_nil, ← hb]
    · rw [Lossy.step, if_pos hd.symm]; exact hrel
  | cons c cs ih =>
    intro m r hb hr hrel _
    obtain ⟨s', h1, h2⟩ := Wear.relL_write hn h0 hl hrel m.ram hr
    rw [Wear.step, Res.bind_eq_ok] at h1
    obtain ⟨x, h1, e⟩ := h1
    injection e with e
    have hcb : (settings size off).cb m c = { m with dev := s' } := by simp only [settings, h1, ← e]
    obtain ⟨dev, h3, h4⟩ := ih { m with dev := s' } (r.step n (.write m.ram)) hb hr h2 (Or.inr (lossy_data n r m.ram))
    refine ⟨dev, ?_, ?_⟩
    · rw [List.foldl_cons, hcb]; exact h3
    · rw [← lossy_again n r m.ram]; exact h4

/-- What holds after every step. -/
def GoodAny (size n len : Nat) (off : Nat → Nat) (a : App w) (r : Lossy) : Prop :=
  a.mem.ram = r.data ∧ r.data.length = len ∧ r.first.length = len ∧ a.mem.bad = false ∧ RelL size n len a.mem.dev r ∧
  Watcher.Fresh (settings size off) a.mem a.watchers ∧ Spec.Watched len off a.watchers

theorem lossy_length {n len : Nat} {r : Lossy} (h1 : r.data.length = len) (h2 : r.first.length = len) (o : Wear.Spec.Op)
    (ho : ∀ x, o = .write x → x.length = len) : (r.step n o).data.length = len ∧ (r.step n o).first.length = len := by
  cases o with
  | write x =>
    have hx := ho x rfl
    rw [Lossy.step]
    by_cases h : x = r.data
    · rw [if_pos h]; exact ⟨h1, h2⟩
    · rw [if_neg h]
      refine ⟨hx, ?_⟩
      simp only
      split_ifs
      · exact hx
      · exact h2
  | restart =>
    rw [Lossy.step]
    refine ⟨?_, h2⟩
    simp only
    split_ifs
    · exact h1
    · exact h2

theorem goodAny_change {size n len : Nat} (hn : n < 256) (h0 : 0 < len) (hl : len ≤ size) (off : Nat → Nat) {a : App w}
    {r : Lossy} {s : List (BitVec 8)} (hg : GoodAny size n len off a r) (hs : s.length = len) (ts : BitVec w) :
    ∃ a', act size n len off a (.change s ts) = .ok a' ∧ GoodAny size n len off a' (r.step n (.write s)) := by
  obtain ⟨g1, g2, gf, g3, g4, g5, g6⟩ := hg
  have hq := settings_quiet size off
  have hmv : ∀ x ∈ a.watchers, x.delay = 0 → x.moved = false := fun x hx _ => (g6.1 x hx).2
  obtain ⟨-, c2, -, -⟩ := Watcher.C62_immediate (settings size off) hq a.mem { a.mem with ram := s } ts a.watchers g5 hmv
  have hcalls : (Watcher.process (settings size off) { a.mem with ram := s } ts 0 a.watchers).calls ≠ [] ∨ r.data = s := by
    by_cases hc : (Watcher.process (settings size off) { a.mem with ram := s } ts 0 a.watchers).calls = []
    · refine Or.inr (same_ram g6 r.data s g2 hs ?_)
      intro i x hx
      have := (not_congr (c2 i x hx (g6.1 x (List.mem_of_getElem? hx)).1)).1 (by rw [hc]; simp)
      rw [not_not] at this
      rw [← g1]
      exact this
    · exact Or.inl hc
  obtain ⟨dev, e1, e2⟩ := save_any hn h0 hl off _ { a.mem with ram := s } r g3 hs g4 hcalls
  refine ⟨_, rfl, ?_⟩
  obtain ⟨-, -, f1, f2, f3⟩ := Watcher.C62_fresh (settings size off) hq { a.mem with ram := s } ts a.watchers
  have hmem : (Watcher.process (settings size off) { a.mem with ram := s } ts 0 a.watchers).mem = ⟨s, dev, false⟩ := by
    rw [process_mem]; exact e1
  obtain ⟨k1, k2⟩ := lossy_length (n := n) g2 gf (.write s) (fun x hx => by cases hx; exact hs)
  refine ⟨?_, k1, k2, ?_, ?_, ?_, ?_⟩
  · show (Watcher.process (settings size off) _ _ _ _).mem.ram = _
    rw [hmem, lossy_data]
  · show (Watcher.process (settings size off) _ _ _ _).mem.bad = false
    rw [hmem]
  · show RelL size n len (Watcher.process (settings size off) _ _ _ _).mem.dev _
    rw [hmem]
    exact e2
  · intro i x hx
    have := f1 i x hx
    rw [this]
    show List.take x.size (s.drop (off i)) = List.take x.size ((Watcher.process (settings size off) _ _ _ _).mem.ram.drop (off i))
    rw [hmem]
  · refine watched_of_map g6 f2 ?_
    intro x hx
    have hd : x.delay = 0 := by
      have : x.delay ∈ a.watchers.map (·.delay) := by rw [← f3]; exact List.mem_map_of_mem hx
      obtain ⟨y, hy, e⟩ := List.mem_map.1 this
      rw [← e]; exact (g6.1 y hy).1
    exact ⟨hd, (Watcher.C62_moved (settings size off) { a.mem with ram := s } ts a.watchers hmv).2 x hx hd⟩

theorem goodAny_start {size n len : Nat} (hl : len ≤ size) (off : Nat → Nat) {d : List Block} {wl : Wlm}
    (hi : Wear.init (flash size) d n = .ok wl) {r : Lossy} (hr : r.data.length = len) (hf : r.first.length = len)
    (hrel : RelL size n len (d, wl) r) {l : List (Watcher w)} (hw : Spec.Watched len off l) :
    ∃ a, start size n len off d l = .ok a ∧ GoodAny size n len off a r := by
  have hread := Wear.holds_read hl hrel.1
  simp only at hread
  obtain ⟨l', h1, h2⟩ := init_ok (settings size off) ⟨r.data, (d, wl), false⟩ l 0
  obtain ⟨f, -, -⟩ := Watcher.C62_fresh (settings size off) (settings_quiet size off) ⟨r.data, (d, wl), false⟩ 0 l
  obtain ⟨f1, f2, f3⟩ := f none l' h1
  refine ⟨⟨⟨r.data, (d, wl), false⟩, l'⟩, ?_, rfl, hr, hf, rfl, hrel, f1, ?_⟩
  · rw [start, hi, Res.ok_bind]
    simp only [hread, h1, Res.ok_bind, Res.pure_eq]
  · refine watched_of_map hw f2 ?_
    intro x hx
    obtain ⟨y, hy, e1, e2⟩ := h2 x hx
    rw [e1, e2]; exact hw.1 y hy

theorem goodAny_acts {size n len : Nat} (hn : n < 256) (h0 : 0 < len) (hl : len ≤ size) (off : Nat → Nat) (xs : List (Act w)) :
    ∀ (a : App w) (r : Lossy), GoodAny size n len off a r → (∀ s ts, Act.change s ts ∈ xs → s.length = len) →
      ∃ b, acts size n len off a xs = .ok b ∧ GoodAny size n len off b ((Spec.memOps xs).foldl (Lossy.step n) r) := by
  induction xs with
  | nil => intro a r hg _; exact ⟨a, rfl, hg⟩
  | cons x xs ih =>
    intro a r hg hx
    have hx' : ∀ s ts, Act.change s ts ∈ xs → s.length = len := fun s ts hm => hx s ts (List.mem_cons_of_mem _ hm)
    cases x with
    | restart =>
      obtain ⟨g1, g2, gf, g3, g4, g5, g6⟩ := hg
      obtain ⟨s', e1, e2⟩ := Wear.relL_restart hn g4
      rw [Wear.step, g4.1.2.1, Res.bind_eq_ok] at e1
      obtain ⟨wl', i1, i2⟩ := e1
      injection i2 with i2
      subst i2
      obtain ⟨k1, k2⟩ := lossy_length (n := n) g2 gf .restart (fun x hx => by cases hx)
      obtain ⟨a', j1, j2⟩ := goodAny_start (w := w) hl off i1 k1 k2 e2 g6
      obtain ⟨b, b1, b2⟩ := ih a' _ j2 hx'
      exact ⟨b, by rw [acts, act, j1, Res.ok_bind]; exact b1, b2⟩
    | change s ts =>
      obtain ⟨a', j1, j2⟩ := goodAny_change hn h0 hl off hg (hx s ts List.mem_cons_self) ts
      obtain ⟨b, b1, b2⟩ := ih a' _ j2 hx'
      exact ⟨b, by rw [acts, j1, Res.ok_bind]; exact b1, b2⟩

/-- **C241.** From a memory with equal markers, in every history of changes and power losses: the settings in RAM, also those
read at power-up, are those of the lossy memory of C239, and so is the record; no write has undefined behaviour. -/
theorem C241_exact (size n len : Nat) (d : List Block) (hd : Fits size n d) (hn0 : 0 < n) (hn : n < 256) (h0 : 0 < len)
    (hl : len ≤ size) (mk : BitVec 8) (hm : ∀ b ∈ d, b.marker = mk) (off : Nat → Nat) (l : List (Watcher w))
    (hw : Spec.Watched len off l) :
    ∃ a, start size n len off d l = .ok a ∧ a.mem.ram.length = len ∧
      ∀ xs : List (Act w), (∀ s ts, Act.change s ts ∈ xs → s.length = len) →
        ∃ b, acts size n len off a xs = .ok b ∧
          b.mem.ram = ((Spec.memOps xs).foldl (Lossy.step n) ⟨a.mem.ram, a.mem.ram, .healthy 0⟩).data ∧
          Wear.read (flash size) b.mem.dev.1 b.mem.dev.2 len = (0, b.mem.ram) ∧ b.mem.bad = false := by
  obtain ⟨wl, e, h, hh, hc, b, hm1, hm2⟩ := Wear.rel_start len hd hn0 hn mk hm
  have hlast : wl.last = 0 := by rw [hc]; simp
  simp only [hlast] at hm1 hm2
  have hlen : (d[0].data.take len).length = len := by
    have := hd.2 d[0] (List.getElem_mem h)
    rw [List.length_take]; omega
  have hr : RelL size n len (d, wl) ⟨d[0].data.take len, d[0].data.take len, .healthy 0⟩ :=
    ⟨hh, ⟨h, rfl⟩, hlast, b, hn0, hm1, hm2⟩
  obtain ⟨a, h1, h2⟩ := goodAny_start hl off e hlen hlen hr hw
  refine ⟨a, h1, by rw [h2.1]; exact hlen, fun xs hx => ?_⟩
  obtain ⟨c, c1, c2⟩ := goodAny_acts hn h0 hl off xs a _ h2 hx
  refine ⟨c, c1, ?_, ?_, c2.2.2.2.1⟩
  · rw [c2.1, h2.1]
  · rw [c2.1]; exact Wear.holds_read hl c2.2.2.2.2.1.1

theorem memOps_changes {w : Nat} (l : List (List (BitVec 8) × BitVec w)) :
    Spec.memOps (l.map fun x => Act.change x.1 x.2) = (l.map Prod.fst).map Wear.Spec.Op.write := by
  induction l with
  | nil => rfl
  | cons x l ih => rw [List.map_cons, Spec.memOps, ih]; rfl

theorem memOps_append {w : Nat} (xs ys : List (Act w)) : Spec.memOps (xs ++ ys) = Spec.memOps xs ++ Spec.memOps ys := by
  induction xs with
  | nil => rfl
  | cons x xs ih => cases x <;> simp [Spec.memOps, ih]

/-- **C241**, what can go wrong: in the first run the settings are changed as often as there are blocks but one. If power is
lost then, all these changes are lost: the settings are those of the first start. -/
theorem C241_lost_wrong (size n len : Nat) (d : List Block) (hd : Fits size n d) (hn1 : 1 < n) (hn : n < 256) (h0 : 0 < len)
    (hl : len ≤ size) (mk : BitVec 8) (hm : ∀ b ∈ d, b.marker = mk) (off : Nat → Nat) (l : List (Watcher w))
    (hw : Spec.Watched len off l) :
    ∃ a, start size n len off d l = .ok a ∧
      ∀ cs : List (List (BitVec 8) × BitVec w), (∀ c ∈ cs, c.1.length = len) → cs.length = n - 1 →
        Wear.AllChange a.mem.ram (cs.map Prod.fst) →
        ∃ b, acts size n len off a (cs.map (fun c => .change c.1 c.2) ++ [.restart]) = .ok b ∧ b.mem.ram = a.mem.ram := by
  obtain ⟨a, h1, h2, h3⟩ := C241_exact size n len d hd (by omega) hn h0 hl mk hm off l hw
  refine ⟨a, h1, fun cs hc hlen hch => ?_⟩
  obtain ⟨b, b1, b2, -, -⟩ := h3 (cs.map (fun c => .change c.1 c.2) ++ [.restart]) (by
    intro s ts hs
    rw [List.mem_append, List.mem_map] at hs
    rcases hs with ⟨c, hc', e⟩ | hs
    · cases e; exact hc c hc'
    · simp at hs)
  refine ⟨b, b1, ?_⟩
  rw [b2, memOps_append, memOps_changes, List.foldl_append]
  have g1 := Wear.writes_phase n (cs.map Prod.fst) ⟨a.mem.ram, a.mem.ram, .healthy 0⟩ hch
  have g2 := Wear.writes_first n (cs.map Prod.fst) ⟨a.mem.ram, a.mem.ram, .healthy 0⟩ hch (by
    intro i hi
    rw [List.length_map] at hi
    rw [Wear.iter_healthy _ _ (by omega), Wear.Spec.Phase.pos, Nat.mod_eq_of_lt (by omega)]
    omega)
  generalize ((cs.map Prod.fst).map Wear.Spec.Op.write).foldl (Lossy.step n) ⟨a.mem.ram, a.mem.ram, .healthy 0⟩ = t at *
  obtain ⟨u, v, p⟩ := t
  simp only at g1 g2
  subst g1 g2
  have h3 : ¬ n - 1 + 1 < n := by omega
  have h4 : 0 ≠ n - 1 := by omega
  rw [List.length_map, hlen, Wear.iter_healthy _ _ (by omega), Nat.zero_add, Nat.mod_eq_of_lt (by omega)]
  simp [Spec.memOps, Lossy.step, Wear.Spec.Phase.restart, Wear.Spec.Phase.pos, h3, h4]

/-- Four bytes of settings in two halves, three blocks: two changes and a power loss bring back the settings of the first
start; a change and a power loss do not. -/
example : (do
    let a ← start 4 3 4 (fun i => 2 * i) (List.replicate 3 ⟨0xff, [1, 2, 3, 4]⟩)
      [Watcher.make 32 false 2 0, Watcher.make 32 false 2 0]
    let b ← acts 4 3 4 (fun i => 2 * i) a [.change [1, 9, 3, 4] 100, .change [1, 9, 3, 5] 200, .restart]
    let c ← acts 4 3 4 (fun i => 2 * i) a [.change [1, 9, 3, 4] 100, .restart]
    pure (b.mem.ram, c.mem.ram)) = (.ok ([1, 2, 3, 4], [1, 9, 3, 4]) : Res (List (BitVec 8) × List (BitVec 8))) := by
  decide +kernel

end Gel.Combined
