import Verif.Combined.Late
import Verif.Combined.AutosaveAny

/-!
# Settings that are saved when they have stopped changing, with any power losses: property C245

The application of C227 (`Combined/Late.lean`). There power is not lost while the last of several blocks is in use; here it may be
lost at any time between two calls of `watcher_process_changes`.
-/
namespace Gel.Combined
open Watcher (Watcher)
open Wear.Spec (Block flash Fits Lossy)
open Wear (Wlm RelL)

namespace Spec

/-- The settings, the lossy memory (C239), and since when each watcher's bytes have not changed, as long as they are not saved. -/
structure Kept where
  ram : List (BitVec 8)
  mem : Lossy
  since : Nat → Option Int

/-- The same without the history of the memory. -/
def Kept.now (k : Kept) : Saved := ⟨k.ram, k.mem.data, 0, k.since⟩

def keptStep (n : Nat) (decl : List Decl) (k : Kept) : Late → Kept
  | .poll s t =>
    { ram := s
      mem := if anyDue decl k.now s t then k.mem.step n (.write s) else k.mem
      since := (lateStep decl k.now (.poll s t)).since }
  | .restart => ⟨(k.mem.step n .restart).data, k.mem.step n .restart, fun _ => none⟩

def keeps (n : Nat) (decl : List Decl) : Kept → List Late → Kept := List.foldl (keptStep n decl)

/-- At the first start. -/
def Kept.new (r : List (BitVec 8)) : Kept := ⟨r, ⟨r, r, .healthy 0⟩, fun _ => none⟩

end Spec

open Spec (Kept)

/-- What holds after every step. -/
structure LateAny (w size n len : Nat) (decl : List Decl) (last : Option Int) (a : App w) (k : Kept) : Prop where
  ram : a.mem.ram = k.ram
  rlen : k.ram.length = len
  bad : a.mem.bad = false
  rel : RelL size n len a.mem.dev k.mem
  dlen : k.mem.data.length = len
  flen : k.mem.first.length = len
  count : a.watchers.length = decl.length
  each : ∀ (i : Nat) e x, decl[i]? = some e → a.watchers[i]? = some x → WHolds w e k.ram last (k.since i) x

theorem lateAny_poll {w size n len : Nat} (hn : n < 256) (h0 : 0 < len) (hl : len ≤ size) {decl : List Decl}
    (hd : ∀ e ∈ decl, 2 * e.delay < 2 ^ w) {last : Option Int} {a : App w} {k : Kept} (hg : LateAny w size n len decl last a k)
    {s : List (BitVec 8)} (hs : s.length = len) {t : Int} (ht : ∀ l, last = some l → l ≤ t ∧ 2 * (t - l) ≤ 2 ^ w) :
    ∃ b, lateAct w size n len decl a (.poll s t) = .ok b ∧
      LateAny w size n len decl (some t) b (Spec.keptStep n decl k (.poll s t)) := by
  obtain ⟨g1, g2, g3, g4, g5, gf, g6, g7⟩ := hg
  obtain ⟨hc, hlist, each⟩ := late_watch (size := size) (k := k.now) hd g6 g7 { a.mem with ram := s } ht
  have hdev : ∃ dev, (Watcher.process (settings size (offs decl)) { a.mem with ram := s } (Time.stamp w t) 0 a.watchers).mem =
      ⟨s, dev, false⟩ ∧ RelL size n len dev (Spec.keptStep n decl k (.poll s t)).mem := by
    rw [process_mem]
    by_cases hcall : (Watcher.process (settings size (offs decl)) { a.mem with ram := s } (Time.stamp w t) 0 a.watchers).calls = []
    · have hno : ¬ Spec.anyDue decl k.now s t = true := fun c => hc.2 c hcall
      refine ⟨a.mem.dev, ?_, ?_⟩
      · rw [hcall, List.foldl_nil, ← g3]
      · simp only [Spec.keptStep, hno, if_false, Bool.false_eq_true]
        exact g4
    · have hyes := hc.1 hcall
      obtain ⟨dev, e1, e2⟩ := save_any hn h0 hl (offs decl) _ { a.mem with ram := s } k.mem g3 hs g4 (.inl hcall)
      refine ⟨dev, e1, ?_⟩
      simp only [Spec.keptStep]
      rw [if_pos hyes]
      exact e2
  obtain ⟨dev, d1, d2⟩ := hdev
  obtain ⟨k1, k2⟩ := lossy_length (n := n) g5 gf (.write s) (fun x hx => by cases hx; exact hs)
  refine ⟨_, rfl, ?_, hs, ?_, ?_, ?_, ?_, hlist, ?_⟩
  · simp only [d1]; rfl
  · simp only [d1]
  · simp only [d1]; exact d2
  · simp only [Spec.keptStep]; split_ifs
    · exact k1
    · exact g5
  · simp only [Spec.keptStep]; split_ifs
    · exact k2
    · exact gf
  · intro i e x he hx
    simp only [Spec.keptStep, Spec.lateStep, he]
    exact each i e x he hx

theorem lateAny_start {w size n len : Nat} (hl : len ≤ size) (decl : List Decl) {d : List Block} {wl : Wlm}
    (hi : Wear.init (flash size) d n = .ok wl) {r : Lossy} (hr : r.data.length = len) (hf : r.first.length = len)
    (hrel : RelL size n len (d, wl) r) :
    ∃ a, start size n len (offs decl) d (declared w decl) = .ok a ∧
      LateAny w size n len decl none a ⟨r.data, r, fun _ => none⟩ := by
  have hread := Wear.holds_read hl hrel.1
  simp only at hread
  have h1 := (Watcher.C124_static (settings size (offs decl)) ⟨r.data, (d, wl), false⟩ 0 (declared w decl)).1
  refine ⟨⟨⟨r.data, (d, wl), false⟩, Watcher.stored (settings size (offs decl)) ⟨r.data, (d, wl), false⟩ 0 (declared w decl)⟩, ?_,
    rfl, hr, rfl, hrel, hr, hf, ?_, ?_⟩
  · rw [start, hi, Res.ok_bind]
    simp only [hread, h1, Res.ok_bind, Res.pure_eq]
  · have hl : ∀ (l : List (Watcher w)) i m, (Watcher.stored (settings size (offs decl)) m i l).length = l.length := by
      intro l
      induction l with
      | nil => exact fun _ _ => rfl
      | cons y ys ih => exact fun _ _ => congrArg (· + 1) (ih _ _)
    simp only [hl, declared, List.length_map]
  · intro i e x he hx
    simp only [Watcher.stored_get, Nat.zero_add, declared, List.getElem?_map, he, Option.map_some, Option.some.injEq] at hx
    subst hx
    refine ⟨rfl, rfl, ?_, rfl, fun u hu => by cases hu⟩
    simp only [Watcher.now, settings, offs, he, Option.map_some, Option.getD_some]
    rfl

theorem lateAny_acts {w size n len : Nat} (hn : n < 256) (h0 : 0 < len) (hl : len ≤ size) {decl : List Decl}
    (hd : ∀ e ∈ decl, 2 * e.delay < 2 ^ w) (xs : List Late) : ∀ (last : Option Int) (a : App w) (k : Kept),
      LateAny w size n len decl last a k → (∀ s t, Late.poll s t ∈ xs → s.length = len) → Spec.Times w last xs →
      ∃ b last', lateActs w size n len decl a xs = .ok b ∧ LateAny w size n len decl last' b (Spec.keeps n decl k xs) := by
  induction xs with
  | nil => intro last a k hg _ _; exact ⟨a, last, rfl, hg⟩
  | cons x xs ih =>
    intro last a k hg hx ht
    have hx' : ∀ s t, Late.poll s t ∈ xs → s.length = len := fun s t hm => hx s t (List.mem_cons_of_mem _ hm)
    cases x with
    | restart =>
      obtain ⟨s', e1, e2⟩ := Wear.relL_restart hn hg.rel
      rw [Wear.step, hg.rel.1.2.1, Res.bind_eq_ok] at e1
      obtain ⟨wl', i1, i2⟩ := e1
      injection i2 with i2
      subst i2
      obtain ⟨k1, k2⟩ := lossy_length (n := n) hg.dlen hg.flen .restart (fun x hx => by cases hx)
      obtain ⟨a', j1, j2⟩ := lateAny_start (w := w) hl decl i1 k1 k2 e2
      obtain ⟨b, l', b1, b2⟩ := ih none a' _ j2 hx' ht
      exact ⟨b, l', by rw [lateActs, lateAct, j1, Res.ok_bind]; exact b1, b2⟩
    | poll s t =>
      obtain ⟨a', j1, j2⟩ := lateAny_poll hn h0 hl hd hg (hx s t List.mem_cons_self) ht.1
      obtain ⟨b, l', b1, b2⟩ := ih (some t) a' _ j2 hx' ht.2
      exact ⟨b, l', by rw [lateActs, j1, Res.ok_bind]; exact b1, b2⟩

/-- **C245.** From a memory with equal markers, in every history of polls and power losses: the settings in RAM and the saved ones
are those of the specification with the lossy memory of C239; no write has undefined behaviour. -/
theorem C245_exact (w size n len : Nat) (d : List Block) (hd : Fits size n d) (hn0 : 0 < n) (hn : n < 256) (h0 : 0 < len)
    (hl : len ≤ size) (mk : BitVec 8) (hm : ∀ b ∈ d, b.marker = mk) (decl : List Decl) (hdl : ∀ e ∈ decl, 2 * e.delay < 2 ^ w) :
    ∃ a, start size n len (offs decl) d (declared w decl) = .ok a ∧ a.mem.ram.length = len ∧ ∀ xs : List Late,
      (∀ s t, Late.poll s t ∈ xs → s.length = len) → Spec.Times w none xs →
      ∃ b, lateActs w size n len decl a xs = .ok b ∧
        b.mem.ram = (Spec.keeps n decl (.new a.mem.ram) xs).ram ∧
        Wear.read (flash size) b.mem.dev.1 b.mem.dev.2 len = (0, (Spec.keeps n decl (.new a.mem.ram) xs).mem.data) ∧
        b.mem.bad = false := by
  obtain ⟨wl, e, h, hh, hc, b, hm1, hm2⟩ := Wear.rel_start len hd hn0 hn mk hm
  have hlast : wl.last = 0 := by rw [hc]; simp
  simp only [hlast] at hm1 hm2
  have hlen : (d[0].data.take len).length = len := by
    have := hd.2 d[0] (List.getElem_mem h)
    rw [List.length_take]; omega
  have hr : RelL size n len (d, wl) ⟨d[0].data.take len, d[0].data.take len, .healthy 0⟩ :=
    ⟨hh, ⟨h, rfl⟩, hlast, b, hn0, hm1, hm2⟩
  obtain ⟨a, h1, h2⟩ := lateAny_start (w := w) hl decl e hlen hlen hr
  refine ⟨a, h1, by rw [h2.ram]; exact hlen, fun xs hx ht => ?_⟩
  obtain ⟨c, l', c1, c2⟩ := lateAny_acts hn h0 hl hdl xs none a _ h2 hx ht
  have e : Kept.new a.mem.ram = ⟨d[0].data.take len, ⟨d[0].data.take len, d[0].data.take len, .healthy 0⟩, fun _ => none⟩ := by
    rw [h2.ram, Kept.new]
  rw [e]
  exact ⟨c, c1, c2.ram, Wear.holds_read hl c2.rel.1, c2.bad⟩

/-! ## What the specification says -/

theorem keeps_append {n : Nat} {decl : List Decl} (k : Kept) (xs ys : List Late) :
    Spec.keeps n decl k (xs ++ ys) = Spec.keeps n decl (Spec.keeps n decl k xs) ys := List.foldl_append

theorem last_restart : ∀ xs : List Late, Late.restart ∉ xs ∨ ∃ ys zs, xs = ys ++ .restart :: zs ∧ Late.restart ∉ zs
  | [] => .inl (by simp)
  | x :: xs => by
    rcases last_restart xs with h | ⟨ys, zs, h1, h2⟩
    · cases x with
      | restart => exact .inr ⟨[], xs, rfl, h⟩
      | poll s t => exact .inl (by simp [h])
    · exact .inr ⟨x :: ys, zs, by rw [h1]; rfl, h2⟩

theorem times_after {w : Nat} (zs : List Late) : ∀ (ys : List Late) (last : Option Int), Spec.Times w last (ys ++ .restart :: zs) →
    Spec.Times w none zs
  | [], _, h => h
  | .poll _ _ :: ys, _, h => times_after zs ys _ h.2
  | .restart :: ys, _, h => times_after zs ys _ h

/-- While power is not lost the memory is that of C227. -/
theorem kept_polls {n : Nat} {decl : List Decl} : ∀ (xs : List Late) (k : Kept) (c : Nat), Late.restart ∉ xs →
    (Spec.late decl ⟨k.ram, k.mem.data, c, k.since⟩ xs).saved = (Spec.keeps n decl k xs).mem.data
  | [], _, _, _ => rfl
  | .restart :: xs, _, _, h => absurd List.mem_cons_self h
  | .poll s t :: xs, k, c, h => by
    have ih := fun c => kept_polls (n := n) (decl := decl) xs (Spec.keptStep n decl k (.poll s t)) c (fun m => h (List.mem_cons_of_mem _ m))
    rw [Spec.keeps, List.foldl_cons]
    rw [Spec.keeps] at ih
    rw [← ih (Spec.lateStep decl ⟨k.ram, k.mem.data, c, k.since⟩ (.poll s t)).writes, Spec.late, List.foldl_cons]
    congr 2
    have hd : (Spec.keptStep n decl k (.poll s t)).mem.data = if Spec.anyDue decl ⟨k.ram, k.mem.data, c, k.since⟩ s t then s else k.mem.data := by
      have : Spec.anyDue decl ⟨k.ram, k.mem.data, c, k.since⟩ s t = Spec.anyDue decl k.now s t := rfl
      rw [this]
      simp only [Spec.keptStep]
      split_ifs
      · exact lossy_data n k.mem s
      · rfl
    rw [hd]
    rfl

theorem kept_length {n len : Nat} {decl : List Decl} : ∀ (xs : List Late) (k : Kept), (∀ s t, Late.poll s t ∈ xs → s.length = len) →
    k.mem.data.length = len → k.mem.first.length = len →
    (Spec.keeps n decl k xs).mem.data.length = len ∧ (Spec.keeps n decl k xs).mem.first.length = len
  | [], _, _, h1, h2 => ⟨h1, h2⟩
  | .restart :: xs, k, hx, h1, h2 => by
    obtain ⟨k1, k2⟩ := lossy_length (n := n) h1 h2 .restart (fun x hx => by cases hx)
    exact kept_length xs (Spec.keptStep n decl k .restart) (fun s t hm => hx s t (List.mem_cons_of_mem _ hm)) k1 k2
  | .poll s t :: xs, k, hx, h1, h2 => by
    obtain ⟨k1, k2⟩ := lossy_length (n := n) h1 h2 (.write s) (fun x e => by cases e; exact hx s t List.mem_cons_self)
    refine kept_length xs (Spec.keptStep n decl k (.poll s t)) (fun s t hm => hx s t (List.mem_cons_of_mem _ hm)) ?_ ?_
    · simp only [Spec.keptStep]; split_ifs
      · exact k1
      · exact h1
    · simp only [Spec.keptStep]; split_ifs
      · exact k2
      · exact h2

/-- **C245.** Settings that stop changing are saved, whatever power losses were before: after a poll at `t0` and any polls later that
find the settings unchanged, the last of them when all delays are over, the saved settings are those in RAM. -/
theorem C245_saved {w n len : Nat} {decl : List Decl} (hc : Spec.Covered len decl) (r : List (BitVec 8)) (xs : List Late)
    (hr : r.length = len) (hx : ∀ s t, Late.poll s t ∈ xs → s.length = len) {s : List (BitVec 8)} (hs : s.length = len) {t0 t : Int}
    (ps : List Int) (ht : Spec.Times w none (xs ++ .poll s t0 :: polls s ps ++ [.poll s t])) (hd : ∀ e ∈ decl, t0 + e.delay ≤ t) :
    (Spec.keeps n decl (.new r) (xs ++ .poll s t0 :: polls s ps ++ [.poll s t])).mem.data = s := by
  have hno : Late.restart ∉ polls s ps := by simp [polls]
  rcases last_restart xs with h | ⟨ys, zs, rfl, h⟩
  · rw [← kept_polls _ _ 0 (by simp [h, hno])]
    exact C227_saved hc r xs hr hx hs ps ht hd
  · have e : ys ++ .restart :: zs ++ .poll s t0 :: polls s ps ++ [.poll s t] =
        (ys ++ [.restart]) ++ (zs ++ .poll s t0 :: polls s ps ++ [.poll s t]) := by simp
    have hy : ∀ u v, Late.poll u v ∈ ys → u.length = len := fun u v m => hx u v (by simp [m])
    have hz : ∀ u v, Late.poll u v ∈ zs → u.length = len := fun u v m => hx u v (by simp [m])
    obtain ⟨k1, k2⟩ := kept_length (n := n) (decl := decl) ys (.new r) hy hr hr
    have hk := (lossy_length (n := n) k1 k2 .restart (fun x hx => by cases hx)).1
    have ht' : Spec.Times w none (zs ++ .poll s t0 :: polls s ps ++ [.poll s t]) :=
      times_after _ ys none (by simpa using ht)
    rw [e, keeps_append _ (ys ++ [Late.restart]), keeps_append _ ys]
    have := kept_polls (n := n) (decl := decl) (zs ++ .poll s t0 :: polls s ps ++ [.poll s t])
      (Spec.keeps n decl (Spec.keeps n decl (.new r) ys) [.restart]) 0 (by simp [h, hno])
    rw [← this]
    exact C227_saved hc _ zs hk hz hs ps ht' hd

/-- A poll with new settings and one later when the delays are over. -/
def twice (c : List (BitVec 8) × Int × Int) : List Late := [.poll c.1 c.2.1, .poll c.1 c.2.2]

/-- They write the settings. -/
theorem keeps_twice {n len : Nat} {decl : List Decl} (hc : Spec.Covered len decl) {k : Kept} (hr : k.ram = k.mem.data)
    (hk : k.mem.data.length = len) {c : List (BitVec 8) × Int × Int} (hs : c.1.length = len) (hd : ∀ e ∈ decl, c.2.1 + e.delay ≤ c.2.2)
    (hb : ∀ i u, k.since i = some u → u ≤ c.2.1) :
    (Spec.keeps n decl k (twice c)).mem = k.mem.step n (.write c.1) ∧ (Spec.keeps n decl k (twice c)).ram = c.1 := by
  obtain ⟨s, t0, t⟩ := c
  simp only at hs hd hb
  refine ⟨?_, rfl⟩
  have two : ∀ q : Kept, q.mem = k.mem.step n (.write s) → (Spec.keptStep n decl q (.poll s t)).mem = k.mem.step n (.write s) := by
    intro q hq
    simp only [Spec.keptStep]
    split_ifs
    · rw [hq, lossy_again]
    · exact hq
  rw [twice, Spec.keeps, List.foldl_cons, List.foldl_cons, List.foldl_nil]
  by_cases h1 : Spec.anyDue decl k.now s t0 = true
  · exact two _ (by simp only [Spec.keptStep]; rw [if_pos h1])
  · by_cases he : s = k.mem.data
    · refine two _ ?_
      simp only [Spec.keptStep]
      rw [if_neg h1, Lossy.step, if_pos he]
    · have hm : (Spec.keptStep n decl k (.poll s t0)).mem = k.mem := by simp only [Spec.keptStep]; rw [if_neg h1]
      have hdue : Spec.anyDue decl (Spec.keptStep n decl k (.poll s t0)).now s t = true := by
        by_contra hno
        refine he (parts_eq hc hs hk fun e hm => ?_)
        obtain ⟨i, hi⟩ := List.getElem?_of_mem hm
        by_contra hne
        refine hno (anyDue_of hi ?_)
        have hnd : ¬ Spec.due e k.ram s t0 (k.since i) = true := fun d => h1 (anyDue_of (k := k.now) hi d)
        have hsince : (Spec.keptStep n decl k (.poll s t0)).since i = some t0 := by
          simp only [Spec.keptStep, Spec.lateStep, hi, Spec.since, Kept.now, Bool.eq_false_iff.2 hnd, Bool.false_eq_true, if_false]
          exact if_pos (by rw [hr]; exact fun h => hne h.symm)
        rw [Spec.due.eq_def]
        simp only [Kept.now, hsince]
        rw [if_neg (by simp [Spec.keptStep])]
        simpa using hd e hm
      show (if Spec.anyDue decl (Spec.keptStep n decl k (.poll s t0)).now s t then _ else _) = _
      rw [if_pos hdue, hm]

theorem keeps_all {w n len : Nat} {decl : List Decl} (hc : Spec.Covered len decl) : ∀ (cs : List (List (BitVec 8) × Int × Int)) (last : Option Int)
    (k : Kept), k.ram = k.mem.data → k.mem.data.length = len → (∀ i u, k.since i = some u → ∃ l, last = some l ∧ u ≤ l) →
      (∀ c ∈ cs, c.1.length = len) → (∀ c ∈ cs, ∀ e ∈ decl, c.2.1 + e.delay ≤ c.2.2) → Spec.Times w last (cs.flatMap twice) →
      (Spec.keeps n decl k (cs.flatMap twice)).mem = ((cs.map Prod.fst).map Wear.Spec.Op.write).foldl (Lossy.step n) k.mem
  | [], _, _, _, _, _, _, _, _ => rfl
  | c :: cs, last, k, h1, h2, h3, h4, h5, ht => by
    have hs := h4 c List.mem_cons_self
    rw [List.flatMap_cons] at ht ⊢
    obtain ⟨t1, t2, t3⟩ := ht
    have hb : ∀ i u, k.since i = some u → u ≤ c.2.1 := by
      intro i u hu
      obtain ⟨l, e, hl⟩ := h3 i u hu
      have := (t1 l e).1
      omega
    obtain ⟨g1, g2⟩ := keeps_twice (n := n) hc h1 h2 hs (h5 c List.mem_cons_self) hb
    have hle := (t2 c.2.1 rfl).1
    have hsince : ∀ i u, (Spec.keeps n decl k (twice c)).since i = some u → ∃ l, some c.2.2 = some l ∧ u ≤ l := by
      have one : ∀ (q : Kept) (t : Int), (∀ i u, q.since i = some u → u ≤ t) →
          ∀ i u, (Spec.keptStep n decl q (.poll c.1 t)).since i = some u → u ≤ t := by
        intro q t hq i u hu
        simp only [Spec.keptStep, Spec.lateStep] at hu
        cases he : decl[i]? with
        | none => rw [he] at hu; cases hu
        | some e =>
          simp only [he, Spec.since] at hu
          split_ifs at hu
          · cases hu; exact le_refl _
          · exact hq i u hu
      intro i u hu
      refine ⟨_, rfl, one (Spec.keptStep n decl k (.poll c.1 c.2.1)) c.2.2 (fun i u hu => ?_) i u hu⟩
      have := one k c.2.1 hb i u hu
      omega
    have := keeps_all (n := n) hc cs (some c.2.2) (Spec.keeps n decl k (twice c)) (by rw [g1, g2, lossy_data]) (by rw [g1, lossy_data]; exact hs)
      hsince (fun c hm => h4 c (List.mem_cons_of_mem _ hm)) (fun c hm => h5 c (List.mem_cons_of_mem _ hm)) t3
    rw [List.map_cons, List.map_cons, List.foldl_cons, ← g1, ← this, keeps_append]

/-- **C245**, what can go wrong: in the first run new settings are saved as often as there are blocks but one, each after its delay. If
power is lost then, all of them are lost: the settings are those of the first start. -/
theorem C245_lost_wrong (w size n len : Nat) (d : List Block) (hd : Fits size n d) (hn1 : 1 < n) (hn : n < 256) (h0 : 0 < len)
    (hl : len ≤ size) (mk : BitVec 8) (hm : ∀ b ∈ d, b.marker = mk) (decl : List Decl) (hdl : ∀ e ∈ decl, 2 * e.delay < 2 ^ w)
    (hc : Spec.Covered len decl) :
    ∃ a, start size n len (offs decl) d (declared w decl) = .ok a ∧
      ∀ cs : List (List (BitVec 8) × Int × Int), (∀ c ∈ cs, c.1.length = len) → (∀ c ∈ cs, ∀ e ∈ decl, c.2.1 + e.delay ≤ c.2.2) →
        Spec.Times w none (cs.flatMap twice ++ [.restart]) → cs.length = n - 1 → Wear.AllChange a.mem.ram (cs.map Prod.fst) →
        (∃ b, lateActs w size n len decl a (cs.flatMap twice) = .ok b ∧
          ∀ c, cs.getLast? = some c → Wear.read (flash size) b.mem.dev.1 b.mem.dev.2 len = (0, c.1)) ∧
        ∃ b, lateActs w size n len decl a (cs.flatMap twice ++ [.restart]) = .ok b ∧ b.mem.ram = a.mem.ram := by
  obtain ⟨a, h1, h2, h3⟩ := C245_exact w size n len d hd (by omega) hn h0 hl mk hm decl hdl
  refine ⟨a, h1, fun cs hs hdel ht hlen hch => ?_⟩
  have hx : ∀ s t, Late.poll s t ∈ cs.flatMap twice → s.length = len := by
    intro s t hmem
    rw [List.mem_flatMap] at hmem
    obtain ⟨c, hc', e⟩ := hmem
    simp only [twice, List.mem_cons, Late.poll.injEq, List.not_mem_nil, or_false] at e
    rcases e with e | e <;> (rw [e.1]; exact hs c hc')
  have ht' : ∀ (xs : List Late) (last : Option Int), Spec.Times w last (xs ++ [.restart]) → Spec.Times w last xs := by
    intro xs
    induction xs with
    | nil => intro _ _; trivial
    | cons x xs ih =>
      intro last h
      cases x with
      | restart => exact ih _ h
      | poll s t => exact ⟨h.1, ih _ h.2⟩
  have hall := keeps_all (w := w) (n := n) hc cs none (.new a.mem.ram) rfl h2 (fun i u hu => by cases hu) hs hdel (ht' _ _ ht)
  constructor
  · obtain ⟨b, b1, -, b3, -⟩ := h3 (cs.flatMap twice) hx (ht' _ _ ht)
    refine ⟨b, b1, fun c hl => ?_⟩
    rw [b3, hall]
    obtain ⟨ys, rfl⟩ := List.getLast?_eq_some_iff.1 hl
    rw [List.map_append, List.map_append, List.foldl_append]
    exact congrArg _ (lossy_data n _ c.1)
  · obtain ⟨b, b1, b2, -, -⟩ := h3 (cs.flatMap twice ++ [.restart]) (by
      intro s t hmem
      rw [List.mem_append] at hmem
      rcases hmem with hmem | hmem
      · exact hx s t hmem
      · simp at hmem) ht
    refine ⟨b, b1, ?_⟩
    rw [b2, Spec.keeps, List.foldl_append, List.foldl_cons, List.foldl_nil]
    rw [Spec.keeps] at hall
    show (Lossy.step n (List.foldl (Spec.keptStep n decl) (.new a.mem.ram) (cs.flatMap twice)).mem .restart).data = _
    rw [hall, Kept.new]
    simp only
    have g1 := Wear.writes_phase n (cs.map Prod.fst) ⟨a.mem.ram, a.mem.ram, .healthy 0⟩ hch
    have g2 := Wear.writes_first n (cs.map Prod.fst) ⟨a.mem.ram, a.mem.ram, .healthy 0⟩ hch (by
      intro i hi
      rw [List.length_map] at hi
      rw [Wear.iter_healthy _ _ (by omega), Wear.Spec.Phase.pos, Nat.mod_eq_of_lt (by omega)]
      omega)
    generalize ((cs.map Prod.fst).map Wear.Spec.Op.write).foldl (Lossy.step n) ⟨a.mem.ram, a.mem.ram, .healthy 0⟩ = t at *
    obtain ⟨u, v, p⟩ := t
    simp only at g1 g2
    subst g1 g2
    have h3 : ¬ n - 1 + 1 < n := by omega
    have h4 : 0 ≠ n - 1 := by omega
    rw [List.length_map, hlen, Wear.iter_healthy _ _ (by omega), Nat.zero_add, Nat.mod_eq_of_lt (by omega)]
    simp [Lossy.step, Wear.Spec.Phase.restart, Wear.Spec.Phase.pos, h3, h4]

/-! ## Example: the settings of `exDecl` in three blocks -/

-- saved twice: the power loss brings back the settings of the first start, not those saved first
example : exLate [.poll [5, 2] 100, .poll [5, 2] 110, .poll [6, 2] 120, .poll [6, 2] 130] = .ok ([6, 2], [6, 2], 2) := by decide +kernel
example : exLate [.poll [5, 2] 100, .poll [5, 2] 110, .poll [6, 2] 120, .poll [6, 2] 130, .restart] = .ok ([1, 2], [1, 2], 0) := by
  decide +kernel
-- power is lost before the second is saved: the first is found
example : exLate [.poll [5, 2] 100, .poll [5, 2] 110, .poll [6, 2] 120, .poll [6, 2] 129, .restart] = .ok ([5, 2], [5, 2], 1) := by
  decide +kernel

end Gel.Combined
