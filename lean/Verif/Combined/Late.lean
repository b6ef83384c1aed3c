import Verif.Combined.Autosave
import Verif.Watcher.Exact

/-!
# Settings that are saved when they have stopped changing: property C227

The application of C195 with watchers that may have delays: the callback that writes the settings to the wear leveled memory is called when
the watched bytes have not changed for the delay. Power-up finds the watchers as they were declared.
-/
namespace Gel.Combined
open Watcher (Watcher)
open Wear.Spec (Block flash Fits Ideal)
open Wear (Wlm)

/-- A watcher as declared: where its bytes begin in the settings, how many they are, and the delay (`WATCHER_DELAYED_ARRAY`,
gel/data_structures/watcher.h:18-26). -/
structure Decl where
  off : Nat
  size : Nat
  delay : Nat

/-- The settings are `ram` when `watcher_process_changes` is called at time `t`; or power is lost. -/
inductive Late where
  | poll (ram : List (BitVec 8)) (t : Int)
  | restart

/-- The places of the watchers. -/
def offs (decl : List Decl) (i : Nat) : Nat := (decl[i]?.map (·.off)).getD 0

/-- The watchers at power-up, before `watcher_list_init`. -/
def declared (w : Nat) (decl : List Decl) : List (Watcher w) := decl.map fun e => Watcher.make w false e.size e.delay

def lateAct (w size n len : Nat) (decl : List Decl) (a : App w) : Late → Res (App w)
  | .poll ram t =>
    let o := Watcher.process (settings size (offs decl)) { a.mem with ram := ram } (Time.stamp w t) 0 a.watchers
    .ok ⟨o.mem, o.list⟩
  | .restart => start size n len (offs decl) a.mem.dev.1 (declared w decl)

def lateActs (w size n len : Nat) (decl : List Decl) : App w → List Late → Res (App w)
  | a, [] => .ok a
  | a, x :: xs => do
    let a ← lateAct w size n len decl a x
    lateActs w size n len decl a xs

namespace Spec

/-- The settings, the saved ones, how often these changed, and since when each watcher's bytes have not changed, as long as they are not
saved. -/
structure Saved where
  ram : List (BitVec 8)
  saved : List (BitVec 8)
  writes : Nat
  since : Nat → Option Int

def Decl.part (e : Decl) (r : List (BitVec 8)) : List (BitVec 8) := (r.drop e.off).take e.size

/-- Whether the settings are to be saved because of the bytes of `e`: at once if there is no delay, otherwise when they have not changed
for the delay. -/
def due (e : Decl) (old new : List (BitVec 8)) (t : Int) (p : Option Int) : Bool :=
  if Decl.part e old ≠ Decl.part e new then decide (e.delay = 0)
  else match p with
    | some u => decide (u + e.delay ≤ t)
    | none => false

def since (e : Decl) (old new : List (BitVec 8)) (t : Int) (p : Option Int) : Option Int :=
  if due e old new t p then none
  else if Decl.part e old ≠ Decl.part e new then some t else p

/-- Some watcher's bytes are to be saved. -/
def anyDue (decl : List Decl) (k : Saved) (s : List (BitVec 8)) (t : Int) : Bool :=
  (List.range decl.length).any fun i => match decl[i]? with | some e => due e k.ram s t (k.since i) | none => false

def lateStep (decl : List Decl) (k : Saved) : Late → Saved
  | .poll s t =>
    { ram := s
      saved := if anyDue decl k s t then s else k.saved
      writes := if anyDue decl k s t ∧ s ≠ k.saved then k.writes + 1 else k.writes
      since := fun i => match decl[i]? with | some e => since e k.ram s t (k.since i) | none => none }
  | .restart => { k with ram := k.saved, since := fun _ => none }

def late (decl : List Decl) : Saved → List Late → Saved := List.foldl (lateStep decl)

/-- Power is not lost while the last of several blocks is in use (C44). -/
def LateSafe (n : Nat) (decl : List Decl) : Saved → List Late → Prop
  | _, [] => True
  | k, x :: xs => (x = .restart → n = 1 ∨ (k.writes + 1) % n ≠ 0) ∧ LateSafe n decl (lateStep decl k x) xs

/-- Between power losses time does not go back, and two polls are at most half the range of the timestamps apart. -/
def Times (w : Nat) : Option Int → List Late → Prop
  | _, [] => True
  | last, .poll _ t :: xs => (∀ l, last = some l → l ≤ t ∧ 2 * (t - l) ≤ 2 ^ w) ∧ Times w (some t) xs
  | _, .restart :: xs => Times w none xs

/-- Every byte of the settings is watched. -/
def Covered (len : Nat) (decl : List Decl) : Prop := ∀ j < len, ∃ e ∈ decl, e.off ≤ j ∧ j < e.off + e.size

end Spec

/-- What holds of one watcher. -/
structure WHolds (w : Nat) (e : Decl) (r : List (BitVec 8)) (last p : Option Int) (x : Watcher w) : Prop where
  size : x.size = e.size
  delay : x.delay = BitVec.ofNat w e.delay
  old : x.old = Spec.Decl.part e r
  moved : x.moved = p.isSome
  ts : ∀ u, p = some u → e.delay ≠ 0 ∧ x.ts = Time.stamp w u ∧ ∃ l, last = some l ∧ u ≤ l ∧ l < u + e.delay

/-- One watcher, one poll. -/
theorem wHolds_step {w size : Nat} {decl : List Decl} {i : Nat} {e : Decl} (he : decl[i]? = some e) (hd : 2 * e.delay < 2 ^ w)
    {r : List (BitVec 8)} {last p : Option Int} {x : Watcher w} (h : WHolds w e r last p x) (m : Mem) (t : Int)
    (hl : ∀ l, last = some l → l ≤ t ∧ 2 * (t - l) ≤ 2 ^ w) :
    WHolds w e m.ram (some t) (Spec.since e r m.ram t p) (Watcher.step (settings size (offs decl)) m (Time.stamp w t) i x).elem ∧
    (Watcher.step (settings size (offs decl)) m (Time.stamp w t) i x).called = Spec.due e r m.ram t p := by
  obtain ⟨h1, h2, h3, h4, h5⟩ := h
  have hn : ∀ m : Mem, Watcher.now (settings size (offs decl)) m i x = Spec.Decl.part e m.ram := fun m => by
    rw [Watcher.now, settings, h1, Spec.Decl.part]; simp only [offs, he, Option.map_some, Option.getD_some]
  have hcb : ((settings size (offs decl)).cb m i).ram = m.ram := by rw [settings]; simp only; split <;> rfl
  have hpos : x.delay > 0 ↔ e.delay ≠ 0 := by rw [h2]; exact Watcher.delay_pos (by omega)
  by_cases hc : Spec.Decl.part e r = Spec.Decl.part e m.ram
  · cases hp : p with
    | none =>
      have hm : x.moved = false := by rw [h4, hp]; rfl
      simp only [Watcher.step, hn, h3, hc, hm, ne_eq, not_true_eq_false, if_false, Bool.false_eq_true, Spec.since, Spec.due]
      exact ⟨⟨h1, h2, by rw [h3, hc], by rw [hm]; rfl, fun u hu => by cases hu⟩, trivial⟩
    | some u =>
      have hm : x.moved = true := by rw [h4, hp]; rfl
      obtain ⟨d0, ht, l, l1, l2, l3⟩ := h5 u hp
      obtain ⟨g1, g2⟩ := hl l l1
      have hd' : (2 * e.delay : Int) < 2 ^ w := by exact_mod_cast hd
      have hexp : Time.isLooselyExpired x.ts (Time.stamp w t) x.delay = true ↔ u + e.delay ≤ t := by
        have hst : BitVec.ofNat w e.delay = Time.stamp w e.delay := by rw [Time.stamp, BitVec.ofInt_natCast]
        rw [ht, h2, hst]
        exact ((Time.C53_expired w u t e.delay).1 (by omega) (by omega)).1
      by_cases hx : u + e.delay ≤ t
      · have hx' := hexp.2 hx
        simp only [Watcher.step, hn, h3, hc, hm, hx', hx, ne_eq, not_true_eq_false, if_false, if_true, Spec.since, Spec.due, decide_true]
        exact ⟨⟨h1, h2, by simp only [h3, hc], rfl, fun u hu => by cases hu⟩, trivial⟩
      · have hx' : ¬ Time.isLooselyExpired x.ts (Time.stamp w t) x.delay = true := fun c => hx (hexp.1 c)
        simp only [Watcher.step, hn, h3, hc, hm, hx', hx, ne_eq, not_true_eq_false, if_false, if_true, Spec.since, Spec.due, decide_false,
          Bool.false_eq_true]
        refine ⟨⟨h1, h2, by rw [h3, hc], by rw [hm]; rfl, ?_⟩, trivial⟩
        intro v hv
        cases hv
        exact ⟨d0, ht, t, rfl, by omega, by omega⟩
  · by_cases h0 : e.delay = 0
    · have hz : ¬ x.delay > 0 := fun c => hpos.1 c h0
      simp only [Watcher.step, hn, h3, hc, hz, ne_eq, not_false_eq_true, if_true, if_false, Spec.since, Spec.due, h0, decide_true]
      exact ⟨⟨h1, h2, by simp only [hcb], rfl, fun u hu => by cases hu⟩, trivial⟩
    · have hz : x.delay > 0 := hpos.2 h0
      simp only [Watcher.step, hn, h3, hc, hz, ne_eq, not_false_eq_true, if_true, if_false, Spec.since, Spec.due, h0, decide_false,
        Bool.false_eq_true]
      refine ⟨⟨h1, h2, rfl, rfl, ?_⟩, trivial⟩
      intro u hu
      cases hu
      exact ⟨h0, rfl, t, rfl, le_refl _, by omega⟩

/-- What holds after every step. -/
structure LateGood (w size n len : Nat) (decl : List Decl) (last : Option Int) (a : App w) (k : Spec.Saved) : Prop where
  ram : a.mem.ram = k.ram
  rlen : k.ram.length = len
  bad : a.mem.bad = false
  rel : Wear.Rel size n len a.mem.dev ⟨k.saved, k.writes⟩
  slen : k.saved.length = len
  count : a.watchers.length = decl.length
  each : ∀ (i : Nat) e x, decl[i]? = some e → a.watchers[i]? = some x → WHolds w e k.ram last (k.since i) x

/-- All watchers, one poll of the settings in `m`. -/
theorem late_watch {w size : Nat} {decl : List Decl} (hd : ∀ e ∈ decl, 2 * e.delay < 2 ^ w) {last : Option Int} {l : List (Watcher w)}
    {k : Spec.Saved} (g6 : l.length = decl.length)
    (g7 : ∀ (i : Nat) e x, decl[i]? = some e → l[i]? = some x → WHolds w e k.ram last (k.since i) x) (m : Mem) {t : Int}
    (ht : ∀ l, last = some l → l ≤ t ∧ 2 * (t - l) ≤ 2 ^ w) :
    ((Watcher.process (settings size (offs decl)) m (Time.stamp w t) 0 l).calls ≠ [] ↔ Spec.anyDue decl k m.ram t = true) ∧
    (Watcher.process (settings size (offs decl)) m (Time.stamp w t) 0 l).list.length = decl.length ∧
    ∀ (i : Nat) e x, decl[i]? = some e → (Watcher.process (settings size (offs decl)) m (Time.stamp w t) 0 l).list[i]? = some x →
      WHolds w e m.ram (some t) (Spec.since e k.ram m.ram t (k.since i)) x := by
  have hq := settings_quiet size (offs decl)
  obtain ⟨p1, -, p3, -⟩ := Watcher.process_eq hq (Time.stamp w t) m l 0 m (fun _ => rfl)
  have each : ∀ (i : Nat) e x, decl[i]? = some e → l[i]? = some x → _ := fun i e x he hx =>
    wHolds_step (size := size) he (hd e (List.mem_of_getElem? he)) (g7 i e x he hx) m t ht
  refine ⟨?_, ?_, ?_⟩
  · rw [p3, ne_eq, List.map_eq_nil_iff, List.filter_eq_nil_iff, Spec.anyDue, List.any_eq_true, g6]
    simp only [not_forall, not_not, exists_prop]
    constructor
    · rintro ⟨i, hi, hx⟩
      refine ⟨i, hi, ?_⟩
      rw [List.mem_range] at hi
      obtain ⟨e, he⟩ : ∃ e, decl[i]? = some e := ⟨_, List.getElem?_eq_getElem hi⟩
      obtain ⟨x, hx'⟩ : ∃ x, l[i]? = some x := ⟨_, List.getElem?_eq_getElem (by omega)⟩
      rw [hx'] at hx
      simp only [Nat.zero_add] at hx
      rw [he]
      simp only
      rw [← (each i e x he hx').2]
      exact hx
    · rintro ⟨i, hi, hx⟩
      refine ⟨i, hi, ?_⟩
      rw [List.mem_range] at hi
      obtain ⟨e, he⟩ : ∃ e, decl[i]? = some e := ⟨_, List.getElem?_eq_getElem hi⟩
      obtain ⟨x, hx'⟩ : ∃ x, l[i]? = some x := ⟨_, List.getElem?_eq_getElem (by omega)⟩
      rw [he] at hx
      simp only at hx
      rw [hx']
      simp only [Nat.zero_add]
      rw [(each i e x he hx').2]
      exact hx
  · have : ∀ (l : List (Watcher w)) i (m : Mem), (Watcher.process (settings size (offs decl)) m (Time.stamp w t) i l).list.length = l.length := by
      intro l
      induction l with
      | nil => intro i m; rfl
      | cons x xs ih => intro i m; simp only [Watcher.process, List.length_cons, ih]
    rw [this]
    exact g6
  · intro i e x he hx
    simp only [p1, Nat.zero_add, Option.map_eq_some_iff] at hx
    obtain ⟨y, hy, rfl⟩ := hx
    exact (each i e y he hy).1

theorem late_poll {w size n len : Nat} (hn0 : 0 < n) (hn : n < 256) (h0 : 0 < len) (hl : len ≤ size) {decl : List Decl}
    (hd : ∀ e ∈ decl, 2 * e.delay < 2 ^ w) {last : Option Int} {a : App w} {k : Spec.Saved} (hg : LateGood w size n len decl last a k)
    {s : List (BitVec 8)} (hs : s.length = len) {t : Int} (ht : ∀ l, last = some l → l ≤ t ∧ 2 * (t - l) ≤ 2 ^ w) :
    ∃ b, lateAct w size n len decl a (.poll s t) = .ok b ∧ LateGood w size n len decl (some t) b (Spec.lateStep decl k (.poll s t)) := by
  obtain ⟨g1, g2, g3, g4, g5, g6, g7⟩ := hg
  obtain ⟨hc, hlist, each⟩ := late_watch (size := size) hd g6 g7 { a.mem with ram := s } ht
  have hdev : ∃ dev, (Watcher.process (settings size (offs decl)) { a.mem with ram := s } (Time.stamp w t) 0 a.watchers).mem = ⟨s, dev, false⟩ ∧
      Wear.Rel size n len dev ⟨(Spec.lateStep decl k (.poll s t)).saved, (Spec.lateStep decl k (.poll s t)).writes⟩ := by
    rw [process_mem]
    by_cases hcall : (Watcher.process (settings size (offs decl)) { a.mem with ram := s } (Time.stamp w t) 0 a.watchers).calls = []
    · have hno : ¬ Spec.anyDue decl k s t = true := fun c => hc.2 c hcall
      refine ⟨a.mem.dev, ?_, ?_⟩
      · rw [hcall, List.foldl_nil, ← g3]
      · simp only [Spec.lateStep, hno, if_false, false_and, Bool.false_eq_true]
        exact g4
    · have hyes := hc.1 hcall
      obtain ⟨dev, e1, e2⟩ := save_again hn0 hn h0 hl (offs decl) _ { a.mem with ram := s } ⟨k.saved, k.writes⟩ g3 hs g4 (.inl hcall)
      refine ⟨dev, e1, ?_⟩
      have : (⟨k.saved, k.writes⟩ : Ideal).write s =
          ⟨(Spec.lateStep decl k (.poll s t)).saved, (Spec.lateStep decl k (.poll s t)).writes⟩ := by
        simp only [Spec.lateStep, hyes, if_true, true_and, Ideal.write]
        by_cases h : s = k.saved
        · subst h; simp
        · rw [if_neg h, if_pos h]
      rw [← this]
      exact e2
  obtain ⟨dev, d1, d2⟩ := hdev
  refine ⟨_, rfl, ?_, hs, ?_, ?_, ?_, ?_, ?_⟩
  · simp only [d1]; rfl
  · simp only [d1]
  · simp only [d1]; exact d2
  · simp only [Spec.lateStep]; split_ifs
    · exact hs
    · exact g5
  · exact hlist
  · intro i e x he hx
    simp only [Spec.lateStep, he]
    exact each i e x he hx

theorem late_start {w size n len : Nat} (hl : len ≤ size) (decl : List Decl) {d : List Block} {wl : Wlm} (hi : Wear.init (flash size) d n = .ok wl)
    {r : List (BitVec 8)} {k : Nat} (hr : r.length = len) (hrel : Wear.Rel size n len (d, wl) ⟨r, k⟩) :
    ∃ a, start size n len (offs decl) d (declared w decl) = .ok a ∧ LateGood w size n len decl none a ⟨r, r, k, fun _ => none⟩ := by
  have hread := Wear.holds_read hl hrel.1
  simp only at hread
  have h1 := (Watcher.C124_static (settings size (offs decl)) ⟨r, (d, wl), false⟩ 0 (declared w decl)).1
  refine ⟨⟨⟨r, (d, wl), false⟩, Watcher.stored (settings size (offs decl)) ⟨r, (d, wl), false⟩ 0 (declared w decl)⟩, ?_, rfl, hr, rfl, hrel, hr, ?_, ?_⟩
  · rw [start, hi, Res.ok_bind]
    simp only [hread, h1, Res.ok_bind, Res.pure_eq]
  · have hl : ∀ (l : List (Watcher w)) i m, (Watcher.stored (settings size (offs decl)) m i l).length = l.length := by
      intro l
      induction l with
      | nil => exact fun _ _ => rfl
      | cons y ys ih => exact fun _ _ => congrArg (· + 1) (ih _ _)
    simp only [hl, declared, List.length_map]
  · intro i e x he hx
    simp only [Watcher.stored_get, Nat.zero_add, declared, List.getElem?_map, he, Option.map_some, Option.some.injEq] at hx
    subst hx
    refine ⟨rfl, rfl, ?_, rfl, fun u hu => by cases hu⟩
    simp only [Watcher.now, settings, offs, he, Option.map_some, Option.getD_some]
    rfl

/-- **C227.** From a fresh memory, in every history of polls and power losses (not while the last of several blocks is in use): the settings
in RAM and the saved ones are those of the specification after every step. No write has undefined behaviour. -/
theorem C227_exact (w size n len : Nat) (d : List Block) (hd : Fits size n d) (hn0 : 0 < n) (hn : n < 256) (h0 : 0 < len) (hl : len ≤ size)
    (mk : BitVec 8) (hm : ∀ b ∈ d, b.marker = mk) (decl : List Decl) (hdl : ∀ e ∈ decl, 2 * e.delay < 2 ^ w) :
    ∃ a, start size n len (offs decl) d (declared w decl) = .ok a ∧ a.mem.ram.length = len ∧ ∀ xs : List Late,
      (∀ s t, Late.poll s t ∈ xs → s.length = len) → Spec.Times w none xs → Spec.LateSafe n decl ⟨a.mem.ram, a.mem.ram, 0, fun _ => none⟩ xs →
      ∃ b, lateActs w size n len decl a xs = .ok b ∧
        b.mem.ram = (Spec.late decl ⟨a.mem.ram, a.mem.ram, 0, fun _ => none⟩ xs).ram ∧
        Wear.read (flash size) b.mem.dev.1 b.mem.dev.2 len = (0, (Spec.late decl ⟨a.mem.ram, a.mem.ram, 0, fun _ => none⟩ xs).saved) ∧
        b.mem.bad = false := by
  obtain ⟨wl, e, h, hr⟩ := Wear.rel_start len hd hn0 hn mk hm
  have hlen : (d[0].data.take len).length = len := by
    have := hd.2 d[0] (List.getElem_mem h)
    rw [List.length_take]; omega
  obtain ⟨a, h1, h2⟩ := late_start (w := w) hl decl e hlen hr
  refine ⟨a, h1, by rw [h2.ram]; exact hlen, ?_⟩
  have key : ∀ (xs : List Late) (last : Option Int) (a : App w) (k : Spec.Saved), LateGood w size n len decl last a k →
      (∀ s t, Late.poll s t ∈ xs → s.length = len) → Spec.Times w last xs → Spec.LateSafe n decl k xs →
      ∃ b last', lateActs w size n len decl a xs = .ok b ∧ LateGood w size n len decl last' b (Spec.late decl k xs) := by
    intro xs
    induction xs with
    | nil => intro last a k hg _ _ _; exact ⟨a, last, rfl, hg⟩
    | cons x xs ih =>
      intro last a k hg hx ht hs
      cases x with
      | restart =>
        have hst := Wear.rel_restart hn0 hn hg.rel (hs.1 rfl)
        rw [Wear.step, hg.rel.1.2.1, Res.bind_eq_ok] at hst
        obtain ⟨wl', i1, i2⟩ := hst
        injection i2 with i2
        obtain ⟨a', j1, j2⟩ := late_start (w := w) hl decl i1 hg.slen (k := k.writes) (by rw [i2]; exact hg.rel)
        obtain ⟨b, l', b1, b2⟩ := ih none a' _ j2 (fun s t hm => hx s t (List.mem_cons_of_mem _ hm)) ht hs.2
        exact ⟨b, l', by rw [lateActs, lateAct, j1, Res.ok_bind]; exact b1, b2⟩
      | poll s t =>
        obtain ⟨a', j1, j2⟩ := late_poll hn0 hn h0 hl hdl hg (hx s t List.mem_cons_self) ht.1
        obtain ⟨b, l', b1, b2⟩ := ih (some t) a' _ j2 (fun s t hm => hx s t (List.mem_cons_of_mem _ hm)) ht.2 hs.2
        exact ⟨b, l', by rw [lateActs, j1, Res.ok_bind]; exact b1, b2⟩
  intro xs hx ht hs
  rw [h2.ram] at hs ⊢
  obtain ⟨b, l', b1, b2⟩ := key xs none a _ h2 hx ht hs
  exact ⟨b, b1, b2.ram, Wear.holds_read hl b2.rel.1, b2.bad⟩

/-! ## What the specification says -/

/-- A part that differs from the saved one is waiting to be saved. -/
def Waiting (decl : List Decl) (k : Spec.Saved) : Prop :=
  ∀ (i : Nat) e, decl[i]? = some e → Spec.Decl.part e k.saved ≠ Spec.Decl.part e k.ram → k.since i ≠ none

theorem anyDue_of {decl : List Decl} {k : Spec.Saved} {s : List (BitVec 8)} {t : Int} {i : Nat} {e : Decl} (he : decl[i]? = some e)
    (h : Spec.due e k.ram s t (k.since i) = true) : Spec.anyDue decl k s t = true := by
  rw [Spec.anyDue, List.any_eq_true]
  exact ⟨i, List.mem_range.2 (List.getElem?_eq_some_iff.1 he).1, by rw [he]; exact h⟩

theorem waiting_step {decl : List Decl} {k : Spec.Saved} (h : Waiting decl k) (x : Late) : Waiting decl (Spec.lateStep decl k x) := by
  cases x with
  | restart => intro i e he hne; exact absurd rfl hne
  | poll s t =>
    intro i e he hne
    by_cases ha : Spec.anyDue decl k s t = true
    · simp only [Spec.lateStep, ha, if_true] at hne
      exact absurd rfl hne
    · simp only [Spec.lateStep, ha, Bool.false_eq_true, if_false, he] at hne ⊢
      have hd : ¬ Spec.due e k.ram s t (k.since i) = true := fun c => ha (anyDue_of he c)
      rw [Spec.since, if_neg hd]
      split_ifs with hc
      · simp
      · rw [ne_eq, not_not] at hc
        exact h i e he (by rw [hc]; exact hne)

theorem waiting_late {decl : List Decl} : ∀ (xs : List Late) {k : Spec.Saved}, Waiting decl k → Waiting decl (Spec.late decl k xs)
  | [], _, h => h
  | x :: xs, k, h => waiting_late xs (k := Spec.lateStep decl k x) (waiting_step h x)

theorem parts_eq {len : Nat} {decl : List Decl} (hc : Spec.Covered len decl) {r s : List (BitVec 8)} (hr : r.length = len) (hs : s.length = len)
    (h : ∀ e ∈ decl, Spec.Decl.part e r = Spec.Decl.part e s) : r = s := by
  apply List.ext_getElem?
  intro j
  by_cases hj : j < len
  · obtain ⟨e, he, h1, h2⟩ := hc j hj
    have := congrArg (fun z : List (BitVec 8) => z[j - e.off]?) (h e he)
    simp only [Spec.Decl.part, List.getElem?_take_of_lt (show j - e.off < e.size by omega), List.getElem?_drop] at this
    rwa [show e.off + (j - e.off) = j by omega] at this
  · rw [List.getElem?_eq_none (by omega), List.getElem?_eq_none (by omega)]

/-- The polls `ps`, all with the settings `s`. -/
def polls (s : List (BitVec 8)) (ps : List Int) : List Late := ps.map (.poll s)

/-- Since when the bytes have not changed is not after the last poll that found a change. -/
theorem since_le {decl : List Decl} {t0 : Int} {s : List (BitVec 8)} : ∀ (ps : List Int) {k : Spec.Saved}, k.ram = s →
    (∀ i u, k.since i = some u → u ≤ t0) → (Spec.late decl k (polls s ps)).ram = s ∧
      ∀ i u, (Spec.late decl k (polls s ps)).since i = some u → u ≤ t0
  | [], _, h1, h2 => ⟨h1, h2⟩
  | t :: ps, k, h1, h2 => by
    refine since_le ps (k := Spec.lateStep decl k (.poll s t)) rfl ?_
    intro i u hu
    simp only [Spec.lateStep] at hu
    cases he : decl[i]? with
    | none => rw [he] at hu; cases hu
    | some e =>
      simp only [he, Spec.since, h1, ne_eq, not_true_eq_false, if_false] at hu
      split_ifs at hu
      exact h2 i u hu

/-- Nor after a later poll. -/
theorem since_before {w : Nat} {decl : List Decl} {s : List (BitVec 8)} {t0 : Int} {ys : List Late} : ∀ (xs : List Late) {last : Option Int} {k : Spec.Saved},
    (∀ i u, k.since i = some u → ∃ l, last = some l ∧ u ≤ l) → Spec.Times w last (xs ++ .poll s t0 :: ys) →
    ∀ i u, (Spec.late decl k xs).since i = some u → u ≤ t0
  | [], last, k, h, ht, i, u, hu => by
    obtain ⟨l, hl, h1⟩ := h i u hu
    have := (ht.1 l hl).1
    omega
  | .restart :: xs, last, k, h, ht, i, u, hu =>
    since_before xs (k := Spec.lateStep decl k .restart) (last := none) (fun i u hu => by cases hu) ht i u hu
  | .poll r t :: xs, last, k, h, ht, i, u, hu => by
    refine since_before xs (k := Spec.lateStep decl k (.poll r t)) (last := some t) ?_ ht.2 i u hu
    intro i u hu
    refine ⟨t, rfl, ?_⟩
    simp only [Spec.lateStep] at hu
    cases he : decl[i]? with
    | none => rw [he] at hu; cases hu
    | some e =>
      simp only [he, Spec.since] at hu
      split_ifs at hu
      · cases hu; exact le_refl _
      · obtain ⟨l, hl, h1⟩ := h i u hu
        have := (ht.1 l hl).1
        omega

/-- **C227.** Settings that stop changing are saved: after a poll at `t0` and any polls later that find the settings unchanged, the last of
them at `t` when all delays are over, the saved settings are those in RAM, whatever was before. -/
theorem C227_saved {w len : Nat} {decl : List Decl} (hc : Spec.Covered len decl) (r : List (BitVec 8)) (xs : List Late) (hr : r.length = len)
    (hx : ∀ s t, Late.poll s t ∈ xs → s.length = len) {s : List (BitVec 8)} (hs : s.length = len) {t0 t : Int} (ps : List Int)
    (ht : Spec.Times w none (xs ++ .poll s t0 :: polls s ps ++ [.poll s t])) (hd : ∀ e ∈ decl, t0 + e.delay ≤ t) :
    (Spec.late decl ⟨r, r, 0, fun _ => none⟩ (xs ++ .poll s t0 :: polls s ps ++ [.poll s t])).saved = s := by
  have h0 : ∀ i u, (Spec.late decl ⟨r, r, 0, fun _ => none⟩ xs).since i = some u → u ≤ t0 :=
    since_before xs (last := none) (fun i u hu => by cases hu) (by rw [List.append_assoc] at ht; exact ht)
  have hw : Waiting decl ⟨r, r, 0, fun _ => none⟩ := fun i e _ hne => absurd rfl hne
  have split : Spec.late decl ⟨r, r, 0, fun _ => none⟩ (xs ++ .poll s t0 :: polls s ps ++ [.poll s t]) =
      Spec.lateStep decl (Spec.late decl ⟨r, r, 0, fun _ => none⟩ (xs ++ .poll s t0 :: polls s ps)) (.poll s t) := by
    rw [Spec.late, List.foldl_append]; rfl
  have hw' := waiting_late (xs ++ .poll s t0 :: polls s ps) hw
  have hl : ∀ (xs : List Late) (k : Spec.Saved), (∀ s t, Late.poll s t ∈ xs → s.length = len) → k.ram.length = len → k.saved.length = len →
      (Spec.late decl k xs).saved.length = len := by
    intro xs
    induction xs with
    | nil => intro k _ _ h; exact h
    | cons x xs ih =>
      intro k hx h1 h2
      refine ih (Spec.lateStep decl k x) (fun s t hm => hx s t (List.mem_cons_of_mem _ hm)) ?_ ?_
      · cases x with
        | restart => exact h2
        | poll s t => exact hx s t List.mem_cons_self
      · cases x with
        | restart => exact h2
        | poll s t =>
          simp only [Spec.lateStep]
          split_ifs
          · exact hx s t List.mem_cons_self
          · exact h2
  have hsl := hl (xs ++ .poll s t0 :: polls s ps) ⟨r, r, 0, fun _ => none⟩ (by
    intro s' t' hm
    rw [List.mem_append, List.mem_cons, polls, List.mem_map] at hm
    rcases hm with hm | hm | ⟨_, _, hm⟩
    · exact hx s' t' hm
    · cases hm; exact hs
    · cases hm; exact hs) hr hr
  have hle : (Spec.late decl ⟨r, r, 0, fun _ => none⟩ (xs ++ .poll s t0 :: polls s ps)).ram = s ∧
      ∀ i u, (Spec.late decl ⟨r, r, 0, fun _ => none⟩ (xs ++ .poll s t0 :: polls s ps)).since i = some u → u ≤ t0 := by
    have e : Spec.late decl ⟨r, r, 0, fun _ => none⟩ (xs ++ .poll s t0 :: polls s ps) =
        Spec.late decl (Spec.lateStep decl (Spec.late decl ⟨r, r, 0, fun _ => none⟩ xs) (.poll s t0)) (polls s ps) := by
      rw [Spec.late, List.foldl_append]; rfl
    rw [e]
    refine since_le ps rfl ?_
    intro i u hu
    simp only [Spec.lateStep] at hu
    cases he : decl[i]? with
    | none => rw [he] at hu; cases hu
    | some e =>
      simp only [he, Spec.since] at hu
      split_ifs at hu
      · cases hu; exact le_refl _
      · exact h0 i u hu
  rw [split]
  generalize Spec.late decl ⟨r, r, 0, fun _ => none⟩ (xs ++ .poll s t0 :: polls s ps) = k at *
  obtain ⟨hram, hle⟩ := hle
  simp only [Spec.lateStep]
  split_ifs with ha
  · rfl
  · refine parts_eq hc hsl hs (fun e he => ?_)
    obtain ⟨i, hi⟩ := List.getElem?_of_mem he
    by_contra hne
    have h1 := hw' i e hi (by rw [hram]; exact hne)
    cases hp : k.since i with
    | none => exact h1 hp
    | some u =>
      refine ha (anyDue_of hi ?_)
      rw [Spec.due.eq_def, hram, if_neg (by simp), hp]
      have := hle i u hp
      have := hd e he
      simp only [decide_eq_true_eq]
      omega

/-- **C227.** With one watcher, after a poll at `t` that leaves nothing to be saved (in particular one that saved), the memory is not
written again before the delay is over, whatever the settings are changed to. -/
theorem C227_spared (e : Decl) {k : Spec.Saved} {t : Int} (hk : ∀ u, k.since 0 = some u → t ≤ u) (ps : List (List (BitVec 8) × Int))
    (hp : ∀ q ∈ ps, t ≤ q.2 ∧ q.2 < t + e.delay) :
    (Spec.late [e] k (ps.map fun q => .poll q.1 q.2)).saved = k.saved ∧ (Spec.late [e] k (ps.map fun q => .poll q.1 q.2)).writes = k.writes := by
  induction ps generalizing k with
  | nil => exact ⟨rfl, rfl⟩
  | cons q ps ih =>
    obtain ⟨h1, h2⟩ := hp q List.mem_cons_self
    have hz : e.delay ≠ 0 := by omega
    have hd : Spec.due e k.ram q.1 q.2 (k.since 0) = false := by
      rw [Spec.due.eq_def]
      split_ifs
      · simpa using hz
      · cases hs : k.since 0 with
        | none => rfl
        | some u =>
          have := hk u hs
          simp only [decide_eq_false_iff_not]
          omega
    have ha : Spec.anyDue [e] k q.1 q.2 = false := by simp [Spec.anyDue, hd]
    have := ih (k := Spec.lateStep [e] k (.poll q.1 q.2)) (by
      intro u hu
      simp only [Spec.lateStep, List.getElem?_cons_zero, Spec.since, hd, Bool.false_eq_true, if_false] at hu
      split_ifs at hu
      · cases hu; exact h1
      · exact hk u hu) (fun q hq => hp q (List.mem_cons_of_mem _ hq))
    simp only [Spec.lateStep, ha, Bool.false_eq_true, false_and, if_false] at this
    simp only [List.map_cons, Spec.late, List.foldl_cons, Spec.lateStep, ha, Bool.false_eq_true, false_and, if_false]
    exact this

/-- **C227**, a save leaves nothing waiting (with one watcher). -/
theorem C227_after (e : Decl) (k : Spec.Saved) (s : List (BitVec 8)) (t : Int) (h : (Spec.lateStep [e] k (.poll s t)).writes ≠ k.writes) :
    (Spec.lateStep [e] k (.poll s t)).since 0 = none := by
  have ha : Spec.anyDue [e] k s t = true := by
    by_contra c
    simp only [Spec.lateStep, c, Bool.false_eq_true, false_and, if_false] at h
    exact h rfl
  have hd : Spec.due e k.ram s t (k.since 0) = true := by simpa [Spec.anyDue] using ha
  simp only [Spec.lateStep, List.getElem?_cons_zero, Spec.since, hd, if_true]

/-! ## Example: two bytes, watched with a delay of 10 and without, and three blocks -/

def exDecl : List Decl := [⟨0, 1, 10⟩, ⟨1, 1, 0⟩]
def exLate (xs : List Late) : Res (List (BitVec 8) × List (BitVec 8) × Nat) := do
  let a ← start 2 3 2 (offs exDecl) (List.replicate 3 ⟨0xff, [1, 2]⟩) (declared 32 exDecl)
  let b ← lateActs 32 2 3 2 exDecl a xs
  pure (b.mem.ram, (Wear.read (flash 2) b.mem.dev.1 b.mem.dev.2 2).2, b.mem.dev.2.last)

-- a burst of changes is saved once, 10 after the last
example : exLate [.poll [5, 2] 100, .poll [6, 2] 108, .poll [6, 2] 117] = .ok ([6, 2], [1, 2], 0) := by decide +kernel
example : exLate [.poll [5, 2] 100, .poll [6, 2] 108, .poll [6, 2] 118] = .ok ([6, 2], [6, 2], 1) := by decide +kernel
-- power is lost before: the change is lost
example : exLate [.poll [5, 2] 100, .restart, .poll [1, 2] 200] = .ok ([1, 2], [1, 2], 0) := by decide +kernel
-- a change of the other byte saves both
example : exLate [.poll [5, 2] 100, .poll [5, 3] 101] = .ok ([5, 3], [5, 3], 1) := by decide +kernel

end Gel.Combined
