import Verif.Combined.Program
import Verif.Combined.AutosaveAny

/-!
# A schedule kept in a wear leveled memory, with any power losses: property C243

The application of C192 (`Combined/Program.lean`). There power is not lost while the last of several blocks is in use; here it
may be lost at any time between two saves.
-/
namespace Gel.Combined
open Scheduler
open Wear.Spec (Block flash Fits Lossy Phase)
open Wear (Wlm RelL)

namespace Spec

/-- A memory of tables that loses data: the table that is shown, the one in block 0, and the phase (C239). -/
structure Tables where
  cur : List Entry
  first : List Entry
  phase : Phase

/-- Values are kept with 8 bits; saving the table that is shown does nothing. A power-up that does not find the active block
again gives the table in block 0. -/
def Tables.step (n : Nat) (s : Tables) : Step → Tables
  | .save fs =>
    if fs.map cut = s.cur then s
    else ⟨fs.map cut, if (s.phase.write n).pos = 0 then fs.map cut else s.first, s.phase.write n⟩
  | .restart => ⟨if (s.phase.restart n).pos = s.phase.pos then s.cur else s.first, s.first, s.phase.restart n⟩

end Spec

open Spec (Tables)

/-- Tables of `N` entries with values of 8 bits. -/
def Small (N : Nat) (es : List Entry) : Prop := es.length = N ∧ es.map Spec.cut = es

/-- The records. -/
def records (s : Tables) : Lossy := ⟨s.cur.flatMap bytes, s.first.flatMap bytes, s.phase⟩

theorem cut_cut (e : Entry) : Spec.cut (Spec.cut e) = Spec.cut e := by
  have : ∀ v : BitVec 32, (((v.setWidth 8).setWidth 32).setWidth 8).setWidth 32 = (v.setWidth 8).setWidth 32 := by
    intro v
    ext i hi
    simp
  simp only [Spec.cut, this]

theorem small_cut (es : List Entry) : Small es.length (es.map Spec.cut) := by
  refine ⟨List.length_map _, ?_⟩
  rw [List.map_map]
  exact List.map_congr_left fun e _ => cut_cut e

theorem flat_cut (es : List Entry) : (es.map Spec.cut).flatMap bytes = es.flatMap bytes := by
  rw [List.flatMap_map]
  exact congrArg (fun f => es.flatMap f) (funext bytes_cut)

theorem records_save {N n : Nat} {s : Tables} (hc : Small N s.cur) {fs : List Entry} (hf : fs.length = N) :
    records (s.step n (.save fs)) = (records s).step n (.write (fs.flatMap bytes)) := by
  have key : fs.flatMap bytes = s.cur.flatMap bytes ↔ fs.map Spec.cut = s.cur := by
    rw [flat_inj s.cur fs (by rw [hf, hc.1]), hc.2]
  by_cases h : fs.map Spec.cut = s.cur
  · rw [Tables.step, if_pos h, Lossy.step, if_pos (show fs.flatMap bytes = (records s).data from key.2 h)]
  · rw [Tables.step, if_neg h, Lossy.step, if_neg (show ¬ fs.flatMap bytes = (records s).data from fun e => h (key.1 e))]
    by_cases h0 : (s.phase.write n).pos = 0
    · rw [if_pos h0, if_pos (show ((records s).phase.write n).pos = 0 from h0), records, flat_cut]; rfl
    · rw [if_neg h0, if_neg (show ¬ ((records s).phase.write n).pos = 0 from h0), records, flat_cut]; rfl

theorem records_restart {n : Nat} (s : Tables) : records (s.step n .restart) = (records s).step n .restart := by
  rw [Tables.step, Lossy.step]
  by_cases h : (s.phase.restart n).pos = s.phase.pos
  · rw [if_pos h, if_pos (show ((records s).phase.restart n).pos = (records s).phase.pos from h)]; rfl
  · rw [if_neg h, if_neg (show ¬ ((records s).phase.restart n).pos = (records s).phase.pos from h)]; rfl

theorem small_step {N n : Nat} {s : Tables} (hc : Small N s.cur) (hf : Small N s.first) (o : Step)
    (ho : ∀ fs, o = .save fs → fs.length = N) : Small N (s.step n o).cur ∧ Small N (s.step n o).first := by
  cases o with
  | save fs =>
    have h := ho fs rfl
    have hs : Small N (fs.map Spec.cut) := by rw [← h]; exact small_cut fs
    rw [Tables.step]
    split_ifs
    · exact ⟨hc, hf⟩
    · exact ⟨hs, hs⟩
    · exact ⟨hs, hf⟩
  | restart =>
    rw [Tables.step]
    refine ⟨?_, hf⟩
    simp only
    split_ifs
    · exact hc
    · exact hf

theorem run_any {size n N : Nat} (hn : n < 256) (hN : 0 < N) (hl : 11 * N ≤ size) (buf : Serial.Mem) (hb : buf.length = 11 * N)
    (l : List Step) : ∀ (s : List Block × Wlm) (t : Tables), Small N t.cur → Small N t.first → RelL size n (11 * N) s (records t) →
      (∀ fs, Step.save fs ∈ l → fs.length = N) →
      ∃ s', runT size n buf s l = .ok s' ∧ Small N (l.foldl (Tables.step n) t).cur ∧
        RelL size n (11 * N) s' (records (l.foldl (Tables.step n) t)) := by
  induction l with
  | nil => intro s t h1 _ h3 _; exact ⟨s, rfl, h1, h3⟩
  | cons o l ih =>
    intro s t h1 h2 h3 h4
    obtain ⟨k1, k2⟩ := small_step (n := n) h1 h2 o (fun fs e => h4 fs (by rw [e]; exact List.mem_cons_self))
    have h4' : ∀ fs, Step.save fs ∈ l → fs.length = N := fun fs hf => h4 fs (List.mem_cons_of_mem _ hf)
    have hstep : ∃ s', stepT size n buf s o = .ok s' ∧ RelL size n (11 * N) s' (records (t.step n o)) := by
      cases o with
      | save fs =>
        have hlf := h4 fs List.mem_cons_self
        obtain ⟨s', e1, e2⟩ := Wear.relL_write hn (by omega) hl h3 (fs.flatMap bytes) (by rw [flat_length, hlf])
        refine ⟨s', ?_, by rw [records_save h1 hlf]; exact e2⟩
        rw [stepT, save_eq fs buf (by rw [hb, hlf]), Res.ok_bind]
        exact e1
      | restart =>
        obtain ⟨s', e1, e2⟩ := Wear.relL_restart hn h3
        refine ⟨s', ?_, by rw [records_restart]; exact e2⟩
        rw [Wear.step, h3.1.2.1] at e1
        exact e1
    obtain ⟨s', e1, e2⟩ := hstep
    obtain ⟨s'', e3, e4, e5⟩ := ih s' _ k1 k2 e2 h4'
    exact ⟨s'', by rw [runT, e1, Res.ok_bind]; exact e3, e4, e5⟩

/-- Every record is that of a table. -/
theorem table_of (N : Nat) : ∀ r : List (BitVec 8), r.length = 11 * N → ∃ es, Small N es ∧ es.flatMap bytes = r := by
  induction N with
  | zero => intro r h; exact ⟨[], ⟨rfl, rfl⟩, (List.eq_nil_of_length_eq_zero h).symm⟩
  | succ N ih =>
    intro r h
    obtain ⟨es, ⟨h1, h2⟩, h3⟩ := ih (r.drop 11) (by rw [List.length_drop]; omega)
    obtain ⟨e, -, -, -, g⟩ := C139_canonical (r.take 11) (by rw [List.length_take]; omega)
    have hs : serialize (r.take 11) e = .ok (bytes e ++ (r.take 11).drop 11, 11) := C139_layout _ e (by rw [List.length_take]; omega)
    rw [g, List.drop_eq_nil_of_le (by rw [List.length_take]; omega), List.append_nil] at hs
    injection hs with hs
    injection hs with hs
    refine ⟨Spec.cut e :: es, ⟨by rw [List.length_cons, h1], ?_⟩, ?_⟩
    · rw [List.map_cons, h2, cut_cut]
    · rw [List.flatMap_cons, bytes_cut, h3, ← hs, List.take_append_drop]

theorem shown_any {size n N : Nat} (hl : 11 * N ≤ size) {s : List Block × Wlm} {t : Tables} (hc : Small N t.cur)
    (hr : RelL size n (11 * N) s (records t)) (u : Sched) (hu : u.length = N) : shown size s u = .ok t.cur := by
  rw [shown, hu, Wear.holds_read hl hr.1]
  simp only [records]
  have := load_eq t.cur N 0 u (by rw [hc.1]; omega) (by rw [hu, hc.1]) (by simp)
  rw [this, hc.2]

/-- **C243.** From a memory with equal markers, whatever its blocks hold: the table shown at first is some table with values from
0 to 255; after every history of saves and power losses the table shown is that of the lossy memory; nothing is undefined. -/
theorem C243_exact (size n N : Nat) (d : List Block) (hd : Fits size n d) (hn0 : 0 < n) (hn : n < 256) (hN : 0 < N)
    (hl : 11 * N ≤ size) (mk : BitVec 8) (hm : ∀ b ∈ d, b.marker = mk) (buf : Serial.Mem) (hb : buf.length = 11 * N) :
    ∃ w t0, Wear.init (flash size) d n = .ok w ∧ t0.length = N ∧ (∀ e ∈ t0, 0 ≤ e.value.toInt ∧ e.value.toInt < 256) ∧
      ∀ l : List Step, (∀ fs, Step.save fs ∈ l → fs.length = N) →
        ∃ s, runT size n buf (d, w) l = .ok s ∧ ∀ u : Sched, u.length = N →
          shown size s u = .ok (l.foldl (Tables.step n) ⟨t0, t0, .healthy 0⟩).cur := by
  obtain ⟨w, e, h, hh, hc, b, hm1, hm2⟩ := Wear.rel_start (11 * N) hd hn0 hn mk hm
  have hlast : w.last = 0 := by rw [hc]; simp
  simp only [hlast] at hm1 hm2
  have hlen : (d[0].data.take (11 * N)).length = 11 * N := by
    have := hd.2 d[0] (List.getElem_mem h)
    rw [List.length_take]; omega
  obtain ⟨t0, hs, ht⟩ := table_of N _ hlen
  have hr : RelL size n (11 * N) (d, w) (records ⟨t0, t0, .healthy 0⟩) := by
    simp only [records, ht]
    exact ⟨hh, ⟨h, rfl⟩, hlast, b, hn0, hm1, hm2⟩
  refine ⟨w, t0, e, hs.1, ?_, fun l hx => ?_⟩
  · obtain ⟨-, -, -, -, k⟩ := C192_record buf t0 t0 (by rw [hb, hs.1]) rfl
    exact k.1 hs.2
  · obtain ⟨s, e1, e2, e3⟩ := run_any hn hN hl buf hb l (d, w) _ hs hs hr hx
    exact ⟨s, e1, fun u hu => shown_any hl e2 e3 u hu⟩

/-- Every table differs from the one before, also in 8 bits of the values. -/
def Spec.AllNew : List Entry → List (List Entry) → Prop
  | _, [] => True
  | cur, fs :: l => fs.map Spec.cut ≠ cur ∧ Spec.AllNew (fs.map Spec.cut) l

theorem saves_healthy {n : Nat} (l : List (List Entry)) : ∀ (p : Nat) (cur first : List Entry), p + l.length < n →
    Spec.AllNew cur l → ((l.map Step.save).foldl (Tables.step n) ⟨cur, first, .healthy p⟩).phase = .healthy (p + l.length) ∧
      ((l.map Step.save).foldl (Tables.step n) ⟨cur, first, .healthy p⟩).first = first ∧
      ((l.map Step.save).foldl (Tables.step n) ⟨cur, first, .healthy p⟩).cur = (l.getLast?.map (·.map Spec.cut)).getD cur := by
  induction l with
  | nil => intro p cur first _ _; exact ⟨rfl, rfl, rfl⟩
  | cons fs l ih =>
    intro p cur first hp hc
    rw [List.length_cons] at hp
    have hw : Phase.write n (.healthy p) = .healthy (p + 1) := by rw [Phase.write, if_pos (by omega)]
    have hs : Tables.step n ⟨cur, first, .healthy p⟩ (.save fs) = ⟨fs.map Spec.cut, first, .healthy (p + 1)⟩ := by
      rw [Tables.step, if_neg hc.1]
      simp only [hw]
      rw [if_neg (by rw [Phase.pos]; omega)]
    rw [List.map_cons, List.foldl_cons, hs]
    obtain ⟨h1, h2, h3⟩ := ih (p + 1) (fs.map Spec.cut) first (by omega) hc.2
    refine ⟨by rw [h1, List.length_cons]; congr 1; omega, h2, ?_⟩
    rw [h3]
    cases l with
    | nil => rfl
    | cons g l => rw [List.getLast?_cons_cons]; rfl

/-- **C243**, what is kept and what can go wrong: tables that differ are saved in the first run, fewer than there are blocks.
After a power loss the last one is shown if they are fewer than the blocks but one. If they are as many as the blocks but one,
all of them are lost: the table of the first start is shown. -/
theorem C243_lost_wrong (size n N : Nat) (d : List Block) (hd : Fits size n d) (hn1 : 1 < n) (hn : n < 256) (hN : 0 < N)
    (hl : 11 * N ≤ size) (mk : BitVec 8) (hm : ∀ b ∈ d, b.marker = mk) (buf : Serial.Mem) (hb : buf.length = 11 * N) :
    ∃ w t0, Wear.init (flash size) d n = .ok w ∧ t0.length = N ∧
      ∀ (l : List (List Entry)) (fs : List Entry), (∀ gs ∈ l ++ [fs], gs.length = N) → l.length + 1 < n →
        Spec.AllNew t0 (l ++ [fs]) →
        ∃ s, runT size n buf (d, w) ((l ++ [fs]).map Step.save ++ [.restart]) = .ok s ∧ ∀ u : Sched, u.length = N →
          shown size s u = .ok (if l.length + 2 < n then fs.map Spec.cut else t0) := by
  obtain ⟨w, t0, h1, h2, -, h3⟩ := C243_exact size n N d hd (by omega) hn hN hl mk hm buf hb
  refine ⟨w, t0, h1, h2, fun l fs hx hlen hch => ?_⟩
  obtain ⟨s, e1, e2⟩ := h3 ((l ++ [fs]).map Step.save ++ [.restart]) (by
    intro gs hg
    rw [List.mem_append, List.mem_map] at hg
    rcases hg with ⟨c, hc, e⟩ | hg
    · cases e; exact hx _ hc
    · simp at hg)
  refine ⟨s, e1, fun u hu => ?_⟩
  rw [e2 u hu, List.foldl_append]
  obtain ⟨g1, g2, g3⟩ := saves_healthy (n := n) (l ++ [fs]) 0 t0 t0 (by rw [List.length_append, List.length_singleton]; omega) hch
  generalize ((l ++ [fs]).map Step.save).foldl (Tables.step n) ⟨t0, t0, .healthy 0⟩ = t at *
  obtain ⟨a, b, c⟩ := t
  simp only at g1 g2 g3
  subst g1 g2 g3
  rw [List.foldl_cons, List.foldl_nil, Tables.step]
  simp only [List.length_append, List.length_singleton, List.getLast?_append, List.getLast?_singleton, Option.some_or,
    Option.map_some, Option.getD_some, Phase.restart, Nat.zero_add]
  congr 1
  by_cases hc : l.length + 2 < n
  · rw [if_pos (show l.length + 1 + 1 < n by omega), if_pos rfl, if_pos hc]
  · rw [if_neg (show ¬ l.length + 1 + 1 < n by omega), if_neg (by simp only [Phase.pos]; omega), if_neg hc]

/-- One program, three blocks: two different tables and a power loss bring back what block 0 holds, one table is kept. -/
example : (do
    let d : List Block := List.replicate 3 ⟨0xff, List.replicate 11 0⟩
    let w ← Wear.init (flash 11) d 3
    let s ← runT 11 3 (List.replicate 11 0) (d, w) [.save [⟨1, 127, 3600, 7200, 20⟩], .save [⟨1, 3, 0, 60, 300⟩], .restart]
    let t ← runT 11 3 (List.replicate 11 0) (d, w) [.save [⟨1, 127, 3600, 7200, 20⟩], .restart]
    let a ← shown 11 s (Scheduler.init 1)
    let b ← shown 11 t (Scheduler.init 1)
    pure (a, b)) = .ok ([⟨0, 0, 0, 0, 0⟩], [⟨1, 127, 3600, 7200, 20⟩]) := by
  decide +kernel

end Gel.Combined
