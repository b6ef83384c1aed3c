import Verif.EventLog.Spec
import Mathlib.Tactic.SplitIfs
import Mathlib.Tactic.Ring

/-!
# Circular event log: properties C50 to C52 and C95
-/
namespace Gel.EventLog

open Spec

/-! ## The state after a history -/

/-- A history of calls of `circular_event_log_new_event`: the event and the error with which the storage refuses it
(0: it does not). -/
def run : List (List Byte) × Log → List (List Byte × Int) → List (List Byte) × Log
  | s, [] => s
  | s, (e, err) :: es =>
    let (d, l, _) := newEvent (store fun _ _ => err) s.1 s.2 e
    run (d, l) es

/-- The events that were accepted. -/
def accepted (es : List (List Byte × Int)) : List (List Byte) := (es.filter (·.2 = 0)).map (·.1)

/-- The log and the storage after the history `h`. -/
structure Inv (max size : Nat) (s : List (List Byte) × Log) (h : List (List Byte)) : Prop where
  len : s.1.length = max
  max_eq : s.2.max = max
  size_eq : s.2.size = size
  next : s.2.next = h.length % max
  full : s.2.full = decide (max ≤ h.length)
  slot : ∀ j, j < h.length → h.length ≤ j + max → s.1[j % max]? = h[j]?

theorem mod_ne {j c max : Nat} (h1 : j < c) (h2 : c < j + max) : j % max ≠ c % max := by
  intro h
  have := Nat.sub_mod_eq_zero_of_mod_eq h.symm
  rw [Nat.mod_eq_of_lt (by omega)] at this
  omega

theorem inv_new {max size : Nat} {s : List (List Byte) × Log} {h : List (List Byte)} (h0 : 0 < max) (hm : max < 2 ^ 31)
    (hi : Inv max size s h) (e : List Byte) :
    ∃ d l, newEvent (store fun _ _ => 0) s.1 s.2 e = (d, l, 0) ∧ Inv max size (d, l) (h ++ [e]) := by
  have hlt : h.length % max < max := Nat.mod_lt _ h0
  have hsave : (store fun _ _ => 0).save s.1 e s.2.next = (0, s.1.set (h.length % max) e) := by
    simp only [store, ne_eq, not_true_eq_false, if_false]
    rw [if_pos (by rw [hi.len, hi.next]; exact hlt), hi.next]
  have hslot : ∀ j, j < (h ++ [e]).length → (h ++ [e]).length ≤ j + max →
      (s.1.set (h.length % max) e)[j % max]? = (h ++ [e])[j]? := by
    intro j h1 h2
    simp only [List.length_append, List.length_singleton] at h1 h2
    by_cases hj : j = h.length
    · subst hj
      rw [List.getElem?_set_self (by rw [hi.len]; exact hlt)]
      simp
    · rw [List.getElem?_set_ne (fun hh => mod_ne (c := h.length) (by omega) (by omega) hh.symm), List.getElem?_append_left (by omega)]
      exact hi.slot j (by omega) (by omega)
  have hwrap : (s.2.next + 1) % 2 ^ 64 = h.length % max + 1 := by
    rw [hi.next, Nat.mod_eq_of_lt (show h.length % max + 1 < 2 ^ 64 by omega)]
  have hmod : (h.length + 1) % max = (h.length % max + 1) % max := by rw [Nat.mod_add_mod]
  simp only [newEvent, hsave, if_true, hwrap, hi.max_eq]
  split_ifs with hc
  · refine ⟨_, _, rfl, ?_⟩
    have hle : h.length % max ≤ h.length := Nat.mod_le _ _
    have e1 : h.length % max + 1 = max := by omega
    exact ⟨by simpa using hi.len, rfl, hi.size_eq, by simp [hmod, e1], by simp; omega, hslot⟩
  · refine ⟨_, _, rfl, ⟨by simpa using hi.len, rfl, hi.size_eq, ?_, ?_, hslot⟩⟩
    · simp only [List.length_append, List.length_singleton]
      rw [hmod, Nat.mod_eq_of_lt (show h.length % max + 1 < max by omega)]
    · simp only [List.length_append, List.length_singleton]
      rw [hi.full]
      by_cases hcc : h.length < max
      · rw [Nat.mod_eq_of_lt hcc] at hc
        rw [decide_eq_false (by omega), decide_eq_false (by omega)]
      · rw [decide_eq_true (by omega), decide_eq_true (by omega)]

/-- **C51.** A refused save changes nothing: neither the log nor the storage, and the error is returned. -/
theorem C51_refused (dev : Dev D) (d : D) (l : Log) (e : List Byte) (h : (dev.save d e l.next).1 ≠ 0) :
    newEvent dev d l e = ((dev.save d e l.next).2, l, (dev.save d e l.next).1) := by
  simp only [newEvent]
  rw [if_neg h]

theorem refused_store (d : List (List Byte)) (l : Log) (e : List Byte) (err : Int) (h : err ≠ 0) :
    newEvent (store fun _ _ => err) d l e = (d, l, err) := by
  have hs : (store fun _ _ => err).save d e l.next = (err, d) := by simp only [store]; rw [if_pos h]
  rw [C51_refused _ _ _ _ (by rw [hs]; exact h), hs]

/-- **C51.** In a history with refusals anywhere the log and the storage are as if only the accepted events had been
saved. -/
theorem C51_history (s : List (List Byte) × Log) (es : List (List Byte × Int)) :
    run s es = run s ((accepted es).map fun e => (e, 0)) := by
  induction es generalizing s with
  | nil => rfl
  | cons x es ih =>
    obtain ⟨e, err⟩ := x
    by_cases h : err = 0
    · subst h
      have : accepted ((e, 0) :: es) = e :: accepted es := by simp [accepted]
      rw [this, List.map_cons, run, run]; exact ih _
    · have : accepted ((e, err) :: es) = accepted es := by simp [accepted, h]
      rw [this, run, refused_store _ _ _ _ h]
      exact ih s

theorem inv_run {max size : Nat} (h0 : 0 < max) (hm : max < 2 ^ 31) (es : List (List Byte × Int)) :
    ∀ (s : List (List Byte) × Log) (h : List (List Byte)), Inv max size s h → Inv max size (run s es) (h ++ accepted es) := by
  induction es with
  | nil => intro s h hi; simpa [accepted, run] using hi
  | cons x es ih =>
    intro s h hi
    obtain ⟨e, err⟩ := x
    by_cases he : err = 0
    · subst he
      obtain ⟨d, l, e1, hi'⟩ := inv_new h0 hm hi e
      have : accepted ((e, 0) :: es) = [e] ++ accepted es := by simp [accepted]
      rw [this, ← List.append_assoc, run, e1]
      exact ih _ _ hi'
    · have : accepted ((e, err) :: es) = accepted es := by simp [accepted, he]
      rw [this, run, refused_store _ _ _ _ he]
      exact ih s h hi

/-- A log that holds nothing, on a storage of any content. -/
def empty (max size : Nat) : Log := ⟨0, max, size, false⟩

theorem inv_empty {max : Nat} (size : Nat) (h0 : 0 < max) (d : List (List Byte)) (hd : d.length = max) :
    Inv max size (d, empty max size) [] :=
  ⟨hd, rfl, rfl, by simp [empty], by simp [empty]; omega, fun _ h => absurd h (by simp)⟩

/-! ## C50 -/

theorem total_eq {max size : Nat} {s : List (List Byte) × Log} {h : List (List Byte)} (hi : Inv max size s h) :
    total s.2 = min h.length max := by
  rw [total, hi.full, hi.max_eq, hi.next]
  by_cases hc : max ≤ h.length
  · rw [if_pos (by simpa using hc)]; omega
  · rw [if_neg (by simpa using hc), Nat.mod_eq_of_lt (by omega)]; omega

theorem window_eq (h : List (List Byte)) (max number jump : Nat) (hj : jump ≤ min h.length max) :
    window h max number jump =
      (h.drop (h.length - jump - min number (min h.length max - jump))).take (min number (min h.length max - jump)) := by
  apply List.ext_getElem?
  intro i
  simp only [window, List.getElem?_drop, List.getElem?_take, List.length_take, List.length_drop]
  by_cases hk : i < min number (min h.length max - jump)
  · rw [if_pos hk, if_pos (by omega)]
    congr 1; omega
  · rw [if_neg hk]
    by_cases hk' : (min (h.length - (h.length - max) - jump) (h.length - (h.length - max)) - number) + i <
        h.length - (h.length - max) - jump
    · omega
    · rw [if_neg hk']

theorem window_nil (h : List (List Byte)) (max number jump : Nat) (hj : min h.length max < jump) :
    window h max number jump = [] := by
  apply List.eq_nil_of_length_eq_zero
  simp only [window, List.length_drop, List.length_take]
  omega

theorem slots {max size : Nat} {s : List (List Byte) × Log} {h : List (List Byte)} (hi : Inv max size s h) (q m : Nat)
    (h0 : 0 < max) (h1 : q % max + m ≤ max) (h2 : q + m ≤ h.length) (h3 : h.length ≤ q + max) :
    (s.1.drop (q % max)).take m = (h.drop q).take m := by
  apply List.ext_getElem?
  intro i
  simp only [List.getElem?_drop, List.getElem?_take]
  split_ifs with hc
  · rw [← hi.slot (q + i) (by omega) (by omega)]
    congr 1
    rw [Nat.add_mod, Nat.mod_eq_of_lt (show i < max by omega), Nat.mod_eq_of_lt (show q % max + i < max by omega)]
  · rfl

theorem flatten_length (size : Nat) (l : List (List Byte)) (h : ∀ x ∈ l, x.length = size) :
    l.flatten.length = l.length * size := by
  induction l with
  | nil => simp
  | cons x l ih =>
    rw [List.flatten_cons, List.length_append, ih (fun y hy => h y (by simp [hy])), h x (by simp), List.length_cons]
    ring

theorem subZ_eq {a b : Nat} (h : b ≤ a) (ha : a < 2 ^ 64) : subZ a b = a - b := by
  rw [subZ, asSize]; omega

theorem load_store {refuse} (d : List (List Byte)) (number start : Nat) (h : start + number ≤ d.length) :
    (store refuse).load d number start = ((number : Int), ((d.drop start).take number).flatten) := by
  simp only [store]; rw [if_pos h]

theorem mod_sub {c v max : Nat} (h0 : 0 < max) (h1 : v ≤ c) (h2 : v ≤ max) :
    (c - v) % max = if v ≤ c % max then c % max - v else max - (v - c % max) := by
  have e := Nat.div_add_mod c max
  have hlt : c % max < max := Nat.mod_lt _ h0
  generalize c / max = q at *
  generalize c % max = r at *
  split_ifs with hc
  · rw [← e, show max * q + r - v = max * q + (r - v) by omega, Nat.mul_add_mod, Nat.mod_eq_of_lt (by omega)]
  · have hq : 0 < q := by
      rcases Nat.eq_zero_or_pos q with hq | hq
      · subst hq; simp at e; omega
      · exact hq
    obtain ⟨q', rfl⟩ : ∃ q', q = q' + 1 := ⟨q - 1, by omega⟩
    rw [← e, show max * (q' + 1) + r - v = max * q' + (max - (v - r)) by rw [Nat.mul_add]; omega, Nat.mul_add_mod,
      Nat.mod_eq_of_lt (by omega)]

theorem nthLast_eq {max size : Nat} {s : List (List Byte) × Log} {h : List (List Byte)} (hi : Inv max size s h) (v : Nat)
    (h0 : 0 < max) (hm : max < 2 ^ 31) (hv : v ≤ min h.length max) : nthLast s.2 v = (h.length - v) % max := by
  have hlt : h.length % max < max := Nat.mod_lt _ h0
  rw [nthLast, hi.next, hi.full, hi.max_eq, mod_sub h0 (by omega) (by omega)]
  by_cases hc : v ≤ h.length % max
  · rw [if_pos hc, if_pos hc]
  · rw [if_neg (by omega), if_neg hc]
    have : max ≤ h.length := by
      by_contra hcc
      rw [Nat.mod_eq_of_lt (by omega)] at hc
      omega
    rw [if_pos (by simpa using this), subZ_eq (by omega) (by omega)]

/-- **C50**, from any state that corresponds to a history. -/
theorem load_inv {max size : Nat} {s : List (List Byte) × Log} {h : List (List Byte)} (hi : Inv max size s h)
    (h0 : 0 < max) (hm : max < 2 ^ 31) (hsz : ∀ e ∈ h, e.length = size) (number jump : Nat)
    (hover : jump + number < 2 ^ 64) (events : List Byte) (hev : events.length < 2 ^ 64)
    (hfit : (window h max number jump).length * size ≤ events.length) (refuse : Nat → List Byte → Int) :
    loadLast (store refuse) s.1 s.2 events number jump =
      .ok ((window h max number jump).length, (window h max number jump).flatten ++
        events.drop ((window h max number jump).length * size)) := by
  have ht := total_eq hi
  rw [loadLast, ht]
  by_cases hj : min h.length max < jump
  · rw [if_pos hj, window_nil _ _ _ _ hj]; simp
  · rw [if_neg hj]
    have hw := window_eq h max number jump (by omega)
    have hk : (if (jump + number) % 2 ^ 64 > min h.length max then min h.length max - jump else number) =
        min number (min h.length max - jump) := by
      rw [Nat.mod_eq_of_lt hover]; split_ifs <;> omega
    simp only [hk]
    generalize hkk : min number (min h.length max - jump) = k at *
    have hkle : k + jump ≤ min h.length max := by omega
    have hwl : (window h max number jump).length = k := by
      rw [hw, List.length_take, List.length_drop]; omega
    rw [hwl] at hfit ⊢
    rw [Nat.mod_eq_of_lt (show k + jump < 2 ^ 64 by omega), nthLast_eq hi (k + jump) h0 hm hkle]
    have hq : h.length - (k + jump) = h.length - jump - k := by omega
    rw [hq]
    rw [hw]
    generalize hqq : h.length - jump - k = q at *
    have hlt : q % max < max := Nat.mod_lt _ h0
    rw [Nat.mod_eq_of_lt (show q % max + k < 2 ^ 64 by omega), hi.max_eq]
    have hall : ∀ (a b : Nat), ∀ x ∈ (h.drop a).take b, x.length = size := fun a b x hx =>
      hsz x (List.mem_of_mem_drop (List.mem_of_mem_take hx))
    by_cases hc : q % max + k > max
    · rw [if_pos hc]
      simp only [subZ_eq (Nat.le_of_lt hlt) (show max < 2 ^ 64 by omega)]
      rw [load_store s.1 (max - q % max) (q % max) (by rw [hi.len]; omega),
        slots hi q (max - q % max) h0 (by omega) (by omega) (by omega)]
      simp only
      have hl1 : ((h.drop q).take (max - q % max)).length = max - q % max := by
        rw [List.length_take, List.length_drop]; omega
      have hf1 := flatten_length size _ (hall q (max - q % max))
      rw [hl1] at hf1
      have hb1 : (max - q % max) * size ≤ k * size := Nat.mul_le_mul_right _ (by omega)
      rw [place, if_pos (by rw [hf1]; omega), Res.ok_bind, if_neg (by omega)]
      rw [subZ_eq (show max - q % max ≤ k by omega) (by omega)]
      rw [load_store s.1 (k - (max - q % max)) 0 (by rw [hi.len]; omega)]
      have hz : (q + (max - q % max)) % max = 0 := by
        have e := Nat.div_add_mod q max
        rw [show q + (max - q % max) = max * (q / max) + max by omega, Nat.add_mod_right, Nat.mul_mod_right]
      have hs2 := slots hi (q + (max - q % max)) (k - (max - q % max)) h0 (by rw [hz]; omega) (by omega) (by omega)
      rw [hz] at hs2
      rw [hs2, hi.size_eq]
      simp only
      have hl2 : ((h.drop (q + (max - q % max))).take (k - (max - q % max))).length = k - (max - q % max) := by
        rw [List.length_take, List.length_drop]; omega
      have hf2 := flatten_length size _ (hall (q + (max - q % max)) (k - (max - q % max)))
      rw [hl2] at hf2
      have hsum : (max - q % max) * size + (k - (max - q % max)) * size = k * size := by
        rw [← Nat.add_mul]; congr 1; omega
      rw [Nat.mod_eq_of_lt (show (max - q % max) * size < 2 ^ 64 by omega)]
      rw [place, if_pos (by simp only [List.length_append, List.length_take, List.length_drop, hf1, hf2]; omega),
        Res.ok_bind, chkS, if_pos (by omega), Res.ok_bind]
      simp only [Res.pure_eq, List.take_zero, List.nil_append, Nat.zero_add, hf1, hf2]
      have htk : ((h.drop q).take k) = (h.drop q).take (max - q % max) ++
          (h.drop (q + (max - q % max))).take (k - (max - q % max)) := by
        conv_lhs => rw [show k = (max - q % max) + (k - (max - q % max)) by omega]
        rw [List.take_add, List.drop_drop]
      rw [htk, List.flatten_append, hsum]
      congr 2
      · omega
      · generalize ((h.drop q).take (max - q % max)).flatten = F at *
        rw [List.take_append_of_le_length (by rw [hf1]), List.take_of_length_le (by rw [hf1]),
          List.drop_append, List.drop_of_length_le (show F.length ≤ k * size by rw [hf1]; omega), hf1, List.nil_append, List.drop_drop]
        congr 2; omega
    · rw [if_neg hc]
      rw [load_store s.1 k (q % max) (by rw [hi.len]; omega), slots hi q k h0 (by omega) (by omega) (by omega)]
      simp only
      have hl1 : ((h.drop q).take k).length = k := by
        rw [List.length_take, List.length_drop]; omega
      have hf1 := flatten_length size _ (hall q k)
      rw [hl1] at hf1
      rw [place, if_pos (by rw [hf1]; omega), hf1]
      simp

/-- **C50.** On a storage of any content and after any history of calls, with refusals anywhere: the total is the number
of accepted events, at most `max`; loading gives the window of the history in order at the beginning of the caller's
array, and returns its length. -/
theorem C50_load (max size : Nat) (h0 : 0 < max) (hm : max < 2 ^ 31) (d : List (List Byte)) (hd : d.length = max)
    (es : List (List Byte × Int)) (hes : ∀ e ∈ es, e.1.length = size) (number jump : Nat) (hover : jump + number < 2 ^ 64)
    (events : List Byte) (hev : events.length < 2 ^ 64)
    (hfit : (window (accepted es) max number jump).length * size ≤ events.length) (refuse : Nat → List Byte → Int) :
    total (run (d, empty max size) es).2 = min (accepted es).length max ∧
    loadLast (store refuse) (run (d, empty max size) es).1 (run (d, empty max size) es).2 events number jump =
      .ok ((window (accepted es) max number jump).length, (window (accepted es) max number jump).flatten ++
        events.drop ((window (accepted es) max number jump).length * size)) := by
  have hi := inv_run h0 hm es _ _ (inv_empty size h0 d hd)
  rw [List.nil_append] at hi
  refine ⟨total_eq hi, load_inv hi h0 hm ?_ number jump hover events hev hfit refuse⟩
  intro e he
  rw [accepted, List.mem_map] at he
  obtain ⟨x, hx, rfl⟩ := he
  exact hes x ((List.mem_filter.1 hx).1)

/-- **C50.** What the window is: its length, and its elements in the history. -/
theorem C50_window (h : List (List Byte)) (max number jump : Nat) :
    (window h max number jump).length = min number (min h.length max - jump) ∧
    ∀ i, i < (window h max number jump).length → (window h max number jump)[i]? =
      h[h.length - jump - (window h max number jump).length + i]? := by
  by_cases hj : min h.length max < jump
  · rw [window_nil _ _ _ _ hj]; simp; omega
  · have hw := window_eq h max number jump (by omega)
    have hl : (window h max number jump).length = min number (min h.length max - jump) := by
      rw [hw, List.length_take, List.length_drop]; omega
    refine ⟨hl, ?_⟩
    intro i hi
    rw [hl] at hi ⊢
    rw [hw, List.getElem?_take, if_pos hi, List.getElem?_drop]

/-- Five events of two bytes, one of which is refused, on a storage of three slots. -/
def demo : List (List Byte × Int) := [([1, 1], 0), ([2, 2], 0), ([9, 9], 7), ([3, 3], 0), ([4, 4], 0), ([5, 5], 0)]

def demoRun : List (List Byte) × Log := run ([[0, 0], [0, 0], [0, 0]], empty 3 2) demo

example : total demoRun.2 = 3 ∧ window (accepted demo) 3 2 0 = [[4, 4], [5, 5]] ∧
    loadLast (store fun _ _ => 0) demoRun.1 demoRun.2 [7, 7, 7, 7, 7] 2 0 = .ok (2, [4, 4, 5, 5, 7]) ∧
    loadLast (store fun _ _ => 0) demoRun.1 demoRun.2 [7, 7, 7, 7, 7] 2 1 = .ok (2, [3, 3, 4, 4, 7]) ∧
    loadLast (store fun _ _ => 0) demoRun.1 demoRun.2 [7, 7, 7, 7, 7] 5 2 = .ok (1, [3, 3, 7, 7, 7]) ∧
    loadLast (store fun _ _ => 0) demoRun.1 demoRun.2 [7, 7, 7, 7, 7] 2 4 = .ok (0, [7, 7, 7, 7, 7]) := by decide

/-! ## C52 -/

/-- The calls of `load_events` that `circular_event_log_load_last_events` makes if they succeed. -/
inductive Plan where
  | none
  | one (number start : Nat)
  | two (first start second : Nat)
  deriving DecidableEq

/-- The calls for a log. -/
def plan (l : Log) (number jump : Nat) : Plan :=
  if jump > total l then .none
  else
    let actual := if (jump + number) % 2 ^ 64 > total l then total l - jump else number
    let start := nthLast l ((actual + jump) % 2 ^ 64)
    if (start + actual) % 2 ^ 64 > l.max then .two (subZ l.max start) start (subZ actual (subZ l.max start))
    else .one actual start

/-- **C52** (partial). An error of the first or only call of `load_events` is returned (if the call itself wrote within
the caller's array), and so is 0 of the first; an error `e` of the second call is added to the (positive) result `r` of the first. So the result is
negative if `e + r` is. Missing: other errors of the second call (`C52_wrong`). -/
theorem C52_partial (dev : Dev D) (d : D) (l : Log) (events : List Byte) (number jump : Nat) :
    (∀ n s, plan l number jump = .one n s → (dev.load d n s).1 < 0 →
      ∀ r, loadLast dev d l events number jump = .ok r → r.1 = (dev.load d n s).1) ∧
    (∀ n s m, plan l number jump = .two n s m → (dev.load d n s).1 ≤ 0 →
      ∀ r, loadLast dev d l events number jump = .ok r → r.1 = (dev.load d n s).1) ∧
    (∀ n s m, plan l number jump = .two n s m → 0 < (dev.load d n s).1 →
      ∀ r, loadLast dev d l events number jump = .ok r → r.1 = (dev.load d n s).1 + (dev.load d m 0).1) := by
  rw [loadLast, plan]
  by_cases hj : jump > total l
  · rw [if_pos hj]; simp
  · rw [if_neg hj, if_neg hj]
    simp only
    generalize (if (jump + number) % 2 ^ 64 > total l then total l - jump else number) = k
    generalize nthLast l ((k + jump) % 2 ^ 64) = st
    by_cases hc : (st + k) % 2 ^ 64 > l.max
    · rw [if_pos hc, if_pos hc]
      refine ⟨by simp, ?_, ?_⟩
      · intro n s m hp hneg r hr
        injection hp with e1 e2 e3
        subst e1 e2 e3
        simp only [Res.bind_eq_ok] at hr
        obtain ⟨ev, _, hr⟩ := hr
        rw [if_pos (by omega)] at hr
        injection hr with hr
        rw [← hr]
      · intro n s m hp hpos r hr
        injection hp with e1 e2 e3
        subst e1 e2 e3
        simp only [Res.bind_eq_ok] at hr
        obtain ⟨ev, _, hr⟩ := hr
        rw [if_neg (by omega)] at hr
        simp only [Res.bind_eq_ok] at hr
        obtain ⟨ev2, _, v, hv, hr⟩ := hr
        injection hr with hr
        rw [← hr]
        rw [chkS] at hv
        split_ifs at hv
        injection hv with hv
        rw [← hv]
    · rw [if_neg hc, if_neg hc]
      refine ⟨?_, by simp, by simp⟩
      intro n s hp hneg r hr
      injection hp with e1 e2
      subst e1 e2
      simp only [Res.bind_eq_ok] at hr
      obtain ⟨ev, _, hr⟩ := hr
      injection hr with hr
      rw [← hr]

/-- **C52**, where it fails: the second call fails with `e` and the first loaded `r ≥ -e` events: the caller gets `r + e`,
as if that many events had been loaded. -/
theorem C52_wrong (dev : Dev D) (d : D) (l : Log) (events : List Byte) (number jump n s m : Nat) (r e : Int)
    (hp : plan l number jump = .two n s m) (h1 : (dev.load d n s).1 = r) (h2 : (dev.load d m 0).1 = e) (hr : 0 < r)
    (he : e < 0) (hre : 0 ≤ r + e) (hint : r < 2 ^ 31) (b1 : (dev.load d n s).2.length ≤ events.length)
    (b2 : (dev.load d m 0).2 = []) (b3 : n * l.size % 2 ^ 64 ≤ events.length) :
    ∃ ev, loadLast dev d l events number jump = .ok (r + e, ev) := by
  rw [loadLast]
  rw [plan] at hp
  by_cases hj : jump > total l
  · rw [if_pos hj] at hp; simp at hp
  · rw [if_neg hj] at hp ⊢
    simp only at hp ⊢
    generalize (if (jump + number) % 2 ^ 64 > total l then total l - jump else number) = k at *
    generalize nthLast l ((k + jump) % 2 ^ 64) = st at *
    by_cases hc : (st + k) % 2 ^ 64 > l.max
    · rw [if_pos hc] at hp ⊢
      injection hp with e1 e2 e3
      subst e1 e2 e3
      rw [place, if_pos (by omega), Res.ok_bind, if_neg (by omega), place,
        if_pos (by simp only [List.length_append, List.length_take, List.length_drop, b2, List.length_nil]; omega),
        Res.ok_bind, h1, h2, chkS, if_pos (by omega)]
      exact ⟨_, rfl⟩
    · rw [if_neg hc] at hp; simp at hp

/-- A storage the first slot of which cannot be read. -/
def bad : Dev (List (List Byte)) :=
  { store (fun _ _ => 0) with
    load := fun d number start => if start = 0 then (-1, []) else (store fun _ _ => 0).load d number start }

example : loadLast bad demoRun.1 demoRun.2 [7, 7, 7, 7, 7, 7] 3 0 = .ok (0, [3, 3, 7, 7, 7, 7]) ∧
    loadLast bad (run ([[0], [0], [0]], empty 3 1) [([1], 0)]).1 (run ([[0], [0], [0]], empty 3 1) [([1], 0)]).2 [7] 1 0 =
      .ok (-1, [7]) := by decide

/-! ## C95 -/

/-- **C95** (partial). A request for more events than there are gives all of them. Missing: requests so large that
`jump + number` overflows (`C95_wrong`). -/
theorem C95_all_partial (max size : Nat) (h0 : 0 < max) (hm : max < 2 ^ 31) (d : List (List Byte)) (hd : d.length = max)
    (es : List (List Byte × Int)) (hes : ∀ e ∈ es, e.1.length = size) (number jump : Nat) (hover : jump + number < 2 ^ 64)
    (hj : jump ≤ (accepted es).length) (hmany : max ≤ number) (events : List Byte) (hev : events.length < 2 ^ 64)
    (hfit : max * size ≤ events.length) :
    ∃ ev, loadLast (store fun _ _ => 0) (run (d, empty max size) es).1 (run (d, empty max size) es).2 events number jump =
      .ok (((min (accepted es).length max - jump : Nat) : Int), ev) := by
  have hl := (C50_window (accepted es) max number jump).1
  have := (C50_load max size h0 hm d hd es hes number jump hover events hev (by
    have : (window (accepted es) max number jump).length * size ≤ max * size := Nat.mul_le_mul_right _ (by omega)
    omega) fun _ _ => 0).2
  rw [this, hl, show min number (min (accepted es).length max - jump) = min (accepted es).length max - jump by omega]
  exact ⟨_, rfl⟩

/-- **C95**, where it fails: a request with overflow, as for `SIZE_MAX` events before the last one, on a log that is not
yet full: the storage is asked for `number` events, which it cannot have. -/
theorem C95_wrong {max size : Nat} {s : List (List Byte) × Log} {h : List (List Byte)} (hi : Inv max size s h)
    (h0 : 0 < max) (hm : max < 2 ^ 31) (hnot : h.length < max) (number jump : Nat) (hn : number < 2 ^ 64)
    (hj : jump ≤ h.length) (hover : 2 ^ 64 ≤ jump + number) (events : List Byte) (refuse : Nat → List Byte → Int) :
    loadLast (store refuse) s.1 s.2 events number jump = .ok (-1, events) := by
  have ht := total_eq hi
  rw [Nat.min_eq_left (by omega)] at ht
  have hk : (if (jump + number) % 2 ^ 64 > h.length then h.length - jump else number) = number := by
    rw [if_neg (by omega)]
  rw [loadLast, ht, if_neg (by omega)]
  simp only [hk]
  rw [Nat.mod_eq_sub_mod (show 2 ^ 64 ≤ number + jump by omega),
    Nat.mod_eq_of_lt (show number + jump - 2 ^ 64 < 2 ^ 64 by omega), nthLast_eq hi _ h0 hm (by omega),
    Nat.mod_eq_of_lt (show h.length - (number + jump - 2 ^ 64) < max by omega)]
  rw [Nat.mod_eq_sub_mod (show 2 ^ 64 ≤ h.length - (number + jump - 2 ^ 64) + number by omega),
    Nat.mod_eq_of_lt (by omega), hi.max_eq, if_neg (by omega)]
  have hld : (store refuse).load s.1 number (h.length - (number + jump - 2 ^ 64)) = (-1, []) := by
    simp only [store]; rw [if_neg (by rw [hi.len]; omega)]
  rw [hld]
  simp [place]

example : loadLast (store fun _ _ => 0) (run ([[0], [0], [0]], empty 3 1) [([1], 0), ([2], 0)]).1
    (run ([[0], [0], [0]], empty 3 1) [([1], 0), ([2], 0)]).2 [7, 7, 7] (2 ^ 64 - 1) 1 = .ok (-1, [7, 7, 7]) := by decide

/-! ## C107 -/

theorem place_ok {events bytes : List Byte} {off : Nat} (h : off + bytes.length ≤ events.length) :
    ∃ ev, place events off bytes = .ok ev ∧ ev.length = events.length ∧ ∀ i, ev[i]? =
      if off ≤ i ∧ i < off + bytes.length then bytes[i - off]? else events[i]? := by
  refine ⟨_, by rw [place, if_pos h], by simp; omega, ?_⟩
  intro i
  simp only [List.getElem?_append, List.length_append, List.length_take, Nat.min_eq_left (show off ≤ events.length by omega),
    List.getElem?_take, List.getElem?_drop]
  by_cases h1 : i < off
  · rw [if_pos (by omega), if_pos h1, if_pos h1, if_neg (by omega)]
  · by_cases h2 : i < off + bytes.length
    · rw [if_pos h2, if_neg h1, if_pos (by omega)]
    · rw [if_neg h2, if_neg (by omega)]
      congr 1
      omega

/-- **C107** (partial). If the storage delivers what it says (`size` bytes for each event), the events returned are contiguous
at the start of the caller's array, provided that a short load is not the first of two. Missing: that case (`C107_wrong`). -/
theorem C107_partial (dev : Dev D) (d : D) (l : Log) (events : List Byte) (number jump : Nat) :
    (∀ n s (q : Nat), plan l number jump = .one n s → (dev.load d n s).1 = q → (dev.load d n s).2.length = q * l.size →
      q * l.size ≤ events.length →
      ∃ ev, loadLast dev d l events number jump = .ok ((q : Int), ev) ∧ ev.take (q * l.size) = (dev.load d n s).2) ∧
    (∀ n s m (q : Nat), plan l number jump = .two n s m → 0 < n → (dev.load d n s).1 = n → (dev.load d m 0).1 = q →
      (dev.load d n s).2.length = n * l.size → (dev.load d m 0).2.length = q * l.size → n + q < 2 ^ 31 →
      (n + q) * l.size ≤ events.length → events.length < 2 ^ 64 →
      ∃ ev, loadLast dev d l events number jump = .ok (((n + q : Nat) : Int), ev) ∧
        ev.take ((n + q) * l.size) = (dev.load d n s).2 ++ (dev.load d m 0).2) := by
  rw [loadLast, plan]
  by_cases hj : jump > total l
  · rw [if_pos hj]; simp
  · rw [if_neg hj, if_neg hj]
    simp only
    generalize (if (jump + number) % 2 ^ 64 > total l then total l - jump else number) = k
    generalize nthLast l ((k + jump) % 2 ^ 64) = st
    by_cases hc : (st + k) % 2 ^ 64 > l.max
    · rw [if_pos hc, if_pos hc]
      refine ⟨by simp, ?_⟩
      intro n s m q hp hn h1 h2 b1 b2 hi hfit hsz
      injection hp with e1 e2 e3
      subst e1 e2 e3
      have hd : (subZ l.max st + q) * l.size = subZ l.max st * l.size + q * l.size := Nat.add_mul ..
      obtain ⟨ev, p1, p2, p3⟩ := place_ok (events := events) (bytes := (dev.load d (subZ l.max st) st).2) (off := 0) (by omega)
      have hmod : subZ l.max st * l.size % 2 ^ 64 = subZ l.max st * l.size := Nat.mod_eq_of_lt (by omega)
      obtain ⟨ev2, p4, p5, p6⟩ := place_ok (events := ev)
        (bytes := (dev.load d (subZ k (subZ l.max st)) 0).2) (off := subZ l.max st * l.size) (by omega)
      refine ⟨ev2, ?_, ?_⟩
      · rw [p1, Res.ok_bind, if_neg (by omega), hmod, p4, Res.ok_bind, h1, h2, chkS, if_pos (by omega), Res.ok_bind]
        rfl
      · apply List.ext_getElem?
        intro i
        rw [List.getElem?_take, List.getElem?_append, b1]
        by_cases hi1 : i < subZ l.max st * l.size
        · rw [if_pos (by omega), if_pos hi1, p6, if_neg (by omega), p3, if_pos (by omega), Nat.sub_zero]
        · rw [if_neg hi1]
          by_cases hi2 : i < (subZ l.max st + q) * l.size
          · rw [if_pos hi2, p6, if_pos (by omega)]
          · rw [if_neg hi2, List.getElem?_eq_none (by omega)]
    · rw [if_neg hc, if_neg hc]
      refine ⟨?_, by simp⟩
      intro n s q hp h1 b1 hfit
      injection hp with e1 e2
      subst e1 e2
      obtain ⟨ev, p1, p2, p3⟩ := place_ok (events := events) (bytes := (dev.load d k st).2) (off := 0) (by omega)
      refine ⟨ev, ?_, ?_⟩
      · rw [p1, Res.ok_bind, h1]
        rfl
      · apply List.ext_getElem?
        intro i
        rw [List.getElem?_take]
        by_cases hi1 : i < q * l.size
        · rw [if_pos hi1, p3, if_pos (by omega), Nat.sub_zero]
        · rw [if_neg hi1, List.getElem?_eq_none (by omega)]

/-- **C107**, where it fails: the first of two loads gives only `r < n` events and the second one `q`. The caller is told
`r + q` events, but those of the second load are behind a gap: the bytes from event `r` to event `n` are what they were. -/
theorem C107_wrong (dev : Dev D) (d : D) (l : Log) (events : List Byte) (number jump n s m r q : Nat)
    (hp : plan l number jump = .two n s m) (hr : 0 < r) (hrn : r < n)
    (h1 : (dev.load d n s).1 = r) (h2 : (dev.load d m 0).1 = q) (b1 : (dev.load d n s).2.length = r * l.size)
    (b2 : (dev.load d m 0).2.length = q * l.size) (hi : r + q < 2 ^ 31) (hfit : (n + q) * l.size ≤ events.length)
    (hsz : events.length < 2 ^ 64) :
    ∃ ev, loadLast dev d l events number jump = .ok (((r + q : Nat) : Int), ev) ∧
      (∀ i, r * l.size ≤ i → i < n * l.size → ev[i]? = events[i]?) ∧
      ((ev.drop (n * l.size)).take (q * l.size)) = (dev.load d m 0).2 := by
  rw [loadLast]
  rw [plan] at hp
  by_cases hj : jump > total l
  · rw [if_pos hj] at hp; simp at hp
  · rw [if_neg hj] at hp ⊢
    simp only at hp ⊢
    generalize (if (jump + number) % 2 ^ 64 > total l then total l - jump else number) = k at *
    generalize nthLast l ((k + jump) % 2 ^ 64) = st at *
    by_cases hc : (st + k) % 2 ^ 64 > l.max
    · rw [if_pos hc] at hp ⊢
      injection hp with e1 e2 e3
      subst e1 e2 e3
      have hd : (subZ l.max st + q) * l.size = subZ l.max st * l.size + q * l.size := Nat.add_mul ..
      have hle : r * l.size ≤ subZ l.max st * l.size := Nat.mul_le_mul_right _ (by omega)
      obtain ⟨ev, p1, p2, p3⟩ := place_ok (events := events) (bytes := (dev.load d (subZ l.max st) st).2) (off := 0) (by omega)
      have hmod : subZ l.max st * l.size % 2 ^ 64 = subZ l.max st * l.size := Nat.mod_eq_of_lt (by omega)
      obtain ⟨ev2, p4, p5, p6⟩ := place_ok (events := ev)
        (bytes := (dev.load d (subZ k (subZ l.max st)) 0).2) (off := subZ l.max st * l.size) (by omega)
      refine ⟨ev2, ?_, ?_, ?_⟩
      · rw [p1, Res.ok_bind, if_neg (by omega), hmod, p4, Res.ok_bind, h1, h2, chkS, if_pos (by omega), Res.ok_bind]
        rfl
      · intro i i1 i2
        rw [p6, if_neg (by omega), p3, if_neg (by omega)]
      · apply List.ext_getElem?
        intro i
        rw [List.getElem?_take, List.getElem?_drop]
        by_cases hi1 : i < q * l.size
        · rw [if_pos hi1, p6, if_pos (by omega), Nat.add_sub_cancel_left]
        · rw [if_neg hi1, List.getElem?_eq_none (by omega)]
    · rw [if_neg hc] at hp; simp at hp

/-- A storage that loads at most one event per call. -/
def slow : Dev (List (List Byte)) :=
  { store (fun _ _ => 0) with
    load := fun d number start => (store fun _ _ => 0).load d (min 1 number) start }

example : plan (run ([[0], [0], [0]], empty 3 1) [([1], 0), ([2], 0), ([3], 0), ([4], 0)]).2 3 0 = .two 2 1 1 ∧
    loadLast slow (run ([[0], [0], [0]], empty 3 1) [([1], 0), ([2], 0), ([3], 0), ([4], 0)]).1
      (run ([[0], [0], [0]], empty 3 1) [([1], 0), ([2], 0), ([3], 0), ([4], 0)]).2 [7, 7, 7] 3 0 = .ok (2, [2, 7, 4]) := by
  decide

end Gel.EventLog
