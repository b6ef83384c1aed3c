import Verif.EventLog.Props

/-!
# Circular event log: requests whose sum overflows (C146)
-/
namespace Gel.EventLog

open Spec

theorem overflow_inv {max size : Nat} {s : List (List Byte) × Log} {h : List (List Byte)} (hi : Inv max size s h)
    (h0 : 0 < max) (hm : max < 2 ^ 31) (hsz : ∀ e ∈ h, e.length = size) (number jump : Nat) (hn : number < 2 ^ 64)
    (hj : jump ≤ min h.length max) (hover : 2 ^ 64 ≤ jump + number) (events : List Byte) (hev : events.length < 2 ^ 64)
    (refuse : Nat → List Byte → Int) (k c : Nat) (hk : k = jump + number - 2 ^ 64) (hc : c = h.length % max) :
    loadLast (store refuse) s.1 s.2 events number jump =
      if max ≤ h.length ∧ k ≤ c ∧ c < jump then
        if (max - c + k) * size ≤ events.length then
          .ok ((max - c + k : Nat) - 1, (h.drop (h.length - k) ++ (h.drop (h.length - max)).take (max - c)).flatten ++
            events.drop ((max - c + k) * size))
        else .ub
      else .ok (-1, events) := by
  have ht := total_eq hi
  have hlt : c < max := by rw [hc]; exact Nat.mod_lt _ h0
  have hfail : ∀ a b, max < b + a → (store refuse).load s.1 a b = (-1, []) := by
    intro a b hab
    simp only [store]
    rw [if_neg (by rw [hi.len]; omega)]
  have hplace : ∀ off (ev : List Byte), off ≤ ev.length → place ev off [] = .ok ev := by
    intro off ev ho
    rw [place, if_pos (by simpa using ho)]
    simp
  have hone : ∀ start, max < start + number →
      (do let ev ← place events 0 ((store refuse).load s.1 number start).2
          pure (((store refuse).load s.1 number start).1, ev) : Res (Int × List Byte)) = .ok (-1, events) := by
    intro start hs
    rw [hfail _ _ hs, hplace 0 events (Nat.zero_le _)]
    rfl
  rw [loadLast, ht, if_neg (by omega)]
  have e1 : (jump + number) % 2 ^ 64 = k := by omega
  have e2 : (number + jump) % 2 ^ 64 = k := by omega
  have e3 : (if k > min h.length max then min h.length max - jump else number) = number := if_neg (by omega)
  simp only [e1, e3, e2]
  rw [nthLast, hi.next, hi.full, hi.max_eq, ← hc]
  by_cases hfull : max ≤ h.length
  · by_cases hkc : k ≤ c
    · rw [if_pos hkc]
      by_cases hcj : c < jump
      · rw [if_pos (show (c - k + number) % 2 ^ 64 > max by omega),
          if_pos (show max ≤ h.length ∧ k ≤ c ∧ c < jump from ⟨hfull, hkc, hcj⟩)]
        simp only [subZ_eq (show c - k ≤ max by omega) (show max < 2 ^ 64 by omega)]
        rw [load_store s.1 (max - (c - k)) (c - k) (by rw [hi.len]; omega)]
        have hsl1 : (s.1.drop (c - k)).take k = (h.drop (h.length - k)).take k := by
          have := slots hi (h.length - k) k h0 (by rw [mod_sub h0 (by omega) (by omega), ← hc, if_pos hkc]; omega)
            (by omega) (by omega)
          rwa [mod_sub h0 (by omega) (by omega), ← hc, if_pos hkc] at this
        have hsl2 : (s.1.drop c).take (max - c) = (h.drop (h.length - max)).take (max - c) := by
          have hq : (h.length - max) % max = c := by
            rw [mod_sub h0 (by omega) (by omega), ← hc]
            split_ifs <;> omega
          have := slots hi (h.length - max) (max - c) h0 (by rw [hq]; omega) (by omega) (by omega)
          rwa [hq] at this
        have hbytes : (s.1.drop (c - k)).take (max - (c - k)) =
            h.drop (h.length - k) ++ (h.drop (h.length - max)).take (max - c) := by
          rw [show max - (c - k) = k + (max - c) by omega, List.take_add, hsl1, List.drop_drop,
            show c - k + k = c by omega, hsl2, List.take_of_length_le (by rw [List.length_drop]; omega)]
        rw [hbytes]
        generalize hF : h.drop (h.length - k) ++ (h.drop (h.length - max)).take (max - c) = F
        have hFl : F.length = max - c + k := by
          rw [← hF, List.length_append, List.length_take, List.length_drop, List.length_drop]; omega
        have hfl : F.flatten.length = (max - c + k) * size := by
          rw [flatten_length size F, hFl]
          intro x hx
          rw [← hF, List.mem_append] at hx
          rcases hx with hx | hx
          · exact hsz x (List.mem_of_mem_drop hx)
          · exact hsz x (List.mem_of_mem_drop (List.mem_of_mem_take hx))
        have e3 : max - (c - k) = max - c + k := by omega
        rw [e3]
        simp only
        by_cases hroom : (max - c + k) * size ≤ events.length
        · rw [if_pos hroom, place, if_pos (by rw [hfl]; omega), Res.ok_bind, if_neg (by omega)]
          rw [hfail _ 0 (by rw [subZ_eq (by omega) hn]; omega)]
          simp only [List.take_zero, List.nil_append, Nat.zero_add, hi.size_eq, hfl]
          rw [Nat.mod_eq_of_lt (by omega), hplace _ _ (by rw [List.length_append, hfl]; omega), Res.ok_bind, chkS,
            if_pos (by omega), Res.ok_bind]
          simp only [Res.pure_eq]
          congr 2
        · rw [if_neg hroom, place, if_neg (by rw [hfl]; omega)]
          rfl
      · rw [if_neg (show ¬ (c - k + number) % 2 ^ 64 > max by omega),
          if_neg (show ¬ (max ≤ h.length ∧ k ≤ c ∧ c < jump) by omega)]
        exact hone _ (by omega)
    · rw [if_neg hkc, if_pos (show decide (max ≤ h.length) = true by simpa using hfull), subZ_eq (by omega) (by omega)]
      rw [if_neg (show ¬ (max - (k - c) + number) % 2 ^ 64 > max by omega),
        if_neg (show ¬ (max ≤ h.length ∧ k ≤ c ∧ c < jump) by omega)]
      exact hone _ (by omega)
  · have hcl : c = h.length := by rw [hc, Nat.mod_eq_of_lt (by omega)]
    rw [if_pos (show c ≥ k by omega), if_neg (show ¬ (c - k + number) % 2 ^ 64 > max by omega),
      if_neg (show ¬ (max ≤ h.length ∧ k ≤ c ∧ c < jump) by omega)]
    exact hone _ (by omega)

/-- **C146.** A request for `number` events before the last `jump` whose sum is `2^64 + k`, after any history of calls with
refusals anywhere. With `c` the position of the next event: if the log is full and `k ≤ c < jump`, the caller gets the last
`k` events followed by the oldest `max - c`, and is told one less; the behaviour is undefined if his array has no room for
them. In all other cases he gets the error -1. -/
theorem C146_overflow (max size : Nat) (h0 : 0 < max) (hm : max < 2 ^ 31) (d : List (List Byte)) (hd : d.length = max)
    (es : List (List Byte × Int)) (hes : ∀ e ∈ es, e.1.length = size) (number jump : Nat) (hn : number < 2 ^ 64)
    (hj : jump ≤ min (accepted es).length max) (hover : 2 ^ 64 ≤ jump + number) (events : List Byte)
    (hev : events.length < 2 ^ 64) (refuse : Nat → List Byte → Int) (k c : Nat) (hk : k = jump + number - 2 ^ 64)
    (hc : c = (accepted es).length % max) (h : List (List Byte)) (hh : h = accepted es) :
    loadLast (store refuse) (run (d, empty max size) es).1 (run (d, empty max size) es).2 events number jump =
      if max ≤ h.length ∧ k ≤ c ∧ c < jump then
        if (max - c + k) * size ≤ events.length then
          .ok ((max - c + k : Nat) - 1, (h.drop (h.length - k) ++ (h.drop (h.length - max)).take (max - c)).flatten ++
            events.drop ((max - c + k) * size))
        else .ub
      else .ok (-1, events) := by
  subst hh
  have hi := inv_run h0 hm es _ _ (inv_empty size h0 d hd)
  rw [List.nil_append] at hi
  refine overflow_inv hi h0 hm ?_ number jump hn hj hover events hev refuse k c hk hc
  intro e he
  rw [accepted, List.mem_map] at he
  obtain ⟨x, hx, rfl⟩ := he
  exact hes x ((List.mem_filter.1 hx).1)

/-- Five events in a log of three. Asked for `SIZE_MAX` events before the last three, of which there are none, it gives the
events 4, 5 and 3, and says two. -/
example : let s := run ([[0], [0], [0]], empty 3 1) [([1], 0), ([2], 0), ([3], 0), ([9], 7), ([4], 0), ([5], 0)]
    loadLast (store fun _ _ => 0) s.1 s.2 [0, 0, 0, 0] (2 ^ 64 - 1) 3 = .ok (2, [4, 5, 3, 0]) ∧
    loadLast (store fun _ _ => 0) s.1 s.2 [0, 0] (2 ^ 64 - 1) 3 = .ub ∧
    loadLast (store fun _ _ => 0) s.1 s.2 [0, 0, 0] (2 ^ 64 - 1) 1 = .ok (-1, [0, 0, 0]) := by decide +kernel

end Gel.EventLog
