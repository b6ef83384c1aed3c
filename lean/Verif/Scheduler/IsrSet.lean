import Verif.Scheduler.IsrProps

/-!
# Scheduler: an entry that is being set, seen by an interrupt handler (C217)

`scheduler_set_entry` copies a structure (scheduler.c:64). The members are stored one after the other, in an order that the compiler
chooses: `ord` is any list in which each member occurs once. A handler may run between any two stores; it only asks, and so it
sees the members stored so far.
-/
namespace Gel.Scheduler

open Prog

/-- One member of an entry is stored. -/
def Fld.copy (f : Fld) (new old : Entry) : Entry := match f with
  | .enabled => { old with enabled := new.enabled }
  | .days => { old with days := new.days }
  | .start => { old with start := new.start }
  | .stop => { old with stop := new.stop }
  | .value => { old with value := new.value }

/-- The members `fs` of `new` are stored. -/
def stored (new : Entry) (fs : List Fld) (old : Entry) : Entry := fs.foldl (fun e f => f.copy new e) old

/-- An order of the members, each of them once. -/
structure Order (ord : List Fld) : Prop where
  all : ∀ f, f ∈ ord
  once : ord.Nodup

/-- The table that a handler sees after `j` of the stores of `scheduler_set_entry(scheduler, k, new)`, scheduler.c:60-67. -/
def during (ord : List Fld) (k : Nat) (new : Entry) (j : Nat) (s : Sched) : Sched := match s[k]? with
  | some old => s.set k (stored new (ord.take j) old)
  | none => s

/-- The members of a copy in progress. -/
def mixed (new : Entry) (fs : List Fld) (old : Entry) : Entry :=
  ⟨if .enabled ∈ fs then new.enabled else old.enabled, if .days ∈ fs then new.days else old.days,
    if .start ∈ fs then new.start else old.start, if .stop ∈ fs then new.stop else old.stop,
    if .value ∈ fs then new.value else old.value⟩

theorem stored_eq (new : Entry) : ∀ fs old, stored new fs old = mixed new fs old := by
  intro fs
  induction fs with
  | nil => intro old; simp [stored, mixed]
  | cons f fs ih =>
    intro old
    rw [stored, List.foldl_cons]
    refine (ih _).trans ?_
    cases f <;> simp [mixed, Fld.copy]

/-- What a guarded program sees of an entry that is disabled. -/
theorem exec_masked {α : Type} {k : Nat} {Q : Seen → α → Prop} {e e' : Entry} (h : e.enabled = 0) (h' : e'.enabled = 0) (p : Prog α) :
    ∀ n s, s[k]? = some e → Guarded k Q .nothing p → exec quiet n p (s.set k e') = exec quiet n p s := by
  induction p with
  | ret a => intros; rfl
  | ld i f c ih =>
    intro n s hs hp
    simp only [exec, quiet]
    by_cases hi : i = k
    · subst hi
      have hf : f = .enabled := by
        cases f <;> simp [Guarded] at hp ⊢
      subst hf
      simp only [Guarded, if_true] at hp
      have hlen := (List.getElem?_eq_some_iff.1 hs).1
      simp only [rd, hs, List.getElem?_set_self hlen, Res.ok_bind, Fld.get, h, h']
      exact (exec_off e' 0 _ _ _ hp.1).2
    · have hc : ∀ v, Guarded k Q .nothing (c v) := by
        cases f <;> simp only [Guarded] at hp
        case enabled => rwa [if_neg hi] at hp
        all_goals exact hp.2
      rw [rd_set_ne hi]
      cases hr : rd s i with
      | ok a => simp only [Res.ok_bind]; exact ih _ _ _ hs (hc _)
      | _ => rfl

/-- The other members of a disabled entry do not matter to a query. -/
theorem ask_masked {α : Type} (L : Nat) (tm : Tm) (q : Query α) {s : Sched} {k : Nat} {e : Entry} (he : s[k]? = some e)
    (h : e.enabled = 0) (e' : Entry) (h' : e'.enabled = 0) : q.ask L tm (s.set k e') = q.ask L tm s := by
  rw [← quiet_query L tm s q, ← quiet_query L tm (s.set k e') q, List.length_set]
  exact exec_masked h h' _ _ _ he (guarded_query L s.length tm k q)

/-- **C217**: what is seen of the entry: the members stored so far are the new ones, in the end all of them. -/
theorem C217_exact (ord : List Fld) (hord : Order ord) (k : Nat) (new old : Entry) (s : Sched) (hk : s[k]? = some old) (j : Nat) :
    during ord k new j s = s.set k (mixed new (ord.take j) old) ∧ during ord k new 0 s = s ∧
      during ord k new ord.length s = callSet k new s := by
  refine ⟨by rw [during, hk]; simp only [stored_eq], ?_, ?_⟩
  · obtain ⟨hl, rfl⟩ := List.getElem?_eq_some_iff.1 hk
    simp [during, stored, hl]
  · rw [during, hk, callSet_eq (List.getElem?_eq_some_iff.1 hk).1]
    simp [stored_eq, mixed, hord.all]

/-- A member that comes last in the order is not among those stored before the last store. -/
theorem not_mem_take {f : Fld} {pre : List Fld} (h : (pre ++ [f]).Nodup) {j : Nat} (hj : j < (pre ++ [f]).length) :
    f ∉ (pre ++ [f]).take j := by
  rw [List.take_append_of_le_length (by simp at hj; omega)]
  intro hm
  exact (List.nodup_append.1 h).2.2 f (List.mem_of_mem_take hm) f (by simp) rfl

/-- **C217** (of disabled entries): if the entry was disabled and `enabled` is stored last, or the new entry is disabled and `enabled` is
stored first, a query by the handler answers at every moment as before the call or as after it. -/
theorem C217_partial {α : Type} (L : Nat) (tm : Tm) (q : Query α) (ord : List Fld) (hord : Order ord) (k : Nat) (new : Entry) (s : Sched)
    (h : (∃ pre, ord = pre ++ [.enabled] ∧ ∀ old, s[k]? = some old → old.enabled = 0) ∨ (∃ post, ord = .enabled :: post ∧ new.enabled = 0))
    (j : Nat) :
    q.ask L tm (during ord k new j s) = q.ask L tm s ∨ q.ask L tm (during ord k new j s) = q.ask L tm (callSet k new s) := by
  cases hk : s[k]? with
  | none => exact .inl (by rw [during, hk])
  | some old =>
    have hlen := (List.getElem?_eq_some_iff.1 hk).1
    obtain ⟨hd, h0, h1⟩ := C217_exact ord hord k new old s hk j
    rcases h with ⟨pre, rfl, ho⟩ | ⟨post, rfl, hn⟩
    · by_cases hj : j < (pre ++ [Fld.enabled]).length
      · left
        rw [hd]
        refine ask_masked L tm q hk (ho _ hk) _ ?_
        simp only [mixed, if_neg (not_mem_take hord.once hj)]
        exact ho _ hk
      · right
        rw [← h1, during, during, hk]
        simp only [List.take_of_length_le (show (pre ++ [Fld.enabled]).length ≤ j by omega), List.take_length]
    · cases j with
      | zero => exact .inl (by rw [h0])
      | succ j =>
        right
        rw [hd, callSet_eq hlen]
        have := ask_masked L tm q (s := s.set k new) (k := k) (e := new) (by rw [List.getElem?_set_self hlen]) hn
          (mixed new ((Fld.enabled :: post).take (j + 1)) old) (by simp [mixed, hn])
        rwa [List.set_set] at this

/-- One member is stored while another is not yet. -/
theorem before_or {ord : List Fld} (hord : Order ord) {a b : Fld} (hab : a ≠ b) :
    ∃ j, (a ∈ ord.take j ∧ b ∉ ord.take j) ∨ (b ∈ ord.take j ∧ a ∉ ord.take j) := by
  have key : ∀ (l : List Fld), a ∈ l → b ∈ l → ∃ j, (a ∈ l.take j ∧ b ∉ l.take j) ∨ (b ∈ l.take j ∧ a ∉ l.take j) := by
    intro l
    induction l with
    | nil => intro h; simp at h
    | cons c l ih =>
      intro ha hb
      by_cases hca : c = a
      · exact ⟨1, .inl ⟨by simp [hca], by simp [hca, Ne.symm hab]⟩⟩
      · by_cases hcb : c = b
        · exact ⟨1, .inr ⟨by simp [hcb], by simp [hcb, hab]⟩⟩
        · obtain ⟨j, hj⟩ := ih (by simpa [Ne.symm hca] using ha) (by simpa [Ne.symm hcb] using hb)
          exact ⟨j + 1, by simpa [Ne.symm hca, Ne.symm hcb] using hj⟩
  exact key ord (hord.all a) (hord.all b)

/-- **C217** is false of an enabled entry, whatever the order of the stores: there are entries such that the handler finds the schedule
active at a time at which neither the old nor the new entry is. -/
theorem C217_wrong (ord : List Fld) (hord : Order ord) : ∃ (old new : Entry) (tm : Tm) (j : Nat), ∀ L,
    activeEntry L (during ord 0 new j [old]) tm = 0 ∧ activeEntry L [old] tm = -1 ∧ activeEntry L (callSet 0 new [old]) tm = -1 := by
  obtain ⟨j, ⟨hd, hs⟩ | ⟨hs, hd⟩⟩ := before_or hord (show Fld.days ≠ .start by decide)
  · refine ⟨⟨1, 2, 28800, 50400, 20⟩, ⟨1, 4, 43200, 50400, 20⟩, ⟨2, 9, 0, 0⟩, j, fun L => ⟨?_, rfl, rfl⟩⟩
    rw [(C217_exact ord hord 0 _ ⟨1, 2, 28800, 50400, 20⟩ _ rfl j).1]
    simp only [mixed, if_pos hd, if_neg hs, ite_self]
    rfl
  · refine ⟨⟨1, 2, 43200, 50400, 20⟩, ⟨1, 4, 28800, 50400, 20⟩, ⟨1, 9, 0, 0⟩, j, fun L => ⟨?_, rfl, rfl⟩⟩
    rw [(C217_exact ord hord 0 _ ⟨1, 2, 43200, 50400, 20⟩ _ rfl j).1]
    simp only [mixed, if_pos hs, if_neg hd, ite_self]
    rfl

/-- The order of the declaration. -/
theorem order_decl : Order [.enabled, .days, .start, .stop, .value] := ⟨fun f => by cases f <;> simp, by decide⟩

/-- With the order of the declaration, after two stores: Tuesday from 8. -/
example : during [.enabled, .days, .start, .stop, .value] 0 tuesdayEntry 2 [mondayEntry] = [⟨1, 4, 28800, 36000, 20⟩] := by decide

/-- **C217** is false even of an entry that was disabled, if `enabled` is not stored last: the handler finds the new entry enabled with
what is left of the old one. -/
theorem C217_first_wrong : ∃ (ord : List Fld) (j : Nat), Order ord ∧ let s := [{ mondayEntry with enabled := 0 }]
    let tm : Tm := ⟨1, 9, 0, 0⟩
    activeEntry 64 (during ord 0 tuesdayEntry j s) tm = 0 ∧ activeEntry 64 s tm = -1 ∧ activeEntry 64 (callSet 0 tuesdayEntry s) tm = -1 :=
  ⟨_, 1, order_decl, rfl, rfl, rfl⟩

/-! ## Disable, change, enable -/

/-- The entry is disabled, its other members `fs` are stored in any order through the pointer of `scheduler_get_entry_mut`, then it is
enabled: the entry after `j` of these stores. -/
def careful (fs : List Fld) (new old : Entry) (j : Nat) : Entry :=
  if j = 0 then old
  else if j ≤ fs.length + 1 then stored new (fs.take (j - 1)) { old with enabled := 0 }
  else stored new (fs ++ [.enabled]) { old with enabled := 0 }

/-- **C217** of an entry that is disabled first and enabled last: at every moment a query by the handler answers as before, as with the
entry disabled, or as after. -/
theorem C217_careful {α : Type} (L : Nat) (tm : Tm) (q : Query α) (fs : List Fld) (hfs : Order (fs ++ [.enabled])) (k : Nat)
    (new old : Entry) (s : Sched) (hk : s[k]? = some old) (j : Nat) :
    q.ask L tm (s.set k (careful fs new old j)) = q.ask L tm s ∨
      q.ask L tm (s.set k (careful fs new old j)) = q.ask L tm (callDisable k s) ∨
      q.ask L tm (s.set k (careful fs new old j)) = q.ask L tm (callSet k new s) := by
  have hlen := (List.getElem?_eq_some_iff.1 hk).1
  have hne : Fld.enabled ∉ fs := fun hm => (List.nodup_append.1 hfs.once).2.2 _ hm _ (by simp) rfl
  unfold careful
  split
  · left
    obtain ⟨hl, rfl⟩ := List.getElem?_eq_some_iff.1 hk
    rw [List.set_getElem_self]
  · split
    · right; left
      rw [callDisable_eq hk]
      have := ask_masked L tm q (s := s.set k { old with enabled := 0 }) (k := k) (by rw [List.getElem?_set_self hlen]) rfl
        (stored new (fs.take (j - 1)) { old with enabled := 0 }) (by
          rw [stored_eq]
          simp only [mixed, if_neg (fun hm => hne (List.mem_of_mem_take hm))])
      rwa [List.set_set] at this
    · right; right
      rw [callSet_eq hlen, stored_eq]
      simp only [mixed, hfs.all, if_true]

/-- Monday's entry becomes Tuesday's. -/
example : (List.range 7).map (careful [.days, .start, .stop, .value] tuesdayEntry mondayEntry) =
    [mondayEntry, ⟨0, 2, 28800, 36000, 20⟩, ⟨0, 4, 28800, 36000, 20⟩, ⟨0, 4, 43200, 36000, 20⟩, ⟨0, 4, 43200, 50400, 20⟩,
      ⟨0, 4, 43200, 50400, 25⟩, tuesdayEntry] := by decide

/-- **C217** is false of the functions that do not look at `enabled` even so: the map of active entries and the remaining time of an entry
are those of the mixture. -/
theorem C217_map_wrong : let s := [careful [.days, .start, .stop, .value] tuesdayEntry mondayEntry 2]
    let tm : Tm := ⟨2, 9, 0, 0⟩
    activeMap tm s 0 0 = .ok 1 ∧ remaining 64 s 0 tm = .ok 3600 ∧
      activeMap tm [mondayEntry] 0 0 = .ok 0 ∧ remaining 64 [mondayEntry] 0 tm = .ok 0 ∧
      activeMap tm [tuesdayEntry] 0 0 = .ok 0 ∧ remaining 64 [tuesdayEntry] 0 tm = .ok 0 := by
  refine ⟨?_, ?_, ?_, ?_, ?_, ?_⟩ <;> rfl

end Gel.Scheduler
