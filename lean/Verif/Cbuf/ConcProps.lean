import Verif.Cbuf.ConcLemmas

/-!
# Circular buffer, one producer and one consumer thread: properties C06, C07 and C87
-/
namespace Gel.Cbuf.Conc

variable {α : Type u} {n : Nat}

/-- The label of a call to a bulk operation. -/
def BulkCall : Lbl α → Prop
  | .putsCall _ | .getsCall _ => True
  | _ => False

/-- **C87.** Every interleaving of a producer calling putc and puts and a consumer calling getc and gets, in which no
bulk put starts with more than fits and no bulk get asks for more than the capacity, is lossless: what the consumer
got is a prefix of what the producer was told is stored, followed by a prefix of the bulk put still in progress; the
difference never exceeds the capacity. -/
theorem C87_bulk_spsc (buffer : List α) (hn : 0 < n) (hb : buffer.length = n) {tr : List (Lbl α)} {s : St α}
    (h : Exec n buffer tr s) (hp : ∀ l ∈ tr, Polite n l) :
    ∃ inflight, inflight <+: putting s.p ∧ got tr <+: accepted tr ++ inflight ∧
      (s.c = .idle → (accepted tr ++ inflight).length ≤ (got tr).length + (n - 1)) := by
  obtain ⟨q, hq⟩ := Inv.exec hb hn h hp
  refine ⟨pub s.p, ?_, ?_, ?_⟩
  · cases s.p <;> simp [pub, putting]
  · rw [hq.flow, List.append_assoc]; exact List.prefix_append _ _
  · intro hc
    rw [hq.flow, hc]
    have : q.length < n := hq.rep.q_lt
    simp [cacc]; omega

theorem single_pcs {buffer : List α} {tr : List (Lbl α)} {s : St α} (h : Exec n buffer tr s)
    (hs : ∀ l ∈ tr, ¬BulkCall l) :
    (s.p = .idle ∨ (∃ x, s.p = .check x ∨ s.p = .write x ∨ s.p = .adv x ∨ s.p = .setHead x)) ∧
    (s.c = .idle ∨ s.c = .echeck ∨ s.c = .rdslot ∨ ∃ v, s.c = .setTail v) ∧ ∀ l ∈ tr, Polite n l := by
  induction h with
  | init => simp
  | step h hst ih =>
    obtain ⟨h1, h2, h3⟩ := ih (fun l hl => hs l (List.mem_append_left _ hl))
    have hl := hs _ (List.mem_append_right _ List.mem_cons_self)
    simp only [List.mem_append, List.mem_singleton]
    cases hst with
    | callPutc x e | checkFull x e | checkOk x e | write x e | advFull x e | advOk x e | setHead x e =>
      exact ⟨by simp, h2, fun l hm => hm.elim (h3 l) (fun e => by subst e; trivial)⟩
    | callGetc e | echeckEmpty e | echeckOk e | rdslot v e | setTail v e =>
      exact ⟨h1, by simp, fun l hm => hm.elim (h3 l) (fun e => by subst e; trivial)⟩
    | callPuts _ _ | callGets _ _ => exact absurd trivial hl
    | snap d e | loopEnd t d r e | loopGo t d r e | copy t d r c i x e | copyEnd t d r c i e | badvSkip t d r c e
    | badvOk t d r c e | bset t d r c e => rw [e] at h1; simp at h1
    | gsz1 len e | gsz2 len h1 e | ghead len e | gloopEnd hh acc e | gloopGo hh len acc e | gcopy hh len acc c cp v e
    | gcopyEnd hh len acc c cp e | gset hh len acc cp e => rw [e] at h2; simp at h2

/-- **C06.** Every interleaving of a producer calling putc and a consumer calling getc is lossless: what the consumer
got is a prefix of what the producer successfully put, in order, and at most `n - 1` elements are in between. -/
theorem C06_spsc_fifo (buffer : List α) (hn : 0 < n) (hb : buffer.length = n) {tr : List (Lbl α)} {s : St α}
    (h : Exec n buffer tr s) (hs : ∀ l ∈ tr, ¬BulkCall l) :
    got tr <+: accepted tr ∧ (accepted tr).length ≤ (got tr).length + (n - 1) := by
  obtain ⟨h1, h2, h3⟩ := single_pcs h hs
  obtain ⟨q, hq⟩ := Inv.exec hb hn h h3
  have hq' : q.length < n := hq.rep.q_lt
  have hf := hq.flow
  have e1 : pub s.p = [] := by rcases h1 with h | ⟨x, h | h | h | h⟩ <;> simp [h, pub]
  have e2 : cacc s.c = [] := by rcases h2 with h | h | h | ⟨v, h⟩ <;> simp [h, cacc]
  rw [e1, e2] at hf
  simp only [List.append_nil] at hf
  rw [hf]
  exact ⟨List.prefix_append _ _, by simp; omega⟩

/-- C06: a put is refused only when the buffer holds `n - 1` elements not yet got, a get only when everything put has
been got. -/
theorem C06_refusals (buffer : List α) (hn : 0 < n) (hb : buffer.length = n) {tr : List (Lbl α)} {s s' : St α}
    (h : Exec n buffer tr s) (hs : ∀ l ∈ tr, ¬BulkCall l) {l : Lbl α} (hst : Step n s l s') :
    (∀ x, l = .putcRet x false → (accepted tr).length = (got tr).length + (n - 1)) ∧
    (l = .getcRet none → accepted tr = got tr) := by
  obtain ⟨h1, h2, h3⟩ := single_pcs h hs
  obtain ⟨q, hq⟩ := Inv.exec hb hn h h3
  have hf := hq.flow
  have e1 : pub s.p = [] := by rcases h1 with h | ⟨x, h | h | h | h⟩ <;> simp [h, pub]
  have e2 : cacc s.c = [] := by rcases h2 with h | h | h | ⟨v, h⟩ <;> simp [h, cacc]
  rw [e1, e2] at hf
  simp only [List.append_nil] at hf
  constructor
  · rintro x rfl
    cases hst with
    | checkFull _ e hfull =>
      have := (rep_full hq.rep).1 hfull
      rw [hf]; simp [this]
  · rintro rfl
    cases hst with
    | echeckEmpty e he =>
      have : isEmpty (toCb n s) = true := by simpa [isEmpty, toCb] using he
      rw [hq.rep.isEmpty] at this
      rw [hf, this]; simp

/-- C06/C87: the threads never touch the same element at the same time, and never leave the buffer: when the producer
is about to write position `i` and the consumer to read position `j`, both are inside the buffer and different. -/
theorem C06_race_free (buffer : List α) (hn : 0 < n) (hb : buffer.length = n) {tr : List (Lbl α)} {s : St α}
    (h : Exec n buffer tr s) (hp : ∀ l ∈ tr, Polite n l) (i j : Nat)
    (hi : (∃ x, s.p = .write x ∧ i = s.head) ∨
      (∃ t d r c k, s.p = .copy t d r c k ∧ k < c ∧ i = s.head + k))
    (hj : (s.c = .rdslot ∧ j = s.tail) ∨
      (∃ hh len acc c cp, s.c = .gcopy hh len acc c cp ∧ cp.length < c ∧ j = s.tail + cp.length)) :
    i < n ∧ j < n ∧ i ≠ j := by
  obtain ⟨q, hr, hpi, hci, -⟩ := Inv.exec hb hn h hp
  have hhe : s.head = if s.tail + q.length < n then s.tail + q.length else s.tail + q.length - n := hr.head_eq
  have htl : s.tail < n := hr.tail_lt
  have hql : q.length < n := hr.q_lt
  have hhl : s.head < n := hr.head_lt
  have hP : ∃ k, i = s.head + k ∧ s.head + k < n ∧ q.length + k < n := by
    rcases hi with ⟨x, e, rfl⟩ | ⟨t, d, r, c, k, e, hk, rfl⟩
    · exact ⟨0, rfl, hhl, hql⟩
    · rw [e] at hpi
      obtain ⟨⟨-, d', -, h2⟩, ⟨h3, h4, h5⟩, -⟩ := hpi
      exact ⟨k, rfl, by omega, by omega⟩
  have hC : ∃ k, j = s.tail + k ∧ s.tail + k < n ∧ k < q.length := by
    rcases hj with ⟨e, rfl⟩ | ⟨hh, len, acc, c, cp, e, hk, rfl⟩
    · rw [e] at hci
      have : 0 < q.length := List.length_pos_iff.2 hci
      exact ⟨0, rfl, htl, this⟩
    · rw [e] at hci
      obtain ⟨h1, h2, h3, h4, h5, h6, h7⟩ := hci
      exact ⟨cp.length, rfl, by omega, by omega⟩
  obtain ⟨k, rfl, hk1, hk2⟩ := hP
  obtain ⟨m, rfl, hm1, hm2⟩ := hC
  refine ⟨hk1, hm1, ?_⟩
  split_ifs at hhe <;> omega

-- an interleaving in which the consumer reads while the producer is in the middle of its second put
example : ∃ (tr : List (Lbl Nat)) (s : St Nat), Exec 3 [0, 0, 0] tr s ∧ (∀ l ∈ tr, ¬BulkCall l) ∧
    accepted tr = [7, 8] ∧ got tr = [7] := by
  refine ⟨_, _, Exec.steps .init (.cons (.callPutc _ 7 rfl) (.cons (.checkOk _ 7 rfl (by decide))
    (.cons (.write _ 7 rfl) (.cons (.advOk _ 7 rfl (by decide)) (.cons (.setHead _ 7 rfl)
    (.cons (.callPutc _ 8 rfl) (.cons (.checkOk _ 8 rfl (by decide)) (.cons (.callGetc _ rfl)
    (.cons (.echeckOk _ rfl (by decide)) (.cons (.write _ 8 rfl) (.cons (.rdslot _ 7 rfl rfl)
    (.cons (.advOk _ 8 rfl (by decide)) (.cons (.setTail _ 7 rfl) (.cons (.setHead _ 8 rfl) (.nil _))))))))))))))), ?_,
    rfl, rfl⟩
  simp [BulkCall]

/-! ## C07 -/

/-- **C07 is false of the code.** On every buffer of size `n ≥ 2` there is a schedule after which a
`circular_buf_puts` of any non-empty data is running, the consumer is idle and there is room for at least one element,
but no further execution, whatever the consumer does, lets the call return. -/
theorem C07_puts_livelock (buffer : List α) (hb : buffer.length = n) (hn : 2 ≤ n) (data : List α) (hd : data ≠ [])
    (x : α) :
    ∃ tr s, Exec n buffer tr s ∧ .putsCall data ∈ tr ∧ s.c = .idle ∧ 0 < free n s ∧
      ∀ ls s', Steps n s ls s' → (∀ l ∈ ls, Polite n l) → ∀ d, .putsRet d ∉ ls := by
  obtain ⟨tr0, sl, hpol, hsl, hfill⟩ := fill_steps buffer hb hn x (n - 1) (Nat.le_refl _)
  have hex0 := Exec.steps (.init : Exec n buffer [] _) hfill
  obtain ⟨q0, hq0⟩ := Inv.exec hb (by omega) hex0 (by simpa using hpol)
  obtain ⟨v, hv⟩ : ∃ v, sl[0]? = some v := ⟨_, List.getElem?_eq_getElem (by omega)⟩
  -- the producer reads the tail, then the consumer takes one element
  have hst : Steps n (⟨sl, n - 1, 0, .idle, .idle⟩ : St α)
      [.putsCall data, .snap data.length (free n (⟨sl, n - 1, 0, .snap data, .idle⟩ : St α)), .tau, .tau, .tau,
        .getcRet (some v)] ⟨sl, n - 1, 1 % n, .loop 0 [] data, .idle⟩ :=
    .cons (.callPuts _ data rfl) (.cons (.snap _ data rfl) (.cons (.callGetc _ rfl)
      (.cons (.echeckOk _ rfl (by simp only; omega)) (.cons (.rdslot _ v rfl hv)
        (.cons (.setTail _ v rfl) (by simpa using Steps.nil _))))))
  have hstuck : Stuck n (⟨sl, n - 1, 1 % n, .loop 0 [] data, .idle⟩ : St α) := by
    have hq : q0.length = n - 1 := (rep_full hq0.rep).1 (by
      simp only [full]; rw [show n - 1 + 1 = n from by omega, Nat.mod_self])
    refine ⟨⟨q0.drop 1, ⟨?_, trivial, trivial, by simp [accepted, got, pub]⟩, by simp; omega⟩, 0, [], data, ?_, hd,
      Or.inl rfl⟩
    · have := rep_pop (k := 1) hq0.rep (by omega) CPc.idle
      simpa using this
    · have : 0 < data.length := List.length_pos_iff.2 hd
      simp only [putChunk, beq_iff_eq]
      split_ifs <;> omega
  refine ⟨_, _, hex0.steps hst, by simp, rfl, ?_, ?_⟩
  · simp only [free, Nat.mod_eq_of_lt (show 1 < n by omega)]
    rw [show n - 1 + n - 1 = (n - 2) + n from by omega, Nat.add_mod_right, Nat.mod_eq_of_lt (by omega)]
    omega
  · intro ls s' hsteps
    generalize (⟨sl, n - 1, 1 % n, .loop 0 [] data, .idle⟩ : St α) = s0 at hstuck hsteps
    induction hsteps with
    | nil => simp
    | cons h1 _ ih =>
      intro hpl d
      obtain ⟨hs1, hs2⟩ := hstuck.step (hpl _ List.mem_cons_self) h1
      have := ih hs1 (fun l hl => hpl l (List.mem_cons_of_mem _ hl)) d
      simp only [List.mem_cons, not_or]
      exact ⟨fun h => hs2 d h.symm, this⟩

/-- **C07, partial.** If no bulk put starts with more than fits (and no bulk get asks for more than the capacity), then
in every execution a running `circular_buf_puts` of `len` elements returns after at most `5 * len + 1` further steps of
the producer, whatever the consumer does in between: there is a measure, at most `5 * len + 1` when the loop starts,
that every producer step decreases unless it returns; the producer always has a next step; and on return everything
was written. Missing: a bulk put of more than fits. Without concurrency every `circular_buf_puts` terminates, see
`C07_sequential_partial`. -/
theorem C07_puts_returns_partial (buffer : List α) (hn : 0 < n) (hb : buffer.length = n) {tr : List (Lbl α)} {s : St α}
    (h : Exec n buffer tr s) (hp : ∀ l ∈ tr, Polite n l) :
    (∀ l s', Step n s l s' → s'.p ≠ s.p → 0 < mu s.p → mu s'.p < mu s.p) ∧
    (0 < mu s.p → ∃ l s', Step n s l s' ∧ s'.p ≠ s.p) ∧
    (∀ d s', Step n s (.putsRet d) s' → d = putting s.p) := by
  obtain ⟨q, hr, hpi, -, -⟩ := Inv.exec hb hn h hp
  have hfull := rep_full hr
  refine ⟨?_, ?_, ?_⟩
  · intro l s' hst hne hmu
    cases hst with
    | callPutc x e | callPuts d e | checkFull x e | checkOk x e | write x e | advFull x e | advOk x e | setHead x e
    | snap d e => rw [e] at hmu; simp [mu] at hmu
    | loopEnd t d r e => rw [e]; simp [mu]
    | loopGo t d r e => rw [e]; simp [mu]
    | copy t d r c i x e hic =>
      rw [e] at hpi ⊢
      obtain ⟨-, ⟨h1, h2, h3⟩, h4, -⟩ := hpi
      simp only [mu]; omega
    | copyEnd t d r c i e hic =>
      rw [e] at hpi ⊢
      obtain ⟨-, ⟨h1, h2, h3⟩, h4, -⟩ := hpi
      simp only [mu]; omega
    | badvSkip t d r c e hsk =>
      rw [e] at hpi
      obtain ⟨⟨-, d', -, h0⟩, ⟨h1, h2, h3⟩, h4⟩ := hpi
      rcases hsk with hf | hf
      · have := hfull.1 hf; omega
      · omega
    | badvOk t d r c e =>
      rw [e] at hpi ⊢
      obtain ⟨-, ⟨h1, h2, h3⟩, h4⟩ := hpi
      simp only [mu]; omega
    | bset t d r c e =>
      rw [e] at hpi ⊢
      obtain ⟨-, ⟨h1, h2, h3⟩, h4⟩ := hpi
      simp only [mu, List.length_drop]; omega
    | _ => exact absurd rfl hne
  · intro hmu
    cases hpc : s.p with
    | loop t d r =>
      by_cases hf : full n s ∨ r = []
      · exact ⟨_, _, .loopEnd s t d r hpc hf, by simp⟩
      · rw [not_or] at hf
        exact ⟨_, _, .loopGo s t d r hpc hf.1 hf.2, by simp⟩
    | copy t d r c i =>
      rw [hpc] at hpi
      obtain ⟨-, ⟨h1, h2, h3⟩, h4, -⟩ := hpi
      rcases Nat.lt_or_ge i c with hic | hic
      · exact ⟨_, _, .copy s t d r c i _ hpc hic (List.getElem?_eq_getElem (by omega)), by simp⟩
      · exact ⟨_, _, .copyEnd s t d r c i hpc hic, by simp⟩
    | badv t d r c =>
      by_cases hf : full n s ∨ c = 0
      · exact ⟨_, _, .badvSkip s t d r c hpc hf, by simp⟩
      · rw [not_or] at hf
        exact ⟨_, _, .badvOk s t d r c hpc hf.1 hf.2, by simp⟩
    | bset t d r c => exact ⟨_, _, .bset s t d r c hpc, by simp⟩
    | _ => rw [hpc] at hmu; simp [mu] at hmu
  · intro d s' hst
    cases hst with
    | loopEnd t _ r e hend =>
      rw [e] at hpi ⊢
      obtain ⟨-, d', -, h0⟩ := hpi
      rcases hend with hf | rfl
      · have := hfull.1 hf
        have : r = [] := List.length_eq_zero_iff.1 (by omega)
        simp [putting, this]
      · simp [putting]

/-- C07, partial: without interference every `circular_buf_puts` terminates, in every state and for every length. -/
theorem C07_sequential_partial {cb : Cbuf α} {q : List α} (h : Rep cb q) (data : List α) (len : Nat)
    (hd : len ≤ data.length) : puts cb data len ≠ .diverge := by
  obtain ⟨cb', k, h1, -⟩ := puts_raw h data len hd
  rw [h1]; simp

end Gel.Cbuf.Conc
