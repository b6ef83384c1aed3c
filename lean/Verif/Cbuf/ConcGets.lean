import Verif.Cbuf.ConcProps

/-!
# Two-thread circular buffer: what a bulk get returns, and that it returns (C108)
-/
namespace Gel.Cbuf.Conc

variable {α : Type u} {n : Nat}

/-- The consumer returns from a call. -/
def ConsRet : Lbl α → Prop
  | .getcRet _ | .getsRet _ => True
  | _ => False

/-- Inside a bulk get of `len` elements during which at least `a` were available at its start. -/
def Getting (n tail len a : Nat) : CPc α → Prop
  | .gsz1 l => l = len
  | .gsz2 l h1 => l = len ∧ ∃ k, a ≤ k ∧ k < n ∧ h1 = (tail + k) % n
  | .ghead l => min len a ≤ l ∧ l ≤ len
  | .gloop _ l acc | .gcopy _ l acc _ _ | .gset _ l acc _ => min len a ≤ l + acc.length ∧ l + acc.length ≤ len
  | _ => False

theorem accepted_mono (a b : List (Lbl α)) : (accepted a).length ≤ (accepted (a ++ b)).length := by
  rw [accepted_append]; simp

/-- A step that is not a return keeps `Getting`. -/
theorem Getting.step {tr : List (Lbl α)} {s s' : St α} {q : List α} {l : Lbl α} {len a : Nat} (hi : Inv n tr s q)
    (hl : ¬ ConsRet l) (hlen : len ≤ n - 1) (ha : s.c = .gsz1 len → a ≤ q.length) (hg : Getting n s.tail len a s.c)
    (hs : Step n s l s') : Getting n s'.tail len a s'.c := by
  obtain ⟨hr, -, hc, -⟩ := hi
  have hql : q.length < n := hr.q_lt
  have hfull := rep_full hr
  have htl : s.tail < n := hr.tail_lt
  have hhe : s.head = (s.tail + q.length) % n := hr.head
  by_cases hp : s'.p = s.p
  · cases hs with
    | callPutc x h | callPuts d h | checkFull x h | checkOk x h | write x h | advFull x h | advOk x h
    | setHead x h | snap d h | loopEnd t d r h | loopGo t d r h | copy t d r c i x h | copyEnd t d r c i h
    | badvOk t d r c h | bset t d r c h => rw [h] at hp; cases hp
    | badvSkip t d r c h => rw [h] at hp; cases hp
    | callGetc h | echeckEmpty h | echeckOk h | rdslot v h | setTail v h | callGets _ h =>
      rw [h] at hg; exact absurd hg (by simp [Getting])
    | gsz1 len' h =>
      rw [h] at hg
      have hg : len' = len := hg
      subst hg
      exact ⟨rfl, q.length, ha h, hql, hhe⟩
    | gsz2 len' h1 h =>
      rw [h] at hg
      obtain ⟨rfl, k, hk1, hk2, hk3⟩ := hg
      have hsz : min len' a ≤ min len' (sizeOf n h1 s.tail (decide (full n s))) := by
        rw [mod_two (by omega)] at hk3
        rw [sizeOf]
        by_cases hf : full n s
        · simp only [hf, decide_true, Bool.not_true, Bool.false_eq_true, if_false]
          omega
        · simp only [hf, decide_false, Bool.not_false, if_true]
          split_ifs at hk3 ⊢ <;> omega
      exact ⟨hsz, Nat.min_le_left _ _⟩
    | ghead len' h =>
      rw [h] at hg
      exact ⟨by simpa using hg.1, by simpa using hg.2⟩
    | gloopEnd hh acc h => exact absurd trivial hl
    | gloopGo hh len' acc h h1 => rw [h] at hg; exact hg
    | gcopy hh len' acc c cp v h h1 h2 => rw [h] at hg; exact hg
    | gcopyEnd hh len' acc c cp h h1 => rw [h] at hg; exact hg
    | gset hh len' acc cp h =>
      rw [h] at hg hc
      obtain ⟨g1, g2⟩ := hg
      obtain ⟨c1, c2, c3, c4⟩ := hc
      constructor
      · simp only [List.length_append]; omega
      · simp only [List.length_append]; omega
  · obtain ⟨h1, h2⟩ := hs.pstep hp
    rw [h1, h2]
    exact hg

theorem got_tau {l : Lbl α} (h : ¬ ConsRet l) : got [l] = [] := by
  cases l <;> first | rfl | exact absurd trivial h

theorem Getting.steps {s s' : St α} {ls : List (Lbl α)} {len a g : Nat} (hs : Steps n s ls s') (hlen : len ≤ n - 1) :
    ∀ {tr : List (Lbl α)} {q : List α}, Inv n tr s q → (∀ l ∈ ls, ¬ ConsRet l ∧ Polite n l) → (got tr).length = g →
      g + a ≤ (accepted tr).length → Getting n s.tail len a s.c →
      (∃ q', Inv n (tr ++ ls) s' q') ∧ Getting n s'.tail len a s'.c := by
  induction hs with
  | nil s => exact fun hi _ _ _ hg => ⟨⟨_, by simpa using hi⟩, hg⟩
  | cons h1 _ ih =>
    intro tr q hi hl hgt hacc hg
    obtain ⟨l1, l2⟩ := hl _ List.mem_cons_self
    have hav : ∀ {s : St α} {q : List α}, Inv n tr s q → s.c = .gsz1 len → a ≤ q.length := by
      intro s q hi hc
      have := congrArg List.length hi.flow
      rw [hc] at this
      simp only [List.length_append, cacc, List.length_nil] at this
      omega
    have hg' := hg.step hi l1 hlen (hav hi) h1
    obtain ⟨q1, hi1⟩ := hi.step l2 h1
    have := ih hi1 (fun l h => hl l (List.mem_cons_of_mem _ h)) (by rw [got_append, got_tau l1]; simpa using hgt)
      (Nat.le_trans hacc (accepted_mono _ _)) hg'
    simpa using this

/-- **C108**: a bulk get of `len` elements returns at least as many as were there when it was called (those whose put had
returned and that had not been got), or `len` if there were more, and never more than `len`, whatever the producer does
meanwhile. -/
theorem C108_gets_amount (buffer : List α) (hn : 0 < n) (hb : buffer.length = n) {tr ls : List (Lbl α)} {s s1 s2 s3 : St α}
    {len : Nat} {r : List α} (h : Exec n buffer tr s) (hcall : Step n s (.getsCall len) s1) (hrun : Steps n s1 ls s2)
    (hret : Step n s2 (.getsRet r) s3) (hp : ∀ l ∈ tr ++ [.getsCall len] ++ ls, Polite n l)
    (hin : ∀ l ∈ ls, ¬ ConsRet l) :
    min len ((accepted tr).length - (got tr).length) ≤ r.length ∧ r.length ≤ len := by
  obtain ⟨q, hq⟩ := Inv.exec hb hn h (fun l hl => hp l (by simp [hl]))
  have hlen : len ≤ n - 1 := hp (.getsCall len) (by simp)
  obtain ⟨q1, hq1⟩ := hq.step (hp (.getsCall len) (by simp)) hcall
  have hc : s.c = .idle := by cases hcall; assumption
  have hle : (got tr).length ≤ (accepted tr).length + (pub s.p).length := by
    have := congrArg List.length hq.flow
    simp only [List.length_append] at this
    omega
  have hg : Getting n s1.tail len ((accepted tr).length - (got tr).length) s1.c := by
    cases hcall
    rfl
  by_cases hga : (got tr).length ≤ (accepted tr).length
  · obtain ⟨-, h2⟩ := Getting.steps hrun hlen hq1 (fun l hl => ⟨hin l hl, hp l (by simp [hl])⟩)
      (g := (got tr).length) (by rw [got_append]; simp [got])
      (by rw [accepted_append]; simp only [accepted, List.append_nil]; omega) hg
    cases hret with
    | gloopEnd hh acc h =>
      rw [h] at h2
      obtain ⟨a1, a2⟩ := h2
      omega
  · have hz : (accepted tr).length - (got tr).length = 0 := by omega
    rw [hz] at hg ⊢
    -- nothing had returned yet: only the upper bound says something
    have key : ∀ {s s' : St α} {ls : List (Lbl α)} (hs : Steps n s ls s') {tr : List (Lbl α)} {q : List α}, Inv n tr s q →
        (∀ l ∈ ls, ¬ ConsRet l ∧ Polite n l) → Getting n s.tail len 0 s.c → Getting n s'.tail len 0 s'.c := by
      intro s s' ls hs
      induction hs with
      | nil s => exact fun _ _ hg => hg
      | cons h1 _ ih =>
        intro tr q hi hl hg
        obtain ⟨l1, l2⟩ := hl _ List.mem_cons_self
        obtain ⟨q1, hi1⟩ := hi.step l2 h1
        exact ih hi1 (fun l h => hl l (List.mem_cons_of_mem _ h)) (hg.step hi l1 hlen (fun _ => Nat.zero_le _) h1)
    have h2 := key hrun hq1 (fun l hl => ⟨hin l hl, hp l (by simp [hl])⟩) hg
    cases hret with
    | gloopEnd hh acc h =>
      rw [h] at h2
      obtain ⟨a1, a2⟩ := h2
      omega

/-- Bounds the steps the consumer still makes inside a call. -/
def nu : CPc α → Nat
  | .idle => 0
  | .echeck => 3
  | .rdslot => 2
  | .setTail _ => 1
  | .gsz1 len => 4 * len + 4
  | .gsz2 len _ => 4 * len + 3
  | .ghead len => 4 * len + 2
  | .gloop _ len _ => 4 * len + 1
  | .gcopy _ len _ _ cp => 4 * len - cp.length
  | .gset _ len _ cp => 4 * len - cp.length - 1

theorem gset_pos {buffer : List α} (hn : 0 < n) (hb : buffer.length = n) {tr : List (Lbl α)} {s : St α}
    (h : Exec n buffer tr s) (hp : ∀ l ∈ tr, Polite n l) :
    ∀ hh len acc cp, s.c = .gset hh len acc cp → 0 < cp.length := by
  induction h with
  | init => intro hh len acc cp h; simp at h
  | step h hs ih =>
    have hp' : ∀ l ∈ _, Polite n l := fun l hl => hp l (List.mem_append_left _ hl)
    obtain ⟨q, hq⟩ := Inv.exec hb hn h hp'
    intro hh len acc cp hc
    have ih := ih hp'
    cases hs with
    | gcopyEnd hh' len' acc' c' cp' e hle =>
      have := hq.c
      rw [e] at this
      obtain ⟨c1, c2, c3, c4, c5, c6, c7⟩ := this
      simp only [CPc.gset.injEq] at hc
      rw [← hc.2.2.2]
      omega
    | callPutc x e | checkOk x e hnf | callPuts data e | checkFull x e | write x e | advFull x e | advOk x e
    | setHead x e | snap data e | loopEnd t d r e | loopGo t d r e | copy t d r c i x e | copyEnd t d r c i e
    | badvOk t d r c e | bset t d r c e | badvSkip t d r c e => exact ih _ _ _ _ hc
    | _ => simp at hc

/-- **C108**: a call of the consumer returns after a bounded number of its own steps, whatever the producer does: there is a
measure, `4 * len + 4` when a bulk get starts, that every consumer step inside a call decreases, and inside a call the
consumer always has a next step. -/
theorem C108_gets_wait_free (buffer : List α) (hn : 0 < n) (hb : buffer.length = n) {tr : List (Lbl α)} {s : St α}
    (h : Exec n buffer tr s) (hp : ∀ l ∈ tr, Polite n l) :
    (∀ l s', Step n s l s' → s'.c ≠ s.c → s.c ≠ .idle → nu s'.c < nu s.c) ∧
    (s.c ≠ .idle → ∃ l s', Step n s l s' ∧ s'.c ≠ s.c) ∧
    (∀ l s', Step n s l s' → s'.c = .idle → s.c ≠ .idle → ConsRet l) := by
  obtain ⟨q, hr, -, hc, -⟩ := Inv.exec hb hn h hp
  have hgp := gset_pos hn hb h hp
  have htl : s.tail < n := hr.tail_lt
  have hsl : s.slots.length = n := hr.len
  refine ⟨?_, ?_, ?_⟩
  · intro l s' hs hne hni
    cases hs with
    | callPutc x e | checkOk x e hnf | callPuts data e | checkFull x e | write x e | advFull x e | advOk x e
    | setHead x e | snap data e | loopEnd t d r e | loopGo t d r e | copy t d r c i x e | copyEnd t d r c i e
    | badvOk t d r c e | bset t d r c e | badvSkip t d r c e => exact absurd rfl hne
    | callGetc e | callGets _ e => exact absurd e hni
    | echeckEmpty e | echeckOk e | rdslot v e | setTail v e => rw [e]; simp [nu]
    | gsz1 len e => rw [e]; simp [nu]
    | gsz2 len h1 e => rw [e]; simp only [nu]; omega
    | ghead len e => rw [e]; simp [nu]
    | gloopEnd hh acc e => rw [e]; simp [nu]
    | gloopGo hh len acc e h1 => rw [e]; simp [nu]
    | gcopy hh len acc c cp v e h1 h2 =>
      rw [e] at hc ⊢
      obtain ⟨c1, c2, c3, c4, c5, c6, c7⟩ := hc
      simp only [nu, List.length_append, List.length_singleton]
      omega
    | gcopyEnd hh len acc c cp e h1 =>
      rw [e] at hc ⊢
      obtain ⟨c1, c2, c3, c4, c5, c6, c7⟩ := hc
      simp only [nu]
      omega
    | gset hh len acc cp e =>
      have h0 := hgp _ _ _ _ e
      rw [e] at hc ⊢
      obtain ⟨c1, c2, c3, c4⟩ := hc
      simp only [nu]
      omega
  · intro hni
    cases e : s.c with
    | idle => exact absurd e hni
    | echeck =>
      by_cases hht : s.head = s.tail
      · exact ⟨_, _, .echeckEmpty s e hht, by simp⟩
      · exact ⟨_, _, .echeckOk s e hht, by simp⟩
    | rdslot =>
      obtain ⟨v, hv⟩ : ∃ v, s.slots[s.tail]? = some v := ⟨_, List.getElem?_eq_getElem (by omega)⟩
      exact ⟨_, _, .rdslot s v e hv, by simp⟩
    | setTail v => exact ⟨_, _, .setTail s v e, by simp⟩
    | gsz1 len => exact ⟨_, _, .gsz1 s len e, by simp⟩
    | gsz2 len h1 => exact ⟨_, _, .gsz2 s len h1 e, by simp⟩
    | ghead len => exact ⟨_, _, .ghead s len e, by simp⟩
    | gloop hh len acc =>
      rcases Nat.eq_zero_or_pos len with rfl | h0
      · exact ⟨_, _, .gloopEnd s hh acc e, by simp⟩
      · exact ⟨_, _, .gloopGo s hh len acc e h0, by simp⟩
    | gcopy hh len acc c cp =>
      rw [e] at hc
      obtain ⟨c1, c2, c3, c4, c5, c6, c7⟩ := hc
      by_cases h0 : cp.length < c
      · obtain ⟨v, hv⟩ : ∃ v, s.slots[s.tail + cp.length]? = some v := ⟨_, List.getElem?_eq_getElem (by omega)⟩
        exact ⟨_, _, .gcopy s hh len acc c cp v e h0 hv, by simp⟩
      · exact ⟨_, _, .gcopyEnd s hh len acc c cp e (by omega), by simp⟩
    | gset hh len acc cp => exact ⟨_, _, .gset s hh len acc cp e, by simp⟩
  · intro l s' hs hi hni
    cases hs with
    | callPutc x e | checkOk x e hnf | callPuts data e | checkFull x e | write x e | advFull x e | advOk x e
    | setHead x e | snap data e | loopEnd t d r e | loopGo t d r e | copy t d r c i x e | copyEnd t d r c i e
    | badvOk t d r c e | bset t d r c e | badvSkip t d r c e => exact absurd hi hni
    | echeckEmpty e | setTail v e | gloopEnd hh acc e => trivial
    | _ => simp at hi

/-- A non-trivial instance: after two puts into a buffer of 4, a bulk get of 3 elements returns both. -/
example : ∃ (tr ls : List (Lbl Nat)) (s s1 s2 s3 : St Nat), Exec 4 [0, 0, 0, 0] tr s ∧ Step 4 s (.getsCall 3) s1 ∧
    Steps 4 s1 ls s2 ∧ Step 4 s2 (.getsRet [5, 6]) s3 ∧ (∀ l ∈ tr ++ [.getsCall 3] ++ ls, Polite 4 l) ∧
    (∀ l ∈ ls, ¬ ConsRet l) ∧ accepted tr = [5, 6] ∧ got tr = [] := by
  refine ⟨[.tau, .tau, .tau, .tau, .putcRet 5 true, .tau, .tau, .tau, .tau, .putcRet 6 true],
    [.tau, .tau, .tau, .tau, .tau, .tau, .tau, .tau], ⟨[5, 6, 0, 0], 2, 0, .idle, .idle⟩, ⟨[5, 6, 0, 0], 2, 0, .idle, .gsz1 3⟩,
    ⟨[5, 6, 0, 0], 2, 2, .idle, .gloop 2 0 [5, 6]⟩, ⟨[5, 6, 0, 0], 2, 2, .idle, .idle⟩, ?_, .callGets _ 3 rfl, ?_,
    .gloopEnd _ 2 [5, 6] rfl, by simp [Polite], by simp [ConsRet], rfl, rfl⟩
  · have e := Exec.init (n := 4) (buffer := [0, 0, 0, 0])
    have e := e.step (.callPutc _ 5 rfl)
    have e := e.step (.checkOk _ 5 rfl (by simp [full]))
    have e := e.step (.write _ 5 rfl)
    have e := e.step (.advOk _ 5 rfl (by simp [full]))
    have e := e.step (.setHead _ 5 rfl)
    have e := e.step (.callPutc _ 6 rfl)
    have e := e.step (.checkOk _ 6 rfl (by simp [full]))
    have e := e.step (.write _ 6 rfl)
    have e := e.step (.advOk _ 6 rfl (by simp [full]))
    have e := e.step (.setHead _ 6 rfl)
    exact e
  · exact .cons (.gsz1 _ 3 rfl) (.cons (.gsz2 _ 3 2 rfl) (.cons (.ghead _ 2 rfl) (.cons (.gloopGo _ 2 2 [] rfl (by decide))
      (.cons (.gcopy _ 2 2 [] 2 [] 5 rfl (by decide) rfl) (.cons (.gcopy _ 2 2 [] 2 [5] 6 rfl (by decide) rfl)
        (.cons (.gcopyEnd _ 2 2 [] 2 [5, 6] rfl (by decide)) (.cons (.gset _ 2 2 [] [5, 6] rfl) (.nil _))))))))

end Gel.Cbuf.Conc
