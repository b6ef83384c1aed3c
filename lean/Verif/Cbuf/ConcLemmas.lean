import Verif.Cbuf.ConcSpec
import Verif.Cbuf.Lemmas

/-!
# Two-thread circular buffer: the inductive invariant
-/
namespace Gel.Cbuf.Conc

variable {α : Type u} {n : Nat}

theorem accepted_append (a b : List (Lbl α)) : accepted (a ++ b) = accepted a ++ accepted b := by
  induction a with
  | nil => rfl
  | cons l a ih =>
    cases l with
    | putcRet x ok => cases ok <;> simp [accepted, ih]
    | _ => simp [accepted, ih]

theorem got_append (a b : List (Lbl α)) : got (a ++ b) = got a ++ got b := by
  induction a with
  | nil => rfl
  | cons l a ih =>
    cases l with
    | getcRet v => cases v <;> simp [got, ih]
    | _ => simp [got, ih]

/-- The shared memory as the sequential struct. -/
def toCb (n : Nat) (s : St α) : Cbuf α := ⟨s.slots, n, s.head, s.tail⟩

/-- Elements a bulk put has already published. -/
def pub : PPc α → List α
  | .loop _ done _ | .copy _ done _ _ _ | .badv _ done _ _ | .bset _ done _ _ => done
  | _ => []

/-- Elements a bulk get has already removed. -/
def cacc : CPc α → List α
  | .gloop _ _ acc | .gcopy _ _ acc _ _ | .gset _ _ acc _ => acc
  | _ => []

/-- `rest` fits, judging from the old tail `t`. -/
def Room (n t tail : Nat) (q rest : List α) : Prop :=
  t < n ∧ ∃ d, tail = (t + d) % n ∧ d + q.length + rest.length ≤ n - 1

/-- A chunk that can be copied at `head`. -/
def Chunk (n head c : Nat) (rest : List α) : Prop := 0 < c ∧ c ≤ rest.length ∧ head + c ≤ n

/-- The first `i` elements of `rest` have been copied. -/
def Copied (slots : List α) (head i : Nat) (rest : List α) : Prop := ∀ j, j < i → slots[head + j]? = rest[j]?

def PInv (n : Nat) (slots : List α) (head tail : Nat) (q : List α) : PPc α → Prop
  | .idle | .check _ | .snap _ => True
  | .write _ => q.length < n - 1
  | .adv x | .setHead x => q.length < n - 1 ∧ slots[head]? = some x
  | .loop t _ rest => Room n t tail q rest
  | .copy t _ rest c i => Room n t tail q rest ∧ Chunk n head c rest ∧ i ≤ c ∧ Copied slots head i rest
  | .badv t _ rest c | .bset t _ rest c => Room n t tail q rest ∧ Chunk n head c rest ∧ Copied slots head c rest

def CInv (n : Nat) (tail : Nat) (q : List α) : CPc α → Prop
  | .idle | .echeck => True
  | .rdslot => q ≠ []
  | .setTail v => q.head? = some v
  | .gsz1 len => len ≤ n - 1
  | .gsz2 len h1 => len ≤ n - 1 ∧ ∃ k, k ≤ q.length ∧ h1 = (tail + k) % n
  | .ghead len => len ≤ q.length
  | .gloop h len _ => len ≤ q.length ∧ h < n
  | .gcopy h len _ c cp => len ≤ q.length ∧ h < n ∧ 0 < c ∧ c ≤ len ∧ tail + c ≤ n ∧ cp.length ≤ c ∧ cp <+: q
  | .gset h len _ cp => len ≤ q.length ∧ h < n ∧ cp.length ≤ len ∧ cp <+: q

structure Inv (n : Nat) (tr : List (Lbl α)) (s : St α) (q : List α) : Prop where
  rep : Rep (toCb n s) q
  p : PInv n s.slots s.head s.tail q s.p
  c : CInv n s.tail q s.c
  flow : accepted tr ++ pub s.p = got tr ++ cacc s.c ++ q

/-! ### Stability -/

theorem CInv.push {n tail : Nat} {q : List α} {pc : CPc α} (h : CInv n tail q pc) (xs : List α) :
    CInv n tail (q ++ xs) pc := by
  cases pc with
  | idle => trivial
  | echeck => trivial
  | rdslot => simp [CInv] at h ⊢; intro hq; exact absurd hq h
  | setTail v => cases q <;> simp_all [CInv]
  | gsz1 len => exact h
  | gsz2 len h1 =>
    obtain ⟨h2, k, h3, h4⟩ := h
    exact ⟨h2, k, by simp; omega, h4⟩
  | ghead len => simp only [CInv, List.length_append] at h ⊢; omega
  | gloop hh len acc => simp only [CInv, List.length_append] at h ⊢; omega
  | gcopy hh len acc c cp =>
    obtain ⟨h1, h2, h3, h4, h5, h6, h7⟩ := h
    exact ⟨by simp; omega, h2, h3, h4, h5, h6, h7.trans (List.prefix_append _ _)⟩
  | gset hh len acc cp =>
    obtain ⟨h1, h2, h3, h4⟩ := h
    exact ⟨by simp; omega, h2, h3, h4.trans (List.prefix_append _ _)⟩

theorem Room.pop {n t tail : Nat} {q rest : List α} (h : Room n t tail q rest) {c : Nat} (hc : c ≤ q.length) :
    Room n t ((tail + c) % n) (q.drop c) rest := by
  obtain ⟨h1, d, h2, h3⟩ := h
  refine ⟨h1, d + c, ?_, ?_⟩
  · rw [h2, Nat.mod_add_mod, Nat.add_assoc]
  · simp; omega

theorem PInv.pop {n head tail : Nat} {slots q : List α} {pc : PPc α} (h : PInv n slots head tail q pc) {c : Nat}
    (hc : c ≤ q.length) : PInv n slots head ((tail + c) % n) (q.drop c) pc := by
  cases pc with
  | idle => trivial
  | check x => trivial
  | snap d => trivial
  | write x => simp only [PInv, List.length_drop] at h ⊢; omega
  | adv x => simp only [PInv, List.length_drop] at h ⊢; exact ⟨by omega, h.2⟩
  | setHead x => simp only [PInv, List.length_drop] at h ⊢; exact ⟨by omega, h.2⟩
  | loop t d r => exact Room.pop h hc
  | copy t d r c i => exact ⟨h.1.pop hc, h.2⟩
  | badv t d r c => exact ⟨h.1.pop hc, h.2⟩
  | bset t d r c => exact ⟨h.1.pop hc, h.2⟩

/-- Writing a slot outside the queue. -/
theorem rep_set {cb : Cbuf α} {q : List α} (h : Rep cb q) {i : Nat} {x : α} (h1 : cb.head + i < cb.bufsize)
    (h2 : q.length + i < cb.bufsize) : Rep { cb with buffer := cb.buffer.set (cb.head + i) x } q where
  len := by simp [h.len]
  tail_lt := h.tail_lt
  q_le := h.q_le
  head := h.head
  q_lt := h.q_lt
  seg := by
    intro j hj
    rw [← h.seg j hj]
    simp only
    apply List.getElem?_set_ne
    have := h.head_eq
    have hq := h.q_lt
    have ht := h.tail_lt
    have hm : (cb.tail + j) % cb.bufsize = _ := mod_two (n := cb.bufsize) (x := cb.tail + j) (by omega)
    rw [hm]
    split_ifs at this ⊢ <;> omega

/-- The chunk chosen when everything fits. -/
theorem putChunk_room {n t head Q len : Nat} (ht : t < n) (hh : head = (t + Q) % n) (hQ : Q + len ≤ n - 1)
    (hl : 0 < len) : 0 < putChunk n head t len ∧ putChunk n head t len ≤ len ∧ head + putChunk n head t len ≤ n := by
  rw [mod_two (by omega)] at hh
  simp only [putChunk, beq_iff_eq]
  split_ifs at hh ⊢ <;> omega

theorem rep_full {s : St α} {q : List α} (h : Rep (toCb n s) q) : full n s ↔ q.length = n - 1 := by
  have := h.isFull
  simpa only [isFull, full, toCb, beq_iff_eq] using this

theorem rep_push {s : St α} {q xs : List α} (h : Rep (toCb n s) q) (hlen : q.length + xs.length ≤ n - 1)
    (hh : s.head + xs.length ≤ n) (hs : ∀ j, j < xs.length → s.slots[s.head + j]? = xs[j]?) (p : PPc α) :
    Rep (toCb n { s with head := (s.head + xs.length) % n, p := p }) (q ++ xs) where
  len := h.len
  tail_lt := h.tail_lt
  q_le := by have := h.pos; simp only [toCb, List.length_append] at *; omega
  q_lt := by have := h.pos; simp only [toCb, List.length_append] at *; omega
  head := by
    have := h.head
    simp only [toCb, List.length_append] at *
    rw [this, Nat.mod_add_mod, Nat.add_assoc]
  seg := by
    intro i hi
    simp only [toCb, List.length_append] at *
    rcases Nat.lt_or_ge i q.length with h' | h'
    · rw [List.getElem?_append_left h']; exact h.seg i h'
    · rw [List.getElem?_append_right h', ← hs (i - q.length) (by omega)]
      have he : s.head = if s.tail + q.length < n then s.tail + q.length else s.tail + q.length - n := h.head_eq
      have ht : s.tail < n := h.tail_lt
      congr 1
      rw [mod_two (by omega)]
      split_ifs at he ⊢ <;> omega

theorem rep_pop {s : St α} {q : List α} (h : Rep (toCb n s) q) {k : Nat} (hk : k ≤ q.length) (c : CPc α) :
    Rep (toCb n { s with tail := (s.tail + k) % n, c := c }) (q.drop k) := h.pop hk

theorem prefix_slot {s : St α} {q cp : List α} {c : Nat} {v : α} (h : Rep (toCb n s) q) (hcp : cp <+: q)
    (hc : cp.length < c) (hcq : c ≤ q.length) (ht : s.tail + c ≤ n) (hv : s.slots[s.tail + cp.length]? = some v) :
    cp ++ [v] <+: q := by
  have hs := h.seg cp.length (by omega)
  simp only [toCb] at hs
  rw [Nat.mod_eq_of_lt (by omega), hv] at hs
  obtain ⟨r, rfl⟩ := hcp
  cases r with
  | nil => simp at hcq; omega
  | cons y r =>
    rw [List.getElem?_append_right (by omega)] at hs
    simp only [Nat.sub_self, List.getElem?_cons_zero, Option.some.injEq] at hs
    subst hs
    exact ⟨r, by simp⟩

/-- The invariant is preserved by every polite step. -/
theorem Inv.step {tr : List (Lbl α)} {s s' : St α} {q : List α} {l : Lbl α} (hi : Inv n tr s q)
    (hl : Polite n l) (hs : Step n s l s') : ∃ q', Inv n (tr ++ [l]) s' q' := by
  obtain ⟨hr, hp, hc, hf⟩ := hi
  have hpos : 0 < n := hr.pos
  have hql : q.length < n := hr.q_lt
  have hfull := rep_full hr
  have htl : s.tail < n := hr.tail_lt
  have hhl : s.head < n := hr.head_lt
  have hhe : s.head = (s.tail + q.length) % n := hr.head
  cases hs with
  | callPutc x h | callPuts data h =>
    rw [h] at hp hf
    refine ⟨q, hr, trivial, hc, ?_⟩
    simpa [accepted_append, got_append, accepted, got, pub] using hf
  | checkOk x h hnf =>
    rw [h] at hp hf
    rw [hfull] at hnf
    refine ⟨q, hr, ?_, hc, ?_⟩
    · simp only [PInv]; omega
    · simpa [accepted_append, got_append, accepted, got, pub] using hf
  | checkFull x h hfl =>
    rw [h] at hp hf
    refine ⟨q, hr, trivial, hc, ?_⟩
    simpa [accepted_append, got_append, accepted, got, pub] using hf
  | write x h =>
    rw [h] at hp hf
    have hp' : q.length < n - 1 := hp
    refine ⟨q, rep_set (i := 0) hr hhl hql, ⟨hp, ?_⟩, hc, ?_⟩
    · rw [List.getElem?_set_self]
      have := hr.len; simp only [toCb] at this; omega
    · simpa [accepted_append, got_append, accepted, got, pub] using hf
  | advFull x h hfl =>
    rw [h] at hp
    have := hfull.1 hfl
    have := hp.1
    omega
  | advOk x h hnf =>
    rw [h] at hp hf
    refine ⟨q, hr, hp, hc, ?_⟩
    simpa [accepted_append, got_append, accepted, got, pub] using hf
  | setHead x h =>
    rw [h] at hp hf
    have hp1 := hp.1
    have hp2 := hp.2
    refine ⟨q ++ [x], rep_push (xs := [x]) hr (by simp; omega) (by simp; omega) ?_ _, trivial, hc.push _, ?_⟩
    · intro j hj
      simp only [List.length_singleton] at hj
      obtain rfl : j = 0 := by omega
      simpa using hp2
    · simp only [accepted_append, got_append, accepted, got, pub, List.append_nil] at hf ⊢
      rw [hf]; simp
  | snap data h =>
    rw [h] at hp hf
    refine ⟨q, hr, ⟨htl, 0, by simp [Nat.mod_eq_of_lt htl], ?_⟩, hc, ?_⟩
    · have hq : (s.head + n - s.tail) % n = q.length := by
        have he : s.head = if s.tail + q.length < n then s.tail + q.length else s.tail + q.length - n := hr.head_eq
        split_ifs at he with h'
        · rw [he, show s.tail + q.length + n - s.tail = q.length + n from by omega, Nat.add_mod_right,
            Nat.mod_eq_of_lt hql]
        · rw [he, show s.tail + q.length - n + n - s.tail = q.length from by omega, Nat.mod_eq_of_lt hql]
      simp only [Polite, free, hq] at hl
      omega
    · simpa [accepted_append, got_append, accepted, got, pub] using hf
  | loopEnd t done rest h hend =>
    rw [h] at hp hf
    refine ⟨q, hr, trivial, hc, ?_⟩
    simp only [accepted_append, got_append, accepted, got, pub, List.append_nil] at hf ⊢
    rw [hf]
  | loopGo t done rest h hnf hne =>
    rw [h] at hp hf
    obtain ⟨ht, d, hd1, hd2⟩ := hp
    have hrl : 0 < rest.length := List.length_pos_iff.2 hne
    refine ⟨q, hr, ⟨⟨ht, d, hd1, hd2⟩, ?_, Nat.zero_le _, by intro j hj; omega⟩, hc, ?_⟩
    · exact putChunk_room (Q := d + q.length) ht (by rw [hhe, hd1, Nat.mod_add_mod, Nat.add_assoc]) hd2 hrl
    · simpa [accepted_append, got_append, accepted, got, pub] using hf
  | copy t done rest c i x h hic hx =>
    rw [h] at hp hf
    obtain ⟨⟨ht, d, hd1, hd2⟩, ⟨hc1, hc2, hc3⟩, hi, hcp⟩ := hp
    refine ⟨q, rep_set (i := i) hr (by simp only [toCb]; omega) (by simp only [toCb]; omega),
      ⟨⟨ht, d, hd1, hd2⟩, ⟨hc1, hc2, hc3⟩, hic, ?_⟩, hc, ?_⟩
    · intro j hj
      have hsl : s.slots.length = n := hr.len
      show (s.slots.set (s.head + i) x)[s.head + j]? = rest[j]?
      rcases Nat.lt_or_ge j i with h' | h'
      · rw [List.getElem?_set_ne (by omega)]; exact hcp j h'
      · obtain rfl : j = i := by omega
        rw [List.getElem?_set_self (by omega), hx]
    · simpa [accepted_append, got_append, accepted, got, pub] using hf
  | copyEnd t done rest c i h hci =>
    rw [h] at hp hf
    obtain ⟨h1, h2, hi, hcp⟩ := hp
    obtain rfl : i = c := by omega
    refine ⟨q, hr, ⟨h1, h2, hcp⟩, hc, ?_⟩
    simpa [accepted_append, got_append, accepted, got, pub] using hf
  | badvSkip t done rest c h hsk =>
    rw [h] at hp
    obtain ⟨⟨ht, d, hd1, hd2⟩, ⟨hc1, hc2, hc3⟩, hcp⟩ := hp
    rcases hsk with hfl | h0
    · have := hfull.1 hfl; omega
    · omega
  | badvOk t done rest c h hnf h0 =>
    rw [h] at hp hf
    refine ⟨q, hr, hp, hc, ?_⟩
    simpa [accepted_append, got_append, accepted, got, pub] using hf
  | bset t done rest c h =>
    rw [h] at hp hf
    obtain ⟨⟨ht, d, hd1, hd2⟩, ⟨hc1, hc2, hc3⟩, hcp⟩ := hp
    have htk : (rest.take c).length = c := by simp; omega
    have hpush := rep_push (xs := rest.take c) hr (by omega) (by omega)
      (by
        intro j hj
        rw [hcp j (by omega), List.getElem?_take, if_pos (by omega)])
      (PPc.loop t (done ++ rest.take c) (rest.drop c))
    rw [htk] at hpush
    refine ⟨q ++ rest.take c, hpush, ⟨ht, d, hd1, ?_⟩, hc.push _, ?_⟩
    · simp; omega
    · simp only [accepted_append, got_append, accepted, got, pub, List.append_nil] at hf ⊢
      rw [← List.append_assoc, hf]; simp
  | callGetc h =>
    rw [h] at hc hf
    refine ⟨q, hr, hp, trivial, ?_⟩
    simpa [accepted_append, got_append, accepted, got, cacc] using hf
  | echeckEmpty h he =>
    rw [h] at hc hf
    refine ⟨q, hr, hp, trivial, ?_⟩
    simpa [accepted_append, got_append, accepted, got, cacc] using hf
  | echeckOk h hne =>
    rw [h] at hc hf
    refine ⟨q, hr, hp, ?_, ?_⟩
    · rintro rfl
      apply hne
      rw [hhe]; simp [Nat.mod_eq_of_lt htl]
    · simpa [accepted_append, got_append, accepted, got, cacc] using hf
  | rdslot v h hv =>
    rw [h] at hc hf
    refine ⟨q, hr, hp, ?_, ?_⟩
    · cases q with
      | nil => exact absurd rfl hc
      | cons y q =>
        have := hr.seg 0 (by simp)
        simp only [toCb, Nat.add_zero, Nat.mod_eq_of_lt htl, hv, List.getElem?_cons_zero] at this
        simp only [CInv, List.head?_cons, this]
    · simpa [accepted_append, got_append, accepted, got, cacc] using hf
  | setTail v h =>
    rw [h] at hc hf
    cases q with
    | nil => simp [CInv] at hc
    | cons y q =>
      simp only [CInv, List.head?_cons, Option.some.injEq] at hc
      subst hc
      refine ⟨q, rep_pop (k := 1) hr (by simp) _, PInv.pop (c := 1) hp (by simp), trivial, ?_⟩
      simp only [accepted_append, got_append, accepted, got, cacc, List.append_nil] at hf ⊢
      rw [hf]; simp
  | callGets len h =>
    rw [h] at hc hf
    refine ⟨q, hr, hp, hl, ?_⟩
    simpa [accepted_append, got_append, accepted, got, cacc] using hf
  | gsz1 len h =>
    rw [h] at hc hf
    refine ⟨q, hr, hp, ⟨hc, q.length, Nat.le_refl _, hhe⟩, ?_⟩
    simpa [accepted_append, got_append, accepted, got, cacc] using hf
  | gsz2 len h1 h =>
    rw [h] at hc hf
    obtain ⟨hlen, k, hk, hh1⟩ := hc
    refine ⟨q, hr, hp, ?_, ?_⟩
    · simp only [CInv, sizeOf]
      rw [mod_two (by omega)] at hh1
      by_cases hfl : full n s
      · have := hfull.1 hfl
        simp only [hfl, decide_true, Bool.not_true, Bool.false_eq_true, if_false]
        omega
      · simp only [hfl, decide_false, Bool.not_false, if_true]
        split_ifs at hh1 ⊢ <;> omega
    · simpa [accepted_append, got_append, accepted, got, cacc] using hf
  | ghead len h =>
    rw [h] at hc hf
    refine ⟨q, hr, hp, ⟨hc, hhl⟩, ?_⟩
    simpa [accepted_append, got_append, accepted, got, cacc] using hf
  | gloopEnd hh acc h =>
    rw [h] at hc hf
    refine ⟨q, hr, hp, trivial, ?_⟩
    simp only [accepted_append, got_append, accepted, got, cacc, List.append_nil] at hf ⊢
    exact hf
  | gloopGo hh len acc h hlen =>
    rw [h] at hc hf
    obtain ⟨hc1, hc2⟩ := hc
    have hle := getChunk_le (tail := s.tail) (len := len) hc2
    have hps := getChunk_pos (head := hh) htl hlen
    refine ⟨q, hr, hp, ⟨hc1, hc2, hps, hle.1, ?_, by simp, List.nil_prefix⟩, ?_⟩
    · show s.tail + getChunk n hh s.tail len ≤ n
      omega
    simpa [accepted_append, got_append, accepted, got, cacc] using hf
  | gcopy hh len acc c cp v h hlt hv =>
    rw [h] at hc hf
    obtain ⟨h1, h2, h3, h4, h5, h6, h7⟩ := hc
    refine ⟨q, hr, hp, ⟨h1, h2, h3, h4, h5, by simp; omega, prefix_slot hr h7 hlt (by omega) h5 hv⟩, ?_⟩
    simpa [accepted_append, got_append, accepted, got, cacc] using hf
  | gcopyEnd hh len acc c cp h hle =>
    rw [h] at hc hf
    obtain ⟨h1, h2, h3, h4, h5, h6, h7⟩ := hc
    refine ⟨q, hr, hp, ⟨h1, h2, by omega, h7⟩, ?_⟩
    simpa [accepted_append, got_append, accepted, got, cacc] using hf
  | gset hh len acc cp h =>
    rw [h] at hc hf
    obtain ⟨h1, h2, h3, h4⟩ := hc
    obtain ⟨r, rfl⟩ := h4
    have hpop := rep_pop (k := cp.length) hr (by simp) (CPc.gloop hh (len - cp.length) (acc ++ cp))
    have hpp := PInv.pop (c := cp.length) hp (by simp)
    simp only [List.drop_left] at hpop hpp
    refine ⟨r, hpop, hpp, ⟨?_, h2⟩, ?_⟩
    · simp only [List.length_append] at h1; omega
    · simp only [accepted_append, got_append, accepted, got, cacc, List.append_nil] at hf ⊢
      rw [hf]; simp

theorem Inv.exec {buffer : List α} (hb : buffer.length = n) (hn : 0 < n) {tr : List (Lbl α)} {s : St α}
    (h : Exec n buffer tr s) (hp : ∀ l ∈ tr, Polite n l) : ∃ q, Inv n tr s q := by
  induction h with
  | init =>
    refine ⟨[], ⟨⟨⟨hb, hn, by simp, by simp [toCb], ?_⟩, hn⟩, trivial, trivial, rfl⟩⟩
    intro i hi; simp at hi
  | step h hs ih =>
    obtain ⟨q, hq⟩ := ih (fun l hl => hp l (List.mem_append_left _ hl))
    exact hq.step (hp _ (List.mem_append_right _ List.mem_cons_self)) hs

/-- The producer has read an old tail that makes it copy nothing, and there is room now. -/
def Stuck (n : Nat) (s : St α) : Prop :=
  (∃ q, Inv n [.putsRet (cacc s.c ++ q)] { s with p := .idle } q ∧ q.length < n - 1) ∧
  ∃ t done rest, putChunk n s.head t rest.length = 0 ∧ rest ≠ [] ∧
    (s.p = .loop t done rest ∨ s.p = .copy t done rest 0 0 ∨ s.p = .badv t done rest 0)

theorem Step.cstep {s s' : St α} {l : Lbl α} (h : Step n s l s') (hp : s'.p = s.p) (p : PPc α) :
    Step n { s with p := p } l { s' with p := p } ∧ s'.head = s.head ∧ (∀ d, l ≠ .putsRet d) ∧
      accepted [l] = [] ∧ (cacc s.c).length ≤ (got [l]).length + (cacc s'.c).length := by
  cases h with
  | callPutc x h | checkOk x h hnf | callPuts data h | checkFull x h | write x h | advFull x h | advOk x h
  | setHead x h | snap data h | loopEnd t d r h | loopGo t d r h | copy t d r c i x h | copyEnd t d r c i h
  | badvOk t d r c h | bset t d r c h => rw [h] at hp; cases hp
  | badvSkip t d r c h => rw [h] at hp; cases hp
  | callGetc h => exact ⟨Step.callGetc _ h, rfl, by simp, rfl, by simp [got, h, cacc]⟩
  | echeckEmpty h h1 => exact ⟨Step.echeckEmpty _ h h1, rfl, by simp, rfl, by simp [got, h, cacc]⟩
  | echeckOk h h1 => exact ⟨Step.echeckOk _ h h1, rfl, by simp, rfl, by simp [got, h, cacc]⟩
  | rdslot v h h1 => exact ⟨Step.rdslot _ v h h1, rfl, by simp, rfl, by simp [got, h, cacc]⟩
  | setTail v h => exact ⟨Step.setTail _ v h, rfl, by simp, rfl, by simp [got, h, cacc]⟩
  | callGets len h => exact ⟨Step.callGets _ len h, rfl, by simp, rfl, by simp [got, h, cacc]⟩
  | gsz1 len h => exact ⟨Step.gsz1 _ len h, rfl, by simp, rfl, by simp [got, h, cacc]⟩
  | gsz2 len h1 h => exact ⟨Step.gsz2 _ len h1 h, rfl, by simp, rfl, by simp [got, h, cacc]⟩
  | ghead len h => exact ⟨Step.ghead _ len h, rfl, by simp, rfl, by simp [got, h, cacc]⟩
  | gloopEnd hh acc h => exact ⟨Step.gloopEnd _ hh acc h, rfl, by simp, rfl, by simp [got, h, cacc]⟩
  | gloopGo hh len acc h h1 => exact ⟨Step.gloopGo _ hh len acc h h1, rfl, by simp, rfl, by simp [got, h, cacc]⟩
  | gcopy hh len acc c cp v h h1 h2 =>
    exact ⟨Step.gcopy _ hh len acc c cp v h h1 h2, rfl, by simp, rfl, by simp [got, h, cacc]⟩
  | gcopyEnd hh len acc c cp h h1 =>
    exact ⟨Step.gcopyEnd _ hh len acc c cp h h1, rfl, by simp, rfl, by simp [got, h, cacc]⟩
  | gset hh len acc cp h => exact ⟨Step.gset _ hh len acc cp h, rfl, by simp, rfl, by simp [got, h, cacc]⟩

/-- A step of the producer changes neither the consumer nor the tail. -/
theorem Step.pstep {s s' : St α} {l : Lbl α} (h : Step n s l s') (hp : s'.p ≠ s.p) : s'.c = s.c ∧ s'.tail = s.tail := by
  cases h <;> first | exact ⟨rfl, rfl⟩ | exact absurd rfl hp

theorem Stuck.step {s s' : St α} {l : Lbl α} (hst : Stuck n s) (hl : Polite n l) (h : Step n s l s') :
    Stuck n s' ∧ ∀ d, l ≠ .putsRet d := by
  obtain ⟨⟨q, hinv, hq⟩, t, done, rest, hch, hne, hpc⟩ := hst
  have hnf : ¬full n s := by
    have := (rep_full hinv.rep)
    intro hf
    have := this.1 hf
    omega
  by_cases hp : s'.p = s.p
  · obtain ⟨h1, h2, h3, h4, h5⟩ := h.cstep hp PPc.idle
    refine ⟨⟨?_, t, done, rest, by rw [h2]; exact hch, hne, by rw [hp]; exact hpc⟩, h3⟩
    obtain ⟨q', hq'⟩ := hinv.step hl h1
    have hfl := hq'.flow
    simp only [accepted_append, got_append, h4, accepted, got, pub, List.append_nil, List.nil_append] at hfl
    have hlen := congrArg List.length hfl
    simp only [List.length_append] at hlen
    refine ⟨q', ⟨hq'.rep, hq'.p, hq'.c, by simp [accepted, got, pub]⟩, by omega⟩
  · obtain ⟨hc, ht⟩ := h.pstep hp
    have key : ∀ p' : PPc α, s'.p = p' → s'.head = s.head → s'.slots = s.slots →
        (p' = .loop t done rest ∨ p' = .copy t done rest 0 0 ∨ p' = .badv t done rest 0) → Stuck n s' := by
      intro p' hp' hh hs hor
      refine ⟨⟨q, ?_, hq⟩, t, done, rest, by rw [hh]; exact hch, hne, by rw [hp']; exact hor⟩
      rw [hc, hs, hh, ht]; exact hinv
    cases h with
    | callPutc x h | callPuts data h | checkFull x h | checkOk x h | write x h | advFull x h | advOk x h
    | setHead x h | snap data h | bset t d r c h => rw [h] at hpc; simp at hpc
    | loopEnd t' d r h hend =>
      rw [h] at hpc
      simp only [PPc.loop.injEq, reduceCtorEq, or_false] at hpc
      obtain ⟨rfl, rfl, rfl⟩ := hpc
      rcases hend with h' | h'
      · exact absurd h' hnf
      · exact absurd h' hne
    | loopGo t' d r h h1 h2 =>
      rw [h] at hpc
      simp only [PPc.loop.injEq, reduceCtorEq, or_false] at hpc
      obtain ⟨rfl, rfl, rfl⟩ := hpc
      exact ⟨key _ rfl rfl rfl (by rw [hch]; simp), by simp⟩
    | copy t' d r c i x h h1 =>
      rw [h] at hpc
      simp only [PPc.copy.injEq, reduceCtorEq, or_false, false_or] at hpc
      omega
    | copyEnd t' d r c i h h1 =>
      rw [h] at hpc
      simp only [PPc.copy.injEq, reduceCtorEq, or_false, false_or] at hpc
      obtain ⟨rfl, rfl, rfl, rfl, rfl⟩ := hpc
      exact ⟨key _ rfl rfl rfl (by simp), by simp⟩
    | badvSkip t' d r c h h1 =>
      rw [h] at hpc
      simp only [PPc.badv.injEq, reduceCtorEq, false_or] at hpc
      obtain ⟨rfl, rfl, rfl, rfl⟩ := hpc
      exact ⟨key _ rfl rfl rfl (by simp), by simp⟩
    | badvOk t' d r c h h1 h2 =>
      rw [h] at hpc
      simp only [PPc.badv.injEq, reduceCtorEq, false_or] at hpc
      exact absurd hpc.2.2.2 h2
    | _ => exact absurd rfl hp

/-- Further execution from a state. -/
inductive Steps (n : Nat) : St α → List (Lbl α) → St α → Prop
  | nil (s) : Steps n s [] s
  | cons {s l s' ls s''} : Step n s l s' → Steps n s' ls s'' → Steps n s (l :: ls) s''

theorem Exec.steps {buffer : List α} {tr : List (Lbl α)} {s s' : St α} {ls : List (Lbl α)} (h : Exec n buffer tr s)
    (hs : Steps n s ls s') : Exec n buffer (tr ++ ls) s' := by
  induction hs generalizing tr with
  | nil => simpa using h
  | cons h1 _ ih => simpa using ih (h.step h1)

theorem Steps.append {s s' s'' : St α} {l m : List (Lbl α)} (h : Steps n s l s') (h' : Steps n s' m s'') :
    Steps n s (l ++ m) s'' := by
  induction h with
  | nil => exact h'
  | cons h1 _ ih => exact .cons h1 (ih h')

/-- A whole `putc` by an uninterrupted producer. -/
theorem putc_steps (s : St α) (x : α) (h : s.p = .idle) (hnf : ¬full n s) :
    Steps n s [.tau, .tau, .tau, .tau, .putcRet x true]
      { s with slots := s.slots.set s.head x, head := (s.head + 1) % n } := by
  obtain ⟨sl, hd, tl, p, c⟩ := s
  simp only at h
  subst h
  exact .cons (.callPutc _ x rfl) (.cons (.checkOk _ x rfl hnf) (.cons (.write _ x rfl)
    (.cons (.advOk _ x rfl hnf) (.cons (.setHead _ x rfl) (.nil _)))))

/-- Filling an empty buffer. -/
theorem fill_steps (buffer : List α) (hb : buffer.length = n) (hn : 2 ≤ n) (x : α) (k : Nat) (hk : k ≤ n - 1) :
    ∃ tr sl, (∀ l ∈ tr, Polite n l) ∧ sl.length = n ∧
      Steps n (⟨buffer, 0, 0, .idle, .idle⟩ : St α) tr ⟨sl, k, 0, .idle, .idle⟩ := by
  induction k with
  | zero => exact ⟨[], buffer, by simp, hb, .nil _⟩
  | succ k ih =>
    obtain ⟨tr, sl, h1, h2, h3⟩ := ih (by omega)
    have hp := putc_steps (n := n) (⟨sl, k, 0, .idle, .idle⟩ : St α) x rfl (by
      simp only [full]; rw [Nat.mod_eq_of_lt (by omega)]; omega)
    simp only [Nat.mod_eq_of_lt (show k + 1 < n by omega)] at hp
    refine ⟨tr ++ [.tau, .tau, .tau, .tau, .putcRet x true], _, ?_, ?_, h3.append hp⟩
    · intro l hl
      rw [List.mem_append] at hl
      rcases hl with hl | hl
      · exact h1 l hl
      · simp only [List.mem_cons, List.not_mem_nil, or_false] at hl
        rcases hl with rfl | rfl | rfl | rfl | rfl <;> trivial
    · simp [h2]

/-- Bound on the producer steps left in a bulk put. -/
def mu : PPc α → Nat
  | .loop _ _ rest => 5 * rest.length + 1
  | .copy _ _ rest _ i => 5 * rest.length - i
  | .badv _ _ rest c => 5 * rest.length - c - 1
  | .bset _ _ rest c => 5 * rest.length - c - 2
  | _ => 0

end Gel.Cbuf.Conc
