import Verif.Cbuf.Lemmas

/-!
# Circular buffer: the model refines the specification, call by call
-/
namespace Gel.Cbuf

variable {α : Type u}

theorem asSize_of_nonneg {i : Int} (h0 : 0 ≤ i) (h1 : i < 2 ^ 31) : asSize i = i.toNat := by
  unfold asSize
  rw [Int.emod_eq_of_lt h0 (by omega)]

theorem Rep.seg_take {cb : Cbuf α} {q : List α} (h : Rep cb q) (k : Nat) :
    Seg cb.buffer cb.bufsize cb.tail (q.take k) := by
  intro i hi
  simp only [List.length_take] at hi
  rw [h.seg i (by omega), List.getElem?_take, if_pos (by omega)]

theorem get_good {cb : Cbuf α} {q : List α} (h : Rep cb q) (out : Option (List α)) (len : Int) (consume : Bool)
    (h0 : 0 ≤ len) (h1 : len < 2 ^ 31) (h2 : ∀ o, out = some o → len.toNat ≤ o.length)
    (h3 : q.length = cb.bufsize - 1 → len ≤ (cb.bufsize - 1 : Nat)) :
    get cb out (asSize len) consume =
      .ok (if consume then retreat cb (q.take len.toNat).length else cb,
        out.map (Spec.stored · (q.take len.toNat)), (q.take len.toNat).length) := by
  have hq := h.q_lt
  rw [asSize_of_nonneg h0 h1]
  apply get_eq h out len.toNat consume (q.take len.toNat) ?_ (h.seg_take _)
  · intro o ho; have := h2 o ho; simp; omega
  · rw [List.length_take]
    by_cases hf : q.length = cb.bufsize - 1
    · rw [h.size_full hf]; have := h3 hf; omega
    · rw [h.size hf]

/-- Every `Good` call on a buffer holding `q` behaves as specified. -/
theorem step_good {cb : Cbuf α} {q : List α} (h : Rep cb q) (c : Call α) (hc : Spec.Good (cb.bufsize - 1) q c) :
    ∃ cb', step cb c = .ok (cb', (Spec.step (cb.bufsize - 1) q c).2) ∧ Rep cb' (Spec.step (cb.bufsize - 1) q c).1 ∧
      cb'.bufsize = cb.bufsize := by
  have hq := h.q_lt
  cases c with
  | putc x =>
    obtain ⟨cb', h1, h2, h3⟩ := putc_rep h x
    exact ⟨cb', by simp [step, h1, Spec.step], h2, h3⟩
  | getc =>
    obtain ⟨cb', h1, h2, h3⟩ := getc_rep h
    exact ⟨cb', by simp [step, h1, Spec.step], h2, h3⟩
  | getcNull =>
    obtain ⟨cb', h1, h2, h3⟩ := getcNull_rep h
    exact ⟨cb', by simp [step, h1, Spec.step], h2, h3⟩
  | puts data len =>
    obtain ⟨hl, hne⟩ := hc
    obtain ⟨cb', k, h1, h2, h3, h4, -, h5⟩ := puts_raw h data len hl
    have hk := h5 (fun hcor => hne hcor.1)
    have hspec : Spec.putMany (cb.bufsize - 1) q (data.take len) = (q ++ data.take k, k) := by
      simp only [Spec.putMany, List.take_take, ← hk, Nat.min_comm]
      simp; omega
    refine ⟨cb', by simp [step, h1, Spec.step, hspec], ?_, h3⟩
    simp only [Spec.step, hspec]
    exact ⟨h2, by rw [h3]; simp; omega⟩
  | gets out len =>
    obtain ⟨h0, h1, h2, h3⟩ := hc
    refine ⟨retreat cb (q.take len.toNat).length, by simp only [step, gets, get_good h out len true h0 h1 h2 h3,
      Res.ok_bind, Spec.step, if_true], ?_, rfl⟩
    simp only [Spec.step]
    have := h.pop (c := (q.take len.toNat).length) (by simp; omega)
    rcases Nat.le_total len.toNat q.length with hle | hle
    · rwa [List.length_take, Nat.min_eq_left hle] at this ⊢
    · rw [List.drop_of_length_le hle]
      rw [List.take_of_length_le hle, List.drop_length] at this
      rwa [List.take_of_length_le hle]
  | peek out len =>
    obtain ⟨h0, h1, h2, h3⟩ := hc
    exact ⟨_, by simp only [step, peek, get_good h out len false h0 h1 h2 h3, Res.ok_bind, Spec.step]; rfl, h, rfl⟩
  | drop len =>
    obtain ⟨h0, h1, h3⟩ := hc
    refine ⟨retreat cb (q.take len.toNat).length, by simp only [step, drop, get_good h none len true h0 h1 (by simp) h3,
      Res.ok_bind, Spec.step, if_true], ?_, rfl⟩
    simp only [Spec.step]
    have := h.pop (c := (q.take len.toNat).length) (by simp; omega)
    rcases Nat.le_total len.toNat q.length with hle | hle
    · rwa [List.length_take, Nat.min_eq_left hle] at this ⊢
    · rw [List.drop_of_length_le hle]
      rw [List.take_of_length_le hle, List.drop_length] at this
      rwa [List.take_of_length_le hle]
  | reset => exact ⟨_, rfl, reset_rep h, rfl⟩
  | isEmpty =>
    refine ⟨cb, ?_, h, rfl⟩
    have := h.isEmpty
    simp only [step, Spec.step]
    congr 4
    rw [Bool.eq_iff_iff, this, beq_iff_eq, List.length_eq_zero_iff]
  | isFull =>
    refine ⟨cb, ?_, h, rfl⟩
    have := h.isFull
    simp only [step, Spec.step]
    congr 4
    rw [Bool.eq_iff_iff, this, beq_iff_eq]
  | size =>
    refine ⟨cb, ?_, h, rfl⟩
    simp only [step, Spec.step, h.size hc]
  | capacity => exact ⟨cb, rfl, h, rfl⟩

theorem run_good {cb : Cbuf α} {q : List α} (h : Rep cb q) (cs : List (Call α))
    (hc : Spec.GoodRun (cb.bufsize - 1) q cs) :
    ∃ cb', run cb cs = .ok (cb', (Spec.run (cb.bufsize - 1) q cs).2) ∧ Rep cb' (Spec.run (cb.bufsize - 1) q cs).1 ∧
      cb'.bufsize = cb.bufsize := by
  induction cs generalizing cb q with
  | nil => exact ⟨cb, rfl, h, rfl⟩
  | cons c cs ih =>
    obtain ⟨cb1, h1, h2, h3⟩ := step_good h c hc.1
    obtain ⟨cb2, h4, h5, h6⟩ := ih h2 (by rw [h3]; exact hc.2)
    refine ⟨cb2, ?_, ?_, h6.trans h3⟩
    · simp only [run, h1, Res.ok_bind, h4, Spec.run, h3]
    · simpa only [Spec.run, h3] using h5

theorem goodRun_of_single (cap : Nat) (q : List α) (cs : List (Call α)) (h : ∀ c ∈ cs, Spec.Single c) :
    Spec.GoodRun cap q cs := by
  induction cs generalizing q with
  | nil => trivial
  | cons c cs ih =>
    refine ⟨?_, ih _ (fun c hc => h c (List.mem_cons_of_mem _ hc))⟩
    have := h c List.mem_cons_self
    cases c <;> simp_all [Spec.Single, Spec.Good]


theorem seg_exists {cb : Cbuf α} {q : List α} (h : Rep cb q) (k : Nat) :
    ∃ xs : List α, xs.length = k ∧ Seg cb.buffer cb.bufsize cb.tail xs := exists_seg h.len h.pos _ _

theorem retreat_rep {cb : Cbuf α} {q : List α} (h : Rep cb q) {k : Nat} (hk : k ≤ size cb) :
    ∃ q', Rep (retreat cb k) q' := by
  by_cases hf : q.length = cb.bufsize - 1
  · rw [h.size_full hf] at hk
    by_cases hk' : k = cb.bufsize
    · refine ⟨q, ?_⟩
      have : retreat cb k = cb := by
        unfold retreat; rw [hk', Nat.add_mod_right, Nat.mod_eq_of_lt h.tail_lt]
      rw [this]; exact h
    · exact ⟨q.drop k, h.pop (by omega)⟩
  · rw [h.size hf] at hk
    exact ⟨q.drop k, h.pop hk⟩

theorem size_le {cb : Cbuf α} {q : List α} (h : Rep cb q) : size cb ≤ cb.bufsize := by
  by_cases hf : q.length = cb.bufsize - 1
  · exact Nat.le_of_eq (h.size_full hf)
  · rw [h.size hf]; exact h.q_le

/-- Every bulk read with a large enough array is defined and leaves a well-formed buffer. -/
theorem get_fits {cb : Cbuf α} {q : List α} (h : Rep cb q) (out : Option (List α)) (len : Int) (consume : Bool)
    (h2 : ∀ o, out = some o → (0 ≤ len ∧ len.toNat ≤ o.length) ∨ cb.bufsize ≤ o.length) :
    ∃ cb' xs q', get cb out (asSize len) consume = .ok (cb', out.map (Spec.stored · xs), xs.length) ∧ Rep cb' q' ∧
      cb'.bufsize = cb.bufsize ∧ (0 ≤ len → xs.length ≤ len.toNat) ∧ xs.length ≤ cb.bufsize := by
  obtain ⟨xs, hx, hs⟩ := seg_exists h (min (asSize len) (size cb))
  have hle := size_le h
  have hlen : 0 ≤ len → xs.length ≤ len.toNat := by
    intro h0
    have h3 : asSize len ≤ len.toNat := by
      unfold asSize
      omega
    omega
  have hg := get_eq h out (asSize len) consume xs hx hs (by
    intro o ho
    rcases h2 o ho with ⟨h3, h4⟩ | h3
    · have := hlen h3; omega
    · omega)
  cases consume with
  | true =>
    obtain ⟨q', hq'⟩ := retreat_rep h (k := xs.length) (by omega)
    exact ⟨_, xs, q', by rw [hg, if_pos rfl], hq', rfl, hlen, by omega⟩
  | false => exact ⟨_, xs, q, by rw [hg, if_neg (by simp)], h, rfl, hlen, by omega⟩

/-- Every call with large enough arrays is defined and leaves a well-formed buffer. -/
theorem step_fits {cb : Cbuf α} {q : List α} (h : Rep cb q) (c : Call α) (hc : Spec.Fits cb.bufsize c) :
    ∃ cb' o q', step cb c = .ok (cb', o) ∧ Rep cb' q' ∧ cb'.bufsize = cb.bufsize := by
  cases c with
  | puts data len =>
    obtain ⟨cb', k, h1, h2, h3, h4, h5, h6⟩ := puts_raw h data len hc
    have hle := h2.q_le
    rcases Nat.lt_or_ge (q ++ data.take k).length cb'.bufsize with hlt | hge
    · exact ⟨cb', _, _, by simp only [step, h1, Res.ok_bind]; rfl, ⟨h2, hlt⟩, h3⟩
    · exact ⟨cb', _, _, by simp only [step, h1, Res.ok_bind]; rfl, h2.rep_empty (by omega), h3⟩
  | gets out len =>
    obtain ⟨cb', xs, q', h1, h2, h3, -, -⟩ := get_fits h out len true (by
      rintro o rfl; exact hc)
    exact ⟨cb', _, q', by simp only [step, gets, h1, Res.ok_bind]; rfl, h2, h3⟩
  | peek out len =>
    obtain ⟨cb', xs, q', h1, h2, h3, -, -⟩ := get_fits h out len false (by
      rintro o rfl; exact hc)
    exact ⟨cb', _, q', by simp only [step, peek, h1, Res.ok_bind]; rfl, h2, h3⟩
  | drop len =>
    obtain ⟨cb', xs, q', h1, h2, h3, -, -⟩ := get_fits h none len true (by simp)
    exact ⟨cb', _, q', by simp only [step, drop, h1, Res.ok_bind]; rfl, h2, h3⟩
  | size => exact ⟨cb, _, q, rfl, h, rfl⟩
  | putc x => obtain ⟨cb', h1, h2, h3⟩ := step_good h (.putc x) trivial; exact ⟨cb', _, _, h1, h2, h3⟩
  | getc => obtain ⟨cb', h1, h2, h3⟩ := step_good h .getc trivial; exact ⟨cb', _, _, h1, h2, h3⟩
  | getcNull => obtain ⟨cb', h1, h2, h3⟩ := step_good h .getcNull trivial; exact ⟨cb', _, _, h1, h2, h3⟩
  | reset => obtain ⟨cb', h1, h2, h3⟩ := step_good h .reset trivial; exact ⟨cb', _, _, h1, h2, h3⟩
  | isEmpty => exact ⟨cb, _, q, rfl, h, rfl⟩
  | isFull => exact ⟨cb, _, q, rfl, h, rfl⟩
  | capacity => exact ⟨cb, _, q, rfl, h, rfl⟩

theorem run_fits {cb : Cbuf α} {q : List α} (h : Rep cb q) (cs : List (Call α))
    (hc : ∀ c ∈ cs, Spec.Fits cb.bufsize c) :
    ∃ cb' os q', run cb cs = .ok (cb', os) ∧ Rep cb' q' ∧ cb'.bufsize = cb.bufsize := by
  induction cs generalizing cb q with
  | nil => exact ⟨cb, [], q, rfl, h, rfl⟩
  | cons c cs ih =>
    obtain ⟨cb1, o, q1, h1, h2, h3⟩ := step_fits h c (hc c List.mem_cons_self)
    obtain ⟨cb2, os, q2, h4, h5, h6⟩ := ih h2 (fun c hm => by rw [h3]; exact hc c (List.mem_cons_of_mem _ hm))
    exact ⟨cb2, o :: os, q2, by simp only [run, h1, Res.ok_bind, h4], h5, h6.trans h3⟩

theorem run_append {cb : Cbuf α} (cs ds : List (Call α)) :
    run cb (cs ++ ds) = (do
      let (cb1, os) ← run cb cs
      let (cb2, os') ← run cb1 ds
      .ok (cb2, os ++ os')) := by
  induction cs generalizing cb with
  | nil => simp only [List.nil_append, run, Res.ok_bind]; cases run cb ds <;> rfl
  | cons c cs ih =>
    simp only [List.cons_append, run, bind_assoc]
    congr 1; funext x
    simp only [ih, bind_assoc, Res.ok_bind, List.cons_append]

theorem specRun_getc (cap : Nat) (q : List α) :
    Spec.run cap q (List.replicate q.length .getc ++ [.getc]) =
      ([], q.map (fun x => ⟨0, some [x]⟩) ++ [⟨-1, none⟩]) := by
  induction q with
  | nil => rfl
  | cons x q ih =>
    simp only [List.length_cons, List.replicate_succ, List.cons_append, Spec.run, Spec.step, Spec.take1, List.map_cons,
      Option.map_some]
    rw [ih]

theorem specRun_putc (cap : Nat) (q xs : List α) (h : q.length + xs.length ≤ cap) (cs : List (Call α)) :
    Spec.run cap q (xs.map .putc ++ cs) =
      ((Spec.run cap (q ++ xs) cs).1, xs.map (fun _ => ⟨0, none⟩) ++ (Spec.run cap (q ++ xs) cs).2) := by
  induction xs generalizing q with
  | nil => simp
  | cons x xs ih =>
    simp only [List.length_cons] at h
    simp only [List.map_cons, List.cons_append, Spec.run, Spec.step, Spec.put]
    rw [if_pos (by omega), ih (q ++ [x]) (by simp; omega)]
    simp

end Gel.Cbuf
