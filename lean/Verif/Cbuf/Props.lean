import Verif.Cbuf.Refine

/-!
# Circular buffer: properties C01 to C05
-/
namespace Gel.Cbuf

variable {α : Type u}

/-! ## C01 -/

/-- **C01.** From `circular_buf_init` with a buffer of `n ≥ 1` elements (any initial content), every history of
single-element calls is defined and returns exactly what a FIFO of capacity `n - 1` returns. -/
theorem C01_single_element_fifo (buffer : List α) (n : Nat) (hn : 0 < n) (hb : buffer.length = n)
    (cs : List (Call α)) (hcs : ∀ c ∈ cs, Spec.Single c) :
    ∃ cb cb', init (some buffer) n = some cb ∧ run cb cs = .ok (cb', (Spec.run (n - 1) [] cs).2) := by
  obtain ⟨cb, h1, h2, h3⟩ := init_rep hn hb
  obtain ⟨cb', h4, -, -⟩ := run_good h2 cs (goodRun_of_single _ _ cs hcs)
  exact ⟨cb, cb', h1, by rw [h4, h3]⟩

/-- C01: initialisation is refused exactly for a NULL buffer or size 0. -/
theorem C01_init_refused (buffer : Option (List α)) (n : Nat) :
    init buffer n = none ↔ buffer = none ∨ n = 0 := by
  cases buffer <;> simp [init]

-- a history that wraps the ring, overfills it and empties it
example : ((init (some [0, 0, 0]) 3).map fun cb =>
      (run cb [.putc 1, .putc 2, .putc 3, .isFull, .getc, .putc 4, .getc, .getc, .getc, .isEmpty])) =
    some (.ok (⟨[1, 2, 4], 3, 0, 0⟩, [⟨0, none⟩, ⟨0, none⟩, ⟨-1, none⟩, ⟨1, none⟩, ⟨0, some [1]⟩, ⟨0, none⟩,
      ⟨0, some [2]⟩, ⟨0, some [4]⟩, ⟨-1, none⟩, ⟨1, none⟩])) := by decide

/-! ## C02 and C03: histories with bulk operations

The full claims (every `len`) are false, see `C02_puts_overflow` and `C03_gets_full_buffer`. -/

/-- **C02/C03, partial.** Every history of all the calls, single and bulk, in which no bulk put asks for exactly one
element more than fits, no bulk read asks a full buffer for more than it holds and no size query is made on a full
buffer, returns exactly what a FIFO of capacity `n - 1` returns. Missing: precisely those three kinds of call. -/
theorem C02_C03_history_partial (buffer : List α) (n : Nat) (hn : 0 < n) (hb : buffer.length = n)
    (cs : List (Call α)) (hcs : Spec.GoodRun (n - 1) [] cs) :
    ∃ cb cb', init (some buffer) n = some cb ∧ run cb cs = .ok (cb', (Spec.run (n - 1) [] cs).2) := by
  obtain ⟨cb, h1, h2, h3⟩ := init_rep hn hb
  obtain ⟨cb', h4, -, -⟩ := run_good h2 cs (by rw [h3]; exact hcs)
  exact ⟨cb, cb', h1, by rw [h4, h3]⟩

-- the hypotheses are met by a history of bulk calls that wrap
example : Spec.GoodRun 3 [] [.puts [1, 2, 3, 4, 5] 5, .gets (some [0, 0]) 2, .puts [6, 7] 2, .peek (some [0, 0, 0]) 3,
    .drop 1, .size] := by
  simp [Spec.GoodRun, Spec.Good, Spec.step, Spec.putMany]

example : (run (⟨[0, 0, 0, 0], 4, 0, 0⟩ : Cbuf Nat) [.puts [1, 2, 3, 4, 5] 5, .gets (some [0, 0]) 2, .puts [6, 7] 2,
      .peek (some [0, 0, 0]) 3, .drop 1, .size]) =
    .ok (⟨[7, 2, 3, 6], 4, 1, 3⟩, [⟨3, none⟩, ⟨2, some [1, 2]⟩, ⟨2, none⟩, ⟨3, some [3, 6, 7]⟩, ⟨1, none⟩,
      ⟨2, none⟩]) := by decide

/-- **C02, partial.** In every state holding the queue `q`, outside the corner region `circular_buf_puts` appends the
first `min len free` elements, in order, and returns that number. Missing: the corner region. -/
theorem C02_puts_partial {cb : Cbuf α} {q : List α} (h : Rep cb q) (data : List α) (len : Nat)
    (hd : len ≤ data.length) (hc : ¬PutCorner cb q len) :
    ∃ cb', puts cb data len = .ok (cb', min len (cb.bufsize - 1 - q.length)) ∧
      Rep cb' (q ++ data.take (min len (cb.bufsize - 1 - q.length))) := by
  obtain ⟨cb', k, h1, h2, h3, h4, -, h5⟩ := puts_raw h data len hd
  have hk := h5 hc
  have hlt := h.q_lt
  subst hk
  exact ⟨cb', h1, h2, by rw [h3]; simp; omega⟩

-- a wrapped state outside the corner: three elements fit, five are offered
example : Rep (⟨[9, 0, 0, 0, 8], 5, 1, 4⟩ : Cbuf Nat) [8, 9] ∧
    ¬PutCorner (⟨[9, 0, 0, 0, 8], 5, 1, 4⟩ : Cbuf Nat) [8, 9] 5 := by
  refine ⟨⟨⟨rfl, by decide, by decide, rfl, ?_⟩, by decide⟩, ?_⟩
  · intro i hi
    simp only [List.length_cons, List.length_nil] at hi
    match i, hi with
    | 0, _ => rfl
    | 1, _ => rfl
  · rintro ⟨h, -⟩; simp at h

/-- **C02 is false of the code.** In every state of the corner region `circular_buf_puts` writes and reports one
element more than fits and the buffer is then empty: everything stored is lost. -/
theorem C02_puts_overflow {cb : Cbuf α} {q : List α} (h : Rep cb q) (data : List α) (len : Nat)
    (hd : len ≤ data.length) (hc : PutCorner cb q len) :
    ∃ cb', puts cb data len = .ok (cb', cb.bufsize - q.length) ∧ isEmpty cb' = true ∧ Rep cb' [] := by
  obtain ⟨cb', k, h1, h2, h3, h4, h5, -⟩ := puts_raw h data len hd
  have hk := h5 hc
  have hlt := h.q_lt
  have hlen : len = cb.bufsize - 1 - q.length + 1 := hc.1
  subst hk
  have hrep : Rep cb' [] := h2.rep_empty (by rw [h3]; simp; omega)
  exact ⟨cb', h1, hrep.isEmpty.2 rfl, hrep⟩

/-- C02 is false, seen by the user: on every buffer of size `n ≥ 3`, after two elements have passed through, a bulk
put of `n` elements reports `n` written (one more than the capacity) and leaves the buffer empty. -/
theorem C02_overflow_history (buffer data : List α) (n : Nat) (hn : 3 ≤ n) (hb : buffer.length = n)
    (hd : data.length = n) (x y : α) :
    ∃ cb cb', init (some buffer) n = some cb ∧
      run cb [.putc x, .putc y, .getc, .getc, .puts data n, .isEmpty, .getc] =
        .ok (cb', [⟨0, none⟩, ⟨0, none⟩, ⟨0, some [x]⟩, ⟨0, some [y]⟩, ⟨n, none⟩, ⟨1, none⟩, ⟨-1, none⟩]) := by
  obtain ⟨cb, h1, h2, h3⟩ := init_rep (show 0 < n by omega) hb
  have hcb : cb.tail = 0 := by
    simp only [init, show n ≠ 0 by omega, if_false, Option.some.injEq] at h1
    rw [← h1]; rfl
  -- the first four calls, keeping track of the tail
  obtain ⟨c1, e1, r1, s1⟩ := putc_rep h2 x
  have t1 : c1.tail = cb.tail := by
    simp only [putc, advance] at e1
    split_ifs at e1 with hf
    · rcases Res.bind_eq_ok.1 e1 with ⟨b, -, e⟩
      simp only [Res.ok.injEq, Prod.mk.injEq] at e
      rw [← e.1]; split_ifs <;> rfl
    · simp only [Res.ok.injEq, Prod.mk.injEq] at e1; rw [← e1.1]
  simp only [Spec.put, h3, List.length_nil, show (0 < n - 1) from by omega, if_true, List.nil_append] at e1 r1
  obtain ⟨c2, e2, r2, s2⟩ := putc_rep r1 y
  have t2 : c2.tail = c1.tail := by
    simp only [putc, advance] at e2
    split_ifs at e2 with hf
    · rcases Res.bind_eq_ok.1 e2 with ⟨b, -, e⟩
      simp only [Res.ok.injEq, Prod.mk.injEq] at e
      rw [← e.1]; split_ifs <;> rfl
    · simp only [Res.ok.injEq, Prod.mk.injEq] at e2; rw [← e2.1]
  simp only [Spec.put, s1, h3, List.length_cons, List.length_nil, show (0 + 1 < n - 1) from by omega, if_true,
    List.cons_append, List.nil_append] at e2 r2
  have e3 : getc c2 = .ok (retreat c2 1, some x, 0) := by
    obtain ⟨c, e, -, -⟩ := getc_rep r2
    rw [getc] at e ⊢
    split_ifs at e ⊢ with hf
    · simp [Spec.take1] at e
    · rcases Res.bind_eq_ok.1 e with ⟨b, hb, e⟩
      simp only [Spec.take1, Res.ok.injEq, Prod.mk.injEq, Option.some.injEq] at e
      rw [hb]; simp [e.2.1]
  have r3 : Rep (retreat c2 1) [y] := r2.pop (c := 1) (by simp)
  have e4 : getc (retreat c2 1) = .ok (retreat (retreat c2 1) 1, some y, 0) := by
    obtain ⟨c, e, -, -⟩ := getc_rep r3
    rw [getc] at e ⊢
    split_ifs at e ⊢ with hf
    · simp [Spec.take1] at e
    · rcases Res.bind_eq_ok.1 e with ⟨b, hb, e⟩
      simp only [Spec.take1, Res.ok.injEq, Prod.mk.injEq, Option.some.injEq] at e
      rw [hb]; simp [e.2.1]
  have r4 : Rep (retreat (retreat c2 1) 1) ([] : List α) := r3.pop (c := 1) (by simp)
  have hbs : (retreat (retreat c2 1) 1).bufsize = n := by
    show c2.bufsize = n
    rw [s2, s1, h3]
  have htl : (retreat (retreat c2 1) 1).tail = 2 := by
    have hn2 : c2.bufsize = n := hbs
    simp only [retreat, t2, t1, hcb, hn2]
    rw [Nat.mod_eq_of_lt (show 0 + 1 < n by omega), Nat.mod_eq_of_lt (by omega)]
  obtain ⟨c5, e5, e6, r5⟩ := C02_puts_overflow r4 data n (by omega) (by
    refine ⟨by rw [hbs]; simp; omega, Or.inr ⟨?_, by omega⟩⟩
    have := r4.head
    rw [this, htl, hbs]
    simp only [List.length_nil, Nat.add_zero]
    rw [Nat.mod_eq_of_lt (by omega)]
    exact Nat.le_refl _)
  obtain ⟨c6, e7, -, -⟩ := getc_rep r5
  simp only [List.length_nil, Nat.sub_zero, hbs] at e5
  refine ⟨cb, c6, h1, ?_⟩
  simp only [run, step, e1, e2, e3, e4, e5, e6, e7, Res.ok_bind, b2i, if_true, Spec.take1, Option.map_some,
    Option.map_none]

example : (run (⟨[0, 0, 0], 3, 0, 0⟩ : Cbuf Nat) [.putc 1, .putc 2, .getc, .getc, .puts [5, 6, 7] 3, .isEmpty, .getc])
    = .ok (⟨[6, 7, 5], 3, 2, 2⟩, [⟨0, none⟩, ⟨0, none⟩, ⟨0, some [1]⟩, ⟨0, some [2]⟩, ⟨3, none⟩, ⟨1, none⟩,
      ⟨-1, none⟩]) := by decide

/-- **C03, partial.** In every state holding `q`, for a non-negative length (at most the stored number if the buffer is
full), the bulk reads store the `min len (stored)` oldest elements at the beginning of the caller's array, leave the
rest of it alone and return that number; `gets` removes them, `peek` does not. Missing: a full buffer asked for more
than it holds. -/
theorem C03_bulk_read_partial {cb : Cbuf α} {q : List α} (h : Rep cb q) (out : List α) (len : Nat)
    (hl : len < 2 ^ 31) (ho : len ≤ out.length) (hf : q.length = cb.bufsize - 1 → len ≤ q.length) :
    (∃ cb', gets cb (some out) len = .ok (cb', some (q.take len ++ out.drop (min len q.length)), min len q.length) ∧
      Rep cb' (q.drop len)) ∧
    peek cb (some out) len = .ok (cb, some (q.take len ++ out.drop (min len q.length)), min len q.length) ∧
    (∃ cb', drop cb len = .ok (cb', none, min len q.length) ∧ Rep cb' (q.drop len)) := by
  have h3 : q.length = cb.bufsize - 1 → (len : Int) ≤ (cb.bufsize - 1 : Nat) := by
    intro h'; have := hf h'; omega
  have hg := fun consume o ho' => get_good h o (len : Int) consume (by omega) (by omega) ho' h3
  have hpop := h.pop (c := min len q.length) (by omega)
  have hdrop : q.drop (min len q.length) = q.drop len := by
    rcases Nat.le_total len q.length with h' | h'
    · rw [Nat.min_eq_left h']
    · rw [Nat.min_eq_right h', List.drop_length, List.drop_of_length_le h']
  rw [hdrop] at hpop
  have hfit : ∀ o, some out = some o → (len : Int).toNat ≤ o.length := by rintro o ⟨⟩; simpa using ho
  refine ⟨⟨retreat cb (min len q.length), ?_, hpop⟩, ?_, retreat cb (min len q.length), ?_, hpop⟩
  · rw [gets, hg true _ hfit]; simp [Spec.stored]
  · rw [peek, hg false _ hfit]; simp [Spec.stored]
  · rw [drop, hg true _ (by simp)]; simp

example : (gets (⟨[9, 0, 0, 0, 8], 5, 1, 4⟩ : Cbuf Nat) (some [1, 1, 1, 1]) 3) =
    .ok (⟨[9, 0, 0, 0, 8], 5, 1, 1⟩, some [8, 9, 1, 1], 2) := by decide

/-- **C03 is false of the code.** On every full buffer, a bulk read of at least `bufsize` elements reports `bufsize`
elements - one more than stored, the last one stale - and removes nothing. -/
theorem C03_gets_full_buffer {cb : Cbuf α} {q : List α} (h : Rep cb q) (hf : isFull cb = true) (out : List α)
    (len : Int) (hl : cb.bufsize ≤ len) (hl' : len < 2 ^ 31) (ho : cb.bufsize ≤ out.length) :
    ∃ stale, gets cb (some out) len = .ok (cb, some (q ++ [stale] ++ out.drop cb.bufsize), cb.bufsize) ∧
      cb.buffer[cb.head]? = some stale := by
  have hq := h.isFull.1 hf
  have hlt := h.q_lt
  have hpos := h.pos
  obtain ⟨stale, hs⟩ : ∃ s, cb.buffer[cb.head]? = some s :=
    ⟨_, List.getElem?_eq_getElem (by rw [h.len]; exact h.head_lt)⟩
  refine ⟨stale, ?_, hs⟩
  have hxl : (q ++ [stale]).length = cb.bufsize := by simp; omega
  have hseg : Seg cb.buffer cb.bufsize cb.tail (q ++ [stale]) := by
    intro i hi
    rcases Nat.lt_or_ge i q.length with h' | h'
    · rw [List.getElem?_append_left h']; exact h.seg i h'
    · have : i = q.length := by omega
      subst this
      rw [List.getElem?_append_right h', ← h.head, hs]; simp
  rw [gets, asSize_of_nonneg (by omega) hl', get_eq h _ _ true (q ++ [stale])
    (by rw [hxl, h.size_full hq]; omega) hseg (by rintro o ⟨⟩; omega)]
  simp only [if_true, hxl, Option.map_some, Spec.stored, retreat, Nat.add_mod_right, Nat.mod_eq_of_lt h.tail_lt]

/-- C03 is false, seen by the user: fill a buffer of any size `n ≥ 1`, ask for `n` or more elements; `n` are reported
although only `n - 1` were put, and the buffer is still full. -/
theorem C03_full_history (buffer out xs : List α) (n : Nat) (hn : 0 < n) (hn' : n < 2 ^ 31) (hb : buffer.length = n)
    (hx : xs.length = n - 1) (ho : n ≤ out.length) :
    ∃ cb cb' d, init (some buffer) n = some cb ∧
      run cb (xs.map .putc ++ [.gets (some out) n, .isFull]) =
        .ok (cb', xs.map (fun _ => ⟨0, none⟩) ++ [⟨n, some d⟩, ⟨1, none⟩]) := by
  obtain ⟨cb, h1, h2, h3⟩ := init_rep hn hb
  obtain ⟨c1, e1, r1, s1⟩ := run_good h2 (xs.map .putc) (goodRun_of_single _ _ _ (by
    intro c hc; simp only [List.mem_map] at hc; obtain ⟨x, -, rfl⟩ := hc; trivial))
  have hsp := specRun_putc (cb.bufsize - 1) [] xs (by simp [hx, h3]) []
  simp only [List.append_nil, List.nil_append, Spec.run] at hsp
  rw [hsp] at e1 r1
  have hfull : isFull c1 = true := r1.isFull.2 (by rw [s1, h3]; simpa using hx)
  obtain ⟨stale, e2, -⟩ := C03_gets_full_buffer r1 hfull out n (by omega) (by omega) (by omega)
  refine ⟨cb, c1, xs ++ [stale] ++ out.drop n, h1, ?_⟩
  rw [run_append, e1]
  simp only [Res.ok_bind, run, step, e2, hfull, b2i, if_true]
  rw [s1, h3]

example : (run (⟨[0, 0, 0], 3, 0, 0⟩ : Cbuf Nat) [.putc 1, .putc 2, .gets (some [7, 7, 7]) 3, .isFull]) =
    .ok (⟨[1, 2, 0], 3, 2, 0⟩, [⟨0, none⟩, ⟨0, none⟩, ⟨3, some [1, 2, 0]⟩, ⟨1, none⟩]) := by decide

/-! ## C04 -/

/-- **C04, partial.** After every history of calls with adequate arrays, let `q` be the elements successive single
gets would return before the first refusal; there are at most `capacity` of them. The size query answers their number
unless the buffer is full, in which case it answers one too many. So the claim holds exactly in the non-full states. -/
theorem C04_size_partial (buffer : List α) (n : Nat) (hn : 0 < n) (hb : buffer.length = n)
    (cs : List (Call α)) (hcs : ∀ c ∈ cs, Spec.Fits n c) :
    ∃ cb cb' os, ∃ q : List α, ∃ cb'', init (some buffer) n = some cb ∧ run cb cs = .ok (cb', os) ∧
      run cb' (List.replicate q.length .getc ++ [.getc]) =
        .ok (cb'', q.map (fun x => ⟨0, some [x]⟩) ++ [⟨-1, none⟩]) ∧
      q.length ≤ capacity cb' ∧
      (isFull cb' = false → size cb' = q.length) ∧
      (isFull cb' = true → size cb' = q.length + 1) := by
  obtain ⟨cb, h1, h2, h3⟩ := init_rep hn hb
  obtain ⟨cb', os, q, h4, h5, h6⟩ := run_fits h2 cs (by rw [h3]; exact hcs)
  obtain ⟨cb'', h7, -, -⟩ := run_good h5 (List.replicate q.length .getc ++ [.getc])
    (goodRun_of_single _ _ _ (by
      intro c hc
      simp only [List.mem_append, List.mem_replicate, List.mem_singleton] at hc
      rcases hc with ⟨-, rfl⟩ | rfl <;> trivial))
  rw [specRun_getc] at h7
  have hq := h5.q_lt
  refine ⟨cb, cb', os, q, cb'', h1, h4, h7, by unfold capacity; omega, ?_, ?_⟩
  · intro hf
    apply h5.size
    intro hq'
    rw [h5.isFull.2 hq'] at hf
    cases hf
  · intro hf
    have := h5.isFull.1 hf
    rw [h5.size_full this]; omega

/-- **C04 is false of the code** when full: for every buffer size, after `capacity` puts the size query answers
`capacity + 1`. -/
theorem C04_size_full (buffer xs : List α) (n : Nat) (hn : 0 < n) (hb : buffer.length = n) (hx : xs.length = n - 1) :
    ∃ cb cb', init (some buffer) n = some cb ∧
      run cb (xs.map .putc ++ [.capacity, .size]) =
        .ok (cb', xs.map (fun _ => ⟨0, none⟩) ++ [⟨(n - 1 : Nat), none⟩, ⟨n, none⟩]) := by
  obtain ⟨cb, h1, h2, h3⟩ := init_rep hn hb
  obtain ⟨c1, e1, r1, s1⟩ := run_good h2 (xs.map .putc) (goodRun_of_single _ _ _ (by
    intro c hc; simp only [List.mem_map] at hc; obtain ⟨x, -, rfl⟩ := hc; trivial))
  have hsp := specRun_putc (cb.bufsize - 1) [] xs (by simp [hx, h3]) []
  simp only [List.append_nil, List.nil_append, Spec.run] at hsp
  rw [hsp] at e1 r1
  refine ⟨cb, c1, h1, ?_⟩
  rw [run_append, e1]
  simp only [Res.ok_bind, run, step, capacity, r1.size_full (by rw [s1, h3]; simpa using hx), s1, h3]

example : (run (⟨[0, 0, 0], 3, 0, 0⟩ : Cbuf Nat) [.putc 1, .size, .putc 2, .capacity, .size]) =
    .ok (⟨[1, 2, 0], 3, 2, 0⟩, [⟨0, none⟩, ⟨1, none⟩, ⟨0, none⟩, ⟨2, none⟩, ⟨3, none⟩]) := by decide

/-! ## C05 -/

/-- **C05.** After every history of calls, of every kind and length, whose arrays hold what is asked for, no access
left the buffer or the caller's arrays, no loop ran forever, and head and tail are inside the buffer, whose length is
unchanged. -/
theorem C05_memory_safe (buffer : List α) (n : Nat) (hn : 0 < n) (hb : buffer.length = n)
    (cs : List (Call α)) (hcs : ∀ c ∈ cs, Spec.Fits n c) :
    ∃ cb cb' os, init (some buffer) n = some cb ∧ run cb cs = .ok (cb', os) ∧
      cb'.buffer.length = n ∧ cb'.head < n ∧ cb'.tail < n := by
  obtain ⟨cb, h1, h2, h3⟩ := init_rep hn hb
  obtain ⟨cb', os, q, h4, h5, h6⟩ := run_fits h2 cs (by rw [h3]; exact hcs)
  have h7 : cb'.bufsize = n := h6.trans h3
  exact ⟨cb, cb', os, h1, h4, h5.len.trans h7, h7 ▸ h5.head_lt, h7 ▸ h5.tail_lt⟩

/-- C05: a bulk read of `len ≥ 0` elements reports at most `len` and leaves the caller's array beyond them alone, in
every reachable state. -/
theorem C05_read_frame (buffer : List α) (n : Nat) (hn : 0 < n) (hb : buffer.length = n)
    (cs : List (Call α)) (hcs : ∀ c ∈ cs, Spec.Fits n c) (out : List α) (len : Nat) (ho : len ≤ out.length) :
    ∃ cb cb' os cb'' out' r, init (some buffer) n = some cb ∧ run cb cs = .ok (cb', os) ∧
      gets cb' (some out) len = .ok (cb'', some out', r) ∧
      peek cb' (some out) len = .ok (cb', some out', r) ∧
      r ≤ len ∧ out'.length = out.length ∧ out'.drop r = out.drop r := by
  obtain ⟨cb, h1, h2, h3⟩ := init_rep hn hb
  obtain ⟨cb', os, q, h4, h5, h6⟩ := run_fits h2 cs (by rw [h3]; exact hcs)
  obtain ⟨xs, hx, hs⟩ := seg_exists h5 (min (asSize len) (size cb'))
  have hle : asSize len ≤ len := by unfold asSize; omega
  have hxo : ∀ o, some out = some o → xs.length ≤ o.length := by rintro o ⟨⟩; omega
  have hg := fun c => get_eq h5 (some out) (asSize len) c xs hx hs hxo
  refine ⟨cb, cb', os, _, Spec.stored out xs, xs.length, h1, h4, hg true, hg false, by omega, ?_, ?_⟩
  · have := hxo out rfl; simp [Spec.stored]; omega
  · simp [Spec.stored]

-- a history through both failing regions is still memory safe
example : (run (⟨[0, 0, 0], 3, 0, 0⟩ : Cbuf Nat) [.puts [1, 2, 3] 3, .gets (some [7, 7, 7]) (-1), .drop 1,
      .puts [4, 5] 2, .getc]) =
    .ok (⟨[1, 2, 4], 3, 0, 2⟩, [⟨2, none⟩, ⟨3, some [1, 2, 0]⟩, ⟨1, none⟩, ⟨1, none⟩, ⟨0, some [2]⟩]) := by decide

end Gel.Cbuf
