import Verif.Cbuf.TsoModel
import Mathlib.Tactic.SplitIfs
import Mathlib.Data.List.Basic

/-!
# Circular buffer on machines with store buffers: C112 and C113
-/
namespace Gel.Cbuf.Tso

variable {α : Type u}

/-! ## Ghost state: which call a store in the buffer belongs to -/

/-- A store of the `k`-th accepted call. -/
inductive Tag where
  | slot (k : Nat)
  | head (k : Nat)
  deriving DecidableEq

def Tag.head? : Tag → Option Nat
  | .slot _ => none
  | .head k => some k

/-- The store of the call, if `l` are the elements put. -/
def Tag.store (n : Nat) (d : α) (l : List α) : Tag → Store α
  | .slot k => .slot (k % n) (l.getD k d)
  | .head k => .head ((k + 1) % n)

/-- The stores of the calls from `H` to `P`, in the order of the program. -/
def body (H P : Nat) : List Tag := (List.range' H (P - H)).flatMap fun k => [.slot k, .head k]

/-- The element whose store has been issued but not the one of `head`. -/
def pend : PPc α → List α
  | .adv x | .setHead x => [x]
  | _ => []

def pendTag (P : Nat) (l : List α) : List Tag := l.map fun _ => .slot P

structure Inv (n : Nat) (d : α) (as gs : List α) (s : St α) (H T : Nat) (tags : List Tag) : Prop where
  len : s.slots.length = n
  tc : T ≤ gs.length
  ch : gs.length ≤ H
  hp : H ≤ as.length
  room : as.length < T + n
  head : s.head = H % n
  tail : s.tail = T % n
  pbuf : s.pbuf = tags.map (Tag.store n d (as ++ pend s.p))
  sub : List.Sublist tags (body H as.length ++ pendTag as.length (pend s.p))
  heads : tags.filterMap Tag.head? = List.range' H (as.length - H)
  cbuf : s.cbuf = (List.range' (T + 1) (gs.length - T)).map (· % n)
  mem : ∀ k, gs.length ≤ k → k < (as ++ pend s.p).length →
    Tag.slot k ∈ tags ∨ s.slots[k % n]? = (as ++ pend s.p)[k]?
  pre : gs <+: as
  p : match s.p with
    | .write _ | .adv _ | .setHead _ => as.length + 1 < T + n
    | _ => True
  c : match s.c with
    | .rdslot => gs.length < H
    | .setTail v => gs.length < H ∧ as[gs.length]? = some v
    | .echeckLate _ => False
    | _ => True

theorem mod_inj {n a b : Nat} (h1 : a ≤ b) (h2 : b < a + n) (h : a % n = b % n) : a = b := by
  have h3 := Nat.sub_mod_eq_zero_of_mod_eq h.symm
  rw [Nat.mod_eq_of_lt (by omega)] at h3
  omega

theorem body_self (H : Nat) : body H H = [] := by simp [body]

theorem body_cons {H P : Nat} (h : H < P) : body H P = .slot H :: .head H :: body (H + 1) P := by
  rw [body, body, show P - H = (P - (H + 1)) + 1 by omega, List.range'_succ]
  rfl

theorem body_concat {H P : Nat} (h : H ≤ P) : body H (P + 1) = body H P ++ [.slot P, .head P] := by
  rw [body, body, show P + 1 - H = (P - H) + 1 by omega, List.range'_1_concat, List.flatMap_append,
    show H + (P - H) = P by omega]
  rfl

theorem mem_body {H P : Nat} {t : Tag} (h : t ∈ body H P) :
    ∃ k, H ≤ k ∧ k < P ∧ (t = .slot k ∨ t = .head k) := by
  rw [body, List.mem_flatMap] at h
  obtain ⟨k, h1, h2⟩ := h
  rw [List.mem_range'_1] at h1
  exact ⟨k, by omega, by omega, by simpa using h2⟩

theorem last_range (f : Nat → Nat) (a m v : Nat) (h : m = 0 → v = f (a + m)) :
    (((List.range' (a + 1) m).map f).getLast?).getD v = f (a + m) := by
  cases m with
  | zero => simpa using h rfl
  | succ m =>
    rw [List.range'_1_concat, List.map_append, List.map_singleton, List.getLast?_append_of_ne_nil _ (by simp)]
    simp only [List.getLast?_singleton, Option.getD_some]
    congr 1
    omega

theorem head?_store (n : Nat) (d : α) (l : List α) (tags : List Tag) :
    (tags.map (Tag.store n d l)).filterMap Store.head? = (tags.filterMap Tag.head?).map fun k => (k + 1) % n := by
  induction tags with
  | nil => rfl
  | cons t ts ih =>
    cases t with
    | slot k => rw [List.map_cons, List.filterMap_cons_none rfl, List.filterMap_cons_none rfl, ih]
    | head k =>
      rw [List.map_cons, List.filterMap_cons_some (f := Store.head?) (b := (k + 1) % n) rfl, List.filterMap_cons_some (f := Tag.head?) (b := k) rfl, ih]
      rfl

theorem range'_shift (H m n : Nat) : (List.range' H m).map (fun k => (k + 1) % n) = (List.range' (H + 1) m).map (· % n) := by
  rw [show H + 1 = 1 + H by omega, ← List.map_add_range', List.map_map]
  apply List.map_congr_left
  intro k _
  simp [Nat.add_comm]

theorem Inv.pHead_eq {n : Nat} {d : α} {as gs : List α} {s : St α} {H T : Nat} {tags : List Tag}
    (h : Inv n d as gs s H T tags) : pHead s = as.length % n := by
  have hp := h.hp
  rw [pHead, h.pbuf, head?_store, h.heads, range'_shift, last_range (· % n)]
  · simp only [show H + (as.length - H) = as.length by omega]
  · intro h0
    rw [h.head, h0]; rfl

theorem Inv.cTail_eq {n : Nat} {d : α} {as gs : List α} {s : St α} {H T : Nat} {tags : List Tag}
    (h : Inv n d as gs s H T tags) : cTail s = gs.length % n := by
  have hp := h.tc
  rw [cTail, h.cbuf, last_range (· % n)]
  · simp only [show T + (gs.length - T) = gs.length by omega]
  · intro h0
    rw [h.tail, h0]; rfl

/-- The producer finds the buffer full exactly if the elements not known to be taken are as many as fit. -/
theorem Inv.full_iff {n : Nat} {d : α} {as gs : List α} {s : St α} {H T : Nat} {tags : List Tag}
    (h : Inv n d as gs s H T tags) : full n s ↔ as.length + 1 = T + n := by
  have h1 := h.tc
  have h2 := h.ch
  have h3 := h.hp
  have h4 := h.room
  rw [full, h.pHead_eq, h.tail, Nat.mod_add_mod]
  constructor
  · intro e
    by_contra hc
    have := mod_inj (n := n) (a := T) (b := as.length + 1) (by omega) (by omega) e.symm
    omega
  · intro e
    rw [e, Nat.add_mod_right]

theorem Inv.empty_iff {n : Nat} {d : α} {as gs : List α} {s : St α} {H T : Nat} {tags : List Tag}
    (h : Inv n d as gs s H T tags) : s.head = cTail s ↔ H = gs.length := by
  have h1 := h.tc
  have h2 := h.ch
  have h3 := h.hp
  have h4 := h.room
  rw [h.cTail_eq, h.head]
  constructor
  · intro e
    exact (mod_inj h2 (by omega) e.symm).symm
  · intro e
    rw [e]

/-- Stores of elements that have been put do not change when more are put. -/
theorem store_append (n : Nat) (d : α) (l l' : List α) {tags : List Tag}
    (h : ∀ k, Tag.slot k ∈ tags → k < l.length) :
    tags.map (Tag.store n d l) = tags.map (Tag.store n d (l ++ l')) := by
  apply List.map_congr_left
  intro t ht
  cases t with
  | slot k => simp only [Tag.store, List.getD_eq_getElem?_getD, List.getElem?_append_left (h k ht)]
  | head k => rfl

theorem Inv.slot_lt {n : Nat} {d : α} {as gs : List α} {s : St α} {H T : Nat} {tags : List Tag}
    (h : Inv n d as gs s H T tags) {k : Nat} (hk : Tag.slot k ∈ tags) : H ≤ k ∧ k < (as ++ pend s.p).length := by
  have h1 := h.hp
  rcases List.mem_append.1 (h.sub.subset hk) with hm | hm
  · obtain ⟨j, a, b, hj⟩ := mem_body hm
    have : j = k := by simpa [eq_comm] using hj
    subst this
    simp only [List.length_append]
    omega
  · rw [pendTag, List.mem_map] at hm
    obtain ⟨x, hx, hj⟩ := hm
    cases hj
    have := List.length_pos_of_mem hx
    simp only [List.length_append]
    omega

/-- Stores reach the memory. -/
theorem Inv.flush {n : Nat} {d : α} {as gs : List α} {s : St α} {H T : Nat} {tags : List Tag}
    (h : Inv n d as gs s H T tags) {a : List (Store α)} {st : Store α} {b : List (Store α)}
    (hb : s.pbuf = a ++ st :: b) (hsame : ∀ x ∈ a, x.same st = false)
    (hov : st.isSlot = true ∨ a.any Store.isSlot = false) :
    ∃ H' tags', Inv n d as gs (apply { s with pbuf := a ++ b } st) H' T tags' := by
  have i1 := h.tc
  have i2 := h.ch
  have i3 := h.hp
  have i4 := h.room
  have hpb := h.pbuf
  rw [hb] at hpb
  obtain ⟨ta, tr, e0, ea, er⟩ := List.append_eq_map_iff.1 hpb
  obtain ⟨t, tb, e1, et, eb⟩ := List.map_eq_cons_iff.1 er
  subst e1
  cases t with
  | slot k =>
    rw [Tag.store] at et
    subst et
    have hk := h.slot_lt (k := k) (by rw [e0]; simp)
    have hroom : (as ++ pend s.p).length < T + n := by
      have := h.p
      rw [List.length_append]
      cases hp : s.p <;> simp only [hp, pend, List.length_nil, List.length_singleton] at this ⊢ <;> omega
    have hn : 0 < n := by omega
    refine ⟨H, ta ++ tb, ?_⟩
    refine ⟨by simp [apply, h.len], i1, i2, i3, i4, h.head, h.tail, ?_, ?_, ?_, h.cbuf, ?_, h.pre, h.p, h.c⟩
    · simp only [apply, List.map_append, ea, eb]
    · refine List.Sublist.trans ?_ h.sub
      rw [e0]
      exact List.Sublist.append (List.Sublist.refl _) (List.sublist_cons_self _ _)
    · have := h.heads
      rw [e0, List.filterMap_append, List.filterMap_cons_none rfl] at this
      rw [List.filterMap_append, this]
    · intro j hj1 hj2
      have hj2' : j < (as ++ pend s.p).length := hj2
      by_cases hjk : j = k
      · subst hjk
        refine Or.inr ?_
        simp only [apply]
        rw [List.getElem?_set_self (by rw [h.len]; exact Nat.mod_lt _ hn), List.getD_eq_getElem?_getD,
          List.getElem?_eq_getElem hj2']
        rfl
      · rcases h.mem j hj1 hj2 with hm | hm
        · rw [e0] at hm
          refine Or.inl ?_
          simpa [hjk] using hm
        · refine Or.inr ?_
          simp only [apply]
          rw [List.getElem?_set_ne, hm]
          intro hc
          rcases Nat.le_total j k with hle | hle
          · exact hjk (mod_inj hle (by omega) hc.symm)
          · exact hjk (mod_inj hle (by omega) hc).symm
  | head k =>
    rw [Tag.store] at et
    subst et
    have hta : ta = [] := by
      cases ta with
      | nil => rfl
      | cons t ts =>
        exfalso
        rw [List.map_cons] at ea
        cases t with
        | slot j =>
          rcases hov with hov | hov
          · simp [Store.isSlot] at hov
          · rw [← ea] at hov
            simp [Store.isSlot, Tag.store] at hov
        | head j =>
          have := hsame (Tag.store n d (as ++ pend s.p) (.head j)) (by rw [← ea]; exact List.mem_cons_self)
          simp [Store.same, Tag.store] at this
    subst hta
    have ha : a = [] := by simpa using ea.symm
    subst ha
    have hh := h.heads
    rw [e0, List.nil_append, List.filterMap_cons_some (f := Tag.head?) (b := k) rfl] at hh
    have hlt : H < as.length := by
      by_contra hc
      rw [show as.length - H = 0 by omega] at hh
      simp at hh
    rw [show as.length - H = (as.length - (H + 1)) + 1 by omega, List.range'_succ] at hh
    obtain ⟨hk, hh⟩ := List.cons.inj hh
    subst hk
    have hsub := h.sub
    rw [e0, body_cons hlt, List.nil_append, List.cons_append, List.cons_append] at hsub
    have hsub2 : List.Sublist tb (body (k + 1) as.length ++ pendTag as.length (pend s.p)) := by
      cases hsub with
      | cons _ h => exact List.cons_sublist_cons.1 h
    have hslot : Tag.slot k ∉ tb := by
      intro hc
      rcases List.mem_append.1 (hsub2.subset hc) with hm | hm
      · obtain ⟨j, a1, b1, hj⟩ := mem_body hm
        have : j = k := by simpa [eq_comm] using hj
        omega
      · rw [pendTag, List.mem_map] at hm
        obtain ⟨x, hx, hj⟩ := hm
        cases hj
        omega
    refine ⟨k + 1, tb, ?_⟩
    refine ⟨h.len, i1, by omega, hlt, i4, rfl, h.tail, ?_, hsub2, ?_, h.cbuf, ?_, h.pre, h.p, ?_⟩
    · simp only [apply, List.nil_append]
      exact eb.symm
    · rw [hh]
    · intro j hj1 hj2
      rcases h.mem j hj1 hj2 with hm | hm
      · rw [e0] at hm
        refine Or.inl ?_
        simpa using hm
      · exact Or.inr hm
    · have := h.c
      simp only [apply]
      cases hc : s.c <;> simp only [hc] at this ⊢
      · omega
      · exact ⟨by omega, this.2⟩

theorem accepted_append (a b : List (Lbl α)) : accepted (a ++ b) = accepted a ++ accepted b := by
  induction a with
  | nil => rfl
  | cons l a ih =>
    cases l with
    | putcRet x ok => cases ok <;> simp [accepted, ih]
    | _ => simp [accepted, ih]

theorem got_append (a b : List (Lbl α)) : got (a ++ b) = got a ++ got b := by
  induction a with
  | nil => rfl
  | cons l a ih =>
    cases l with
    | getcRet v => cases v <;> simp [got, ih]
    | _ => simp [got, ih]

/-- The order of stores that matters is kept in this step. -/
theorem Inv.step {m : Machine} {n : Nat} {d : α} {as gs : List α} {s s' : St α} {l : Lbl α} {H T : Nat}
    {tags : List Tag} (hm : m.loads = false) (h : Inv n d as gs s H T tags) (hs : Step m n s l s') (hl : l ≠ .overtake) :
    ∃ H' T' tags', Inv n d (as ++ accepted [l]) (gs ++ got [l]) s' H' T' tags' := by
  have i1 := h.tc
  have i2 := h.ch
  have i3 := h.hp
  have i4 := h.room
  cases hs with
  | callPutc x hp =>
    refine ⟨H, T, tags, ?_⟩
    simp only [accepted, got, List.append_nil]
    refine ⟨h.len, i1, i2, i3, i4, h.head, h.tail, ?_, ?_, h.heads, h.cbuf, ?_, h.pre, trivial, h.c⟩
    · have := h.pbuf; rw [hp] at this; exact this
    · have := h.sub; rw [hp] at this; exact this
    · have := h.mem; rw [hp] at this; exact this
  | checkFull x hp hf =>
    refine ⟨H, T, tags, ?_⟩
    simp only [accepted, got, List.append_nil]
    refine ⟨h.len, i1, i2, i3, i4, h.head, h.tail, ?_, ?_, h.heads, h.cbuf, ?_, h.pre, trivial, h.c⟩
    · have := h.pbuf; rw [hp] at this; exact this
    · have := h.sub; rw [hp] at this; exact this
    · have := h.mem; rw [hp] at this; exact this
  | checkOk x hp hf =>
    rw [h.full_iff] at hf
    refine ⟨H, T, tags, ?_⟩
    simp only [accepted, got, List.append_nil]
    refine ⟨h.len, i1, i2, i3, i4, h.head, h.tail, ?_, ?_, h.heads, h.cbuf, ?_, h.pre, ?_, h.c⟩
    · have := h.pbuf; rw [hp] at this; exact this
    · have := h.sub; rw [hp] at this; exact this
    · have := h.mem; rw [hp] at this; exact this
    · change as.length + 1 < T + n
      omega
  | write x hp =>
    have hlt : ∀ k, Tag.slot k ∈ tags → k < as.length := by
      intro k hk
      have := (h.slot_lt hk).2
      simpa [hp, pend] using this
    have hb := h.pbuf
    have hsb := h.sub
    have hmm := h.mem
    have hpp := h.p
    rw [hp] at hb hsb hmm hpp
    simp only [pend, List.append_nil, pendTag, List.map_nil] at hb hsb hmm
    refine ⟨H, T, tags ++ [.slot as.length], ?_⟩
    simp only [accepted, got, List.append_nil]
    refine ⟨h.len, i1, i2, i3, i4, h.head, h.tail, ?_, ?_, ?_, h.cbuf, ?_, h.pre, hpp, h.c⟩
    · simp only [pend, List.map_append, List.map_singleton]
      rw [hb, h.pHead_eq, store_append n d as [x] hlt]
      simp [Tag.store]
    · simp only [pend, pendTag, List.map_singleton]
      exact List.Sublist.append hsb (List.Sublist.refl _)
    · rw [List.filterMap_append, h.heads]
      simp [Tag.head?]
    · intro k hk1 hk2
      simp only [pend, List.length_append, List.length_singleton] at hk2
      by_cases hk : k = as.length
      · subst hk
        exact Or.inl (by simp)
      · rcases hmm k hk1 (by omega) with hx | hx
        · exact Or.inl (List.mem_append_left _ hx)
        · refine Or.inr ?_
          simp only [pend]
          rw [List.getElem?_append_left (by omega)]
          exact hx
  | advFull x hp hf =>
    rw [h.full_iff] at hf
    have := h.p
    rw [hp] at this
    simp only at this
    omega
  | advOk x hp hf =>
    have hpp := h.p
    rw [hp] at hpp
    refine ⟨H, T, tags, ?_⟩
    simp only [accepted, got, List.append_nil]
    refine ⟨h.len, i1, i2, i3, i4, h.head, h.tail, ?_, ?_, h.heads, h.cbuf, ?_, h.pre, hpp, h.c⟩
    · have := h.pbuf; rw [hp] at this; exact this
    · have := h.sub; rw [hp] at this; exact this
    · have := h.mem; rw [hp] at this; exact this
  | setHead x hp =>
    have hb := h.pbuf
    have hsb := h.sub
    have hmm := h.mem
    have hpp := h.p
    rw [hp] at hb hsb hmm hpp
    simp only [pend, pendTag, List.map_singleton] at hb hsb hmm hpp
    refine ⟨H, T, tags ++ [.head as.length], ?_⟩
    have e1 : accepted [(Lbl.putcRet x true : Lbl α)] = [x] := rfl
    have e2 : got [(Lbl.putcRet x true : Lbl α)] = [] := rfl
    rw [e1, e2, List.append_nil]
    refine ⟨h.len, i1, i2, by simp; omega, by simp; omega, h.head, h.tail, ?_, ?_, ?_, h.cbuf, ?_, ?_, trivial, ?_⟩
    · simp only [pend, List.map_append, List.map_singleton, List.append_nil]
      rw [hb, h.pHead_eq, Nat.mod_add_mod]
      rfl
    · simp only [pend, pendTag, List.map_nil, List.append_nil, List.length_append, List.length_singleton]
      rw [body_concat i3, show [Tag.slot as.length, Tag.head as.length] = [.slot as.length] ++ [.head as.length] from rfl,
        ← List.append_assoc]
      exact List.Sublist.append hsb (List.Sublist.refl _)
    · rw [List.filterMap_append, h.heads, List.length_append, List.length_singleton,
        show as.length + 1 - H = (as.length - H) + 1 by omega, List.range'_1_concat,
        show H + (as.length - H) = as.length by omega]
      rfl
    · simp only [pend, List.append_nil]
      intro k hk1 hk2
      rcases hmm k hk1 hk2 with hx | hx
      · exact Or.inl (List.mem_append_left _ hx)
      · exact Or.inr hx
    · exact h.pre.trans (List.prefix_append _ _)
    · have := h.c
      cases hc : s.c <;> simp only [hc] at this ⊢
      · exact this
      · refine ⟨this.1, ?_⟩
        rw [List.getElem?_append_left (by omega)]
        exact this.2
  | flush st b hb =>
    obtain ⟨H', tags', h'⟩ := h.flush (a := []) hb (by simp) (Or.inr rfl)
    refine ⟨H', T, tags', ?_⟩
    simpa only [accepted, got, List.append_nil, List.nil_append] using h'
  | reorder a st b hm' ha hb hsame =>
    have hov : st.isSlot = true ∨ a.any Store.isSlot = false := by
      by_cases hc : st.isSlot = false ∧ a.any Store.isSlot = true
      · rw [if_pos hc] at hl
        exact absurd rfl hl
      · cases h1 : st.isSlot
        · cases h2 : a.any Store.isSlot
          · exact Or.inr rfl
          · exact absurd ⟨h1, h2⟩ hc
        · exact Or.inl rfl
    obtain ⟨H', tags', h'⟩ := h.flush hb hsame hov
    refine ⟨H', T, tags', ?_⟩
    split <;> simpa only [accepted, got, List.append_nil] using h'
  | callGetc hc =>
    refine ⟨H, T, tags, ?_⟩
    simp only [accepted, got, List.append_nil]
    exact ⟨h.len, i1, i2, i3, i4, h.head, h.tail, h.pbuf, h.sub, h.heads, h.cbuf, h.mem, h.pre, h.p, trivial⟩
  | echeckEmpty hc he =>
    refine ⟨H, T, tags, ?_⟩
    simp only [accepted, got, List.append_nil]
    exact ⟨h.len, i1, i2, i3, i4, h.head, h.tail, h.pbuf, h.sub, h.heads, h.cbuf, h.mem, h.pre, h.p, trivial⟩
  | echeckOk hc he =>
    rw [Ne, h.empty_iff] at he
    refine ⟨H, T, tags, ?_⟩
    simp only [accepted, got, List.append_nil]
    refine ⟨h.len, i1, i2, i3, i4, h.head, h.tail, h.pbuf, h.sub, h.heads, h.cbuf, h.mem, h.pre, h.p, ?_⟩
    change gs.length < H
    omega
  | rdslot v hc hv =>
    have hcc := h.c
    rw [hc] at hcc
    simp only at hcc
    refine ⟨H, T, tags, ?_⟩
    simp only [accepted, got, List.append_nil]
    refine ⟨h.len, i1, i2, i3, i4, h.head, h.tail, h.pbuf, h.sub, h.heads, h.cbuf, h.mem, h.pre, h.p, ?_⟩
    refine ⟨hcc, ?_⟩
    rw [h.cTail_eq] at hv
    rcases h.mem gs.length (Nat.le_refl _) (by simp; omega) with hx | hx
    · have := (h.slot_lt hx).1
      omega
    · rw [hx, List.getElem?_append_left (by omega)] at hv
      exact hv
  | early v hm' hc hv => rw [hm] at hm'; cases hm'
  | lateEmpty v hc he =>
    have := h.c
    rw [hc] at this
    exact this.elim
  | lateOk v hc he =>
    have := h.c
    rw [hc] at this
    exact this.elim
  | setTail v hc =>
    have hcc := h.c
    rw [hc] at hcc
    simp only at hcc
    have e1 : accepted [(Lbl.getcRet (some v) : Lbl α)] = [] := rfl
    have e2 : got [(Lbl.getcRet (some v) : Lbl α)] = [v] := rfl
    rw [e1, e2, List.append_nil]
    refine ⟨H, T, tags, ?_⟩
    refine ⟨h.len, by simp; omega, by simp; omega, i3, i4, h.head, h.tail, h.pbuf, h.sub, h.heads, ?_, ?_, ?_, h.p, trivial⟩
    · simp only [List.length_append, List.length_singleton]
      rw [h.cbuf, h.cTail_eq, Nat.mod_add_mod, show gs.length + 1 - T = (gs.length - T) + 1 by omega,
        List.range'_1_concat, List.map_append, List.map_singleton,
        show T + 1 + (gs.length - T) = gs.length + 1 by omega]
    · intro k hk1 hk2
      simp only [List.length_append, List.length_singleton] at hk1
      exact h.mem k (by omega) hk2
    · obtain ⟨r, hr⟩ := h.pre
      rw [← hr, List.getElem?_append_right (Nat.le_refl _), Nat.sub_self] at hcc
      cases r with
      | nil => simp at hcc
      | cons y r =>
        have : y = v := by simpa using hcc.2
        subst this
        exact ⟨r, by rw [← hr]; simp⟩
  | flushTail t b hb =>
    have hcb := h.cbuf
    rw [hb] at hcb
    have hlt : T < gs.length := by
      by_contra hc
      rw [show gs.length - T = 0 by omega] at hcb
      simp at hcb
    rw [show gs.length - T = (gs.length - (T + 1)) + 1 by omega, List.range'_succ, List.map_cons] at hcb
    obtain ⟨ht, hcb⟩ := List.cons.inj hcb
    refine ⟨H, T + 1, tags, ?_⟩
    simp only [accepted, got, List.append_nil]
    refine ⟨h.len, hlt, i2, i3, by omega, h.head, ht, h.pbuf, h.sub, h.heads, hcb, h.mem, h.pre, ?_, h.c⟩
    have := h.p
    simp only
    cases hp : s.p <;> simp only [hp] at this ⊢ <;> omega

theorem Inv.exec {m : Machine} {n : Nat} {buffer : List α} (hn : 0 < n) (hb : buffer.length = n) (hm : m.loads = false)
    {tr : List (Lbl α)} {s : St α} (h : Exec m n buffer tr s) (ho : Lbl.overtake ∉ tr) (d : α) :
    ∃ H T tags, Inv n d (accepted tr) (got tr) s H T tags := by
  induction h with
  | init =>
    refine ⟨0, 0, [], ?_⟩
    refine ⟨hb, Nat.le_refl _, Nat.le_refl _, Nat.le_refl _, ?_, ?_, ?_, rfl, ?_, rfl, rfl, ?_, List.prefix_rfl, trivial, trivial⟩
    · simpa [accepted] using hn
    · simp
    · simp
    · simp
    · intro k _ hk
      simp [accepted, pend] at hk
  | step h hs ih =>
    rename_i tr s l s'
    obtain ⟨H, T, tags, hi⟩ := ih fun hc => ho (List.mem_append_left _ hc)
    rw [accepted_append, got_append]
    exact hi.step hm hs fun hc => ho (by rw [hc]; simp)

/-! ## C112: total store order -/

/-- With the order of stores kept, no store overtakes. -/
theorem no_overtake {m : Machine} {n : Nat} {buffer : List α} (hm : m.stores = false) {tr : List (Lbl α)} {s : St α}
    (h : Exec m n buffer tr s) : Lbl.overtake ∉ tr := by
  induction h with
  | init => simp
  | step h hs ih =>
    rw [List.mem_append, not_or]
    refine ⟨ih, ?_⟩
    rw [List.mem_singleton]
    intro hc
    cases hs with
    | reorder a st b hm' => rw [hm] at hm'; cases hm'
    | _ => cases hc

/-- A machine on which a store to `head` never reaches the memory before an earlier store to the buffer: what the
consumer got is a prefix of what the producer was told is stored, and they differ by at most the capacity. Element stores
may overtake everything else. -/
theorem C113_partial (m : Machine) (hm : m.loads = false) (n : Nat) (hn : 0 < n) (buffer : List α) (hb : buffer.length = n)
    (tr : List (Lbl α)) (s : St α) (h : Exec m n buffer tr s) (ho : Lbl.overtake ∉ tr) :
    got tr <+: accepted tr ∧ (accepted tr).length ≤ (got tr).length + (n - 1) := by
  obtain ⟨d, -⟩ := List.exists_mem_of_length_pos (by omega : 0 < buffer.length)
  obtain ⟨H, T, tags, hi⟩ := Inv.exec hn hb hm h ho d
  have h1 := hi.room
  have h2 := hi.tc
  exact ⟨hi.pre, by omega⟩

/-- **C112.** On a machine with total store order, for every interleaving of the two threads and their store buffers. -/
theorem C112_tso (n : Nat) (hn : 0 < n) (buffer : List α) (hb : buffer.length = n) (tr : List (Lbl α)) (s : St α)
    (h : Exec tso n buffer tr s) :
    got tr <+: accepted tr ∧ (accepted tr).length ≤ (got tr).length + (n - 1) :=
  C113_partial tso rfl n hn buffer hb tr s h (no_overtake rfl h)

/-- Refusals: `circular_buf_putc` only if the buffer is full but for removals that the memory does not know yet, and
`circular_buf_getc` only if it is empty but for elements that the memory does not know yet; they come to be known as the
store buffers drain. -/
theorem C112_refusals (n : Nat) (hn : 0 < n) (buffer : List α) (hb : buffer.length = n) (tr : List (Lbl α))
    (s s' : St α) (h : Exec tso n buffer tr s) :
    (∀ x, Step tso n s (.putcRet x false) s' → (accepted tr).length + s.cbuf.length = (got tr).length + (n - 1)) ∧
    (Step tso n s (.getcRet none) s' → (got tr).length + (s.pbuf.filterMap Store.head?).length = (accepted tr).length) := by
  obtain ⟨d, -⟩ := List.exists_mem_of_length_pos (by omega : 0 < buffer.length)
  obtain ⟨H, T, tags, hi⟩ := Inv.exec hn hb rfl h (no_overtake rfl h) d
  have h1 := hi.tc
  have h2 := hi.ch
  have h3 := hi.hp
  constructor
  · intro x hs
    generalize hl : (Lbl.putcRet x false : Lbl α) = l at hs
    cases hs with
    | checkFull y hp hf =>
      rw [hi.full_iff] at hf
      rw [hi.cbuf]
      simp only [List.length_map, List.length_range']
      omega
    | reorder a st b hm => cases hm
    | _ => cases hl
  · intro hs
    have key : s.head = cTail s → (got tr).length + (s.pbuf.filterMap Store.head?).length = (accepted tr).length := by
      intro he
      rw [hi.empty_iff] at he
      rw [hi.pbuf, head?_store, hi.heads]
      simp only [List.length_map, List.length_range']
      omega
    generalize hl : (Lbl.getcRet none : Lbl α) = l at hs
    cases hs with
    | echeckEmpty hc he => exact key he
    | lateEmpty v hc he => exact key he
    | reorder a st b hm => cases hm
    | _ => cases hl

/-- Store buffers drain: every store that has been issued can reach the memory in the next step, and the other thread
cannot prevent it. -/
theorem C112_drain (m : Machine) (n : Nat) (s : St α) :
    (s.pbuf ≠ [] → ∃ s', Step m n s .tau s' ∧ s'.pbuf.length + 1 = s.pbuf.length ∧ s'.p = s.p ∧ s'.c = s.c) ∧
    (s.cbuf ≠ [] → ∃ s', Step m n s .tau s' ∧ s'.cbuf.length + 1 = s.cbuf.length ∧ s'.p = s.p ∧ s'.c = s.c) := by
  constructor
  · intro h
    obtain ⟨st, b, hb⟩ := List.exists_cons_of_ne_nil h
    refine ⟨_, .flush s st b hb, ?_⟩
    rw [hb]
    cases st <;> simp [apply]
  · intro h
    obtain ⟨t, b, hb⟩ := List.exists_cons_of_ne_nil h
    refine ⟨_, .flushTail s t b hb, ?_⟩
    rw [hb]
    simp

/-! ## C113: machines that reorder -/

theorem Exec.steps {m : Machine} {n : Nat} {buffer : List α} {tr : List (Lbl α)} {s s' : St α} {l : Lbl α}
    (h : Exec m n buffer tr s) (hs : Step m n s l s') : Exec m n buffer (tr ++ [l]) s' := .step h hs

/-- The variable a store goes to: an element of the buffer, or `head`. -/
def target : Store α → Option Nat
  | .slot i _ => some i
  | .head _ => none

/-- The machines with `stores` do reorder: a store that has been issued can reach the memory before all earlier ones that go to
other variables. -/
theorem C113_reorders (m : Machine) (hm : m.stores = true) (n : Nat) (s : St α) (a : List (Store α)) (st : Store α)
    (b : List (Store α)) (hb : s.pbuf = a ++ st :: b) (h : ∀ x ∈ a, target x ≠ target st) :
    ∃ l, Step m n s l (apply { s with pbuf := a ++ b } st) := by
  by_cases ha : a = []
  · subst ha
    exact ⟨_, .flush s st b hb⟩
  · refine ⟨_, .reorder s a st b hm ha hb fun x hx => ?_⟩
    have := h x hx
    cases x <;> cases st <;> simp_all [target, Store.same]

/-- If stores may be reordered, the consumer can be given what was in the memory before instead of the element that was
put: the store to `head` arrives first. -/
theorem C113_stores_wrong (m : Machine) (hm : m.stores = true) (n : Nat) (hn : 2 ≤ n) (y : α) (rest : List α)
    (hb : (y :: rest).length = n) (x : α) :
    ∃ tr s, Exec m n (y :: rest) tr s ∧ accepted tr = [x] ∧ got tr = [y] := by
  have hm1 : (0 + 1) % n = 1 := Nat.mod_eq_of_lt (by omega)
  have h1 : Exec m n (y :: rest) [] ⟨y :: rest, 0, 0, [], [], .idle, .idle⟩ := .init
  have h2 := h1.steps (.callPutc _ x rfl)
  have h3 := h2.steps (.checkOk _ x rfl (by simp [full, pHead]; omega))
  have h4 := h3.steps (.write _ x rfl)
  have h5 := h4.steps (.advOk _ x rfl (by simp [full, pHead, Store.head?]; omega))
  have h6 := h5.steps (.setHead _ x rfl)
  have h7 := h6.steps (.reorder _ [.slot 0 x] (.head 1) [] hm (by simp) (by simp [pHead, Store.head?, hm1])
    (by simp [Store.same]))
  have h8 := h7.steps (.callGetc _ rfl)
  have h9 := h8.steps (.echeckOk _ rfl (by simp [apply, cTail]))
  have h10 := h9.steps (.rdslot _ y rfl (by simp [apply, cTail]))
  have h11 := h10.steps (.setTail _ y rfl)
  refine ⟨_, _, h11, ?_, ?_⟩
  · simp [accepted, Store.isSlot]
  · simp [got, Store.isSlot]

/-- If loads may be reordered, so can it, even if stores are kept in order: the element is loaded before it is there. -/
theorem C113_loads_wrong (m : Machine) (hm : m.loads = true) (n : Nat) (hn : 2 ≤ n) (y : α) (rest : List α)
    (hb : (y :: rest).length = n) (x : α) :
    ∃ tr s, Exec m n (y :: rest) tr s ∧ accepted tr = [x] ∧ got tr = [y] ∧ Lbl.overtake ∉ tr := by
  have hm1 : (0 + 1) % n = 1 := Nat.mod_eq_of_lt (by omega)
  have h1 : Exec m n (y :: rest) [] ⟨y :: rest, 0, 0, [], [], .idle, .idle⟩ := .init
  have g1 := h1.steps (.callGetc _ rfl)
  have g2 := g1.steps (.early _ y hm rfl (by simp [cTail]))
  have h2 := g2.steps (.callPutc _ x rfl)
  have h3 := h2.steps (.checkOk _ x rfl (by simp [full, pHead]; omega))
  have h4 := h3.steps (.write _ x rfl)
  have h5 := h4.steps (.advOk _ x rfl (by simp [full, pHead, Store.head?]; omega))
  have h6 := h5.steps (.setHead _ x rfl)
  have h7 := h6.steps (.flush _ (.slot 0 x) [.head 1] (by simp [pHead, Store.head?, hm1]))
  have h8 := h7.steps (.flush _ (.head 1) [] rfl)
  have h9 := h8.steps (.lateOk _ y rfl (by simp [apply, cTail]))
  have h10 := h9.steps (.setTail _ y rfl)
  refine ⟨_, _, h10, ?_, ?_, ?_⟩
  · simp [accepted]
  · simp [got]
  · simp

/-! ## Examples -/

/-- Total store order: both threads can be refused although one element was put and one place is free (the stores have
not arrived); the next calls succeed. -/
example : ∃ tr s, Exec tso 2 [0, 0] tr s ∧ accepted tr = [7] ∧ got tr = [] ∧ Lbl.getcRet none ∈ tr ∧ s.pbuf.length = 2 := by
  have h1 : Exec tso 2 [0, 0] [] ⟨[0, 0], 0, 0, [], [], .idle, .idle⟩ := .init
  have h2 := h1.steps (.callPutc _ 7 rfl)
  have h3 := h2.steps (.checkOk _ 7 rfl (by simp [full, pHead]))
  have h4 := h3.steps (.write _ 7 rfl)
  have h5 := h4.steps (.advOk _ 7 rfl (by simp [full, pHead, Store.head?]))
  have h6 := h5.steps (.setHead _ 7 rfl)
  have h7 := h6.steps (.callGetc _ rfl)
  have h8 := h7.steps (.echeckEmpty _ rfl (by simp [cTail]))
  exact ⟨_, _, h8, rfl, rfl, by simp, rfl⟩

example : ∃ tr s, Exec ⟨true, false⟩ 3 [5, 6, 7] tr s ∧ accepted tr = [9] ∧ got tr = [5] :=
  C113_stores_wrong _ rfl 3 (by decide) 5 [6, 7] rfl 9

end Gel.Cbuf.Tso
