import Verif.Listx.Spec
import Mathlib.Data.List.Nodup

/-!
# Intrusive list: lemmas
-/
namespace Gel.Listx

open Spec

variable {A : Type u} [DecidableEq A]

theorem map_update {f : A → A} {a v : A} {l : List A} (h : a ∉ l) : l.map (Function.update f a v) = l.map f := by
  apply List.map_congr_left
  intro x hx
  exact Function.update_of_ne (by rintro rfl; exact h hx) _ _

/-- The memory with the roles of the two fields exchanged. -/
def Heap.swap (h : Heap A) : Heap A := ⟨h.prev, h.next⟩

theorem Spec.Links.swap {h : Heap A} {head : A} {l : List A} (H : Links h head l) : Links h.swap head l.reverse := by
  obtain ⟨h1, h2, h3⟩ := H
  refine ⟨?_, ?_, ?_⟩
  · rw [List.nodup_cons] at h1 ⊢
    simpa using h1
  · have := congrArg List.reverse h3
    simpa [Heap.swap] using this
  · have := congrArg List.reverse h2
    simpa [Heap.swap] using this

theorem Spec.Links.of_swap {h : Heap A} {head : A} {l : List A} (H : Links h.swap head l.reverse) : Links h head l := by
  have := Spec.Links.swap H
  simpa [Heap.swap] using this

theorem links_init (h : Heap A) (head : A) : Links (initListHead h head) head [] := by
  refine ⟨by simp, ?_, ?_⟩ <;> simp [initListHead, Heap.setNext, Heap.setPrev]

theorem Spec.Links.next_head {h : Heap A} {head : A} {l : List A} (H : Links h head l) :
    h.next head :: l.map h.next = l ++ [head] := by simpa using H.2.1

theorem Spec.Links.next_mem {h : Heap A} {head : A} {l : List A} (H : Links h head l) {a : A} (ha : a ∈ head :: l) :
    h.next a ∈ head :: l := by
  have : h.next a ∈ (head :: l).map h.next := List.mem_map_of_mem ha
  rw [H.2.1] at this
  simpa [or_comm] using this

theorem Spec.Links.prev_mem {h : Heap A} {head : A} {l : List A} (H : Links h head l) {a : A} (ha : a ∈ head :: l) :
    h.prev a ∈ head :: l := by
  have : h.prev a ∈ (l ++ [head]).map h.prev := List.mem_map_of_mem (by simpa [or_comm] using ha)
  rwa [H.2.2] at this

theorem links_add {h : Heap A} {head x : A} {l : List A} (H : Links h head l) (hx : x ∉ head :: l) :
    Links (listAdd h x head) head (x :: l) := by
  have hn := H.next_head
  have hmem : h.next head ∈ head :: l := H.next_mem (by simp)
  obtain ⟨h1, h2, h3⟩ := H
  have hxh : x ≠ head := by intro e; exact hx (by simp [e])
  have hxl : x ∉ l := by intro e; exact hx (by simp [e])
  have hnx : h.next head ≠ x := by intro e; exact hx (e ▸ hmem)
  have hhl : head ∉ l := (List.nodup_cons.1 h1).1
  refine ⟨?_, ?_, ?_⟩
  · rw [List.nodup_cons, List.nodup_cons]
    refine ⟨?_, hxl, (List.nodup_cons.1 h1).2⟩
    simp [Ne.symm hxh, hhl]
  · simp only [listAdd, listAdd_, Heap.setNext, Heap.setPrev]
    simp only [List.map_cons, List.cons_append, Function.update_self, Function.update_of_ne hxh, List.cons.injEq,
      true_and]
    rw [map_update hhl, map_update hxl, hn]
  · simp only [listAdd, listAdd_, Heap.setNext, Heap.setPrev]
    cases l with
    | nil =>
      simp at hn
      simp [hn, Function.update_of_ne hxh.symm]
    | cons a l =>
      simp only [List.map_cons, List.cons_append, List.cons.injEq] at hn h3 ⊢
      rw [List.nodup_cons] at h1
      have h1' := List.nodup_cons.1 h1.2
      have hxa : a ≠ x := by intro e; exact hxl (by simp [e])
      have hha : a ≠ head := by intro e; exact hhl (by simp [e])
      have hm : a ∉ l ++ [head] := by simp [h1'.1, hha]
      have hm' : x ∉ l ++ [head] := by
        simp only [List.mem_append, List.mem_singleton, not_or]
        exact ⟨by intro e; exact hxl (by simp [e]), hxh⟩
      refine ⟨by simp, ?_, ?_⟩
      · rw [hn.1, Function.update_of_ne hxa, Function.update_self]
      · rw [map_update hm', hn.1, map_update hm]
        exact h3.2

theorem listAddTail_swap (h : Heap A) (x head : A) (h1 : x ≠ h.prev head) (h2 : x ≠ head) :
    listAddTail h x head = (listAdd h.swap x head).swap := by
  simp only [listAddTail, listAdd, listAdd_, Heap.setNext, Heap.setPrev, Heap.swap, Heap.mk.injEq]
  exact ⟨Function.update_comm h1 _ _ _, Function.update_comm (Ne.symm h2) _ _ _⟩

theorem links_addTail {h : Heap A} {head x : A} {l : List A} (H : Links h head l) (hx : x ∉ head :: l) :
    Links (listAddTail h x head) head (l ++ [x]) := by
  have hp : h.prev head ∈ head :: l := H.prev_mem (by simp)
  rw [listAddTail_swap h x head (by intro e; exact hx (e ▸ hp)) (by intro e; exact hx (by simp [e]))]
  have := (links_add H.swap (x := x) (by simpa using hx)).swap
  simpa using this

/-- The forward direction of the ring after removing `e`. -/
theorem del_next {f : A → A} {head e : A} {a b : List A} {u : A} {p : List A} (hp : head :: a = p ++ [u])
    (h1 : (head :: (a ++ e :: b)).Nodup) (h2 : (head :: (a ++ e :: b)).map f = a ++ e :: b ++ [head]) :
    (head :: (a ++ b)).map (Function.update f u (f e)) = a ++ b ++ [head] ∧ f u = e := by
  have e1 : head :: (a ++ e :: b) = p ++ ([u] ++ e :: b) := by
    rw [← List.cons_append, hp, List.append_assoc]
  have e2 : head :: (a ++ b) = p ++ ([u] ++ b) := by rw [← List.cons_append, hp, List.append_assoc]
  have hl : p.length = a.length := by have := congrArg List.length hp; simpa using this.symm
  rw [e1] at h1 h2
  rw [e2]
  rw [List.map_append, List.append_assoc] at h2
  obtain ⟨h3, h4⟩ := List.append_inj h2 (by simp [hl])
  simp only [List.cons_append, List.nil_append, List.map_cons, List.cons.injEq] at h4
  have hd := List.nodup_append.1 h1
  have hup : u ∉ p := by intro hu; exact hd.2.2 u hu u (by simp) rfl
  have hub : u ∉ b := by
    have := hd.2.1
    simp at this
    exact this.1.2
  refine ⟨?_, h4.1⟩
  rw [List.map_append, map_update hup, h3]
  simp only [List.cons_append, List.nil_append, List.map_cons, Function.update_self, List.append_assoc]
  rw [map_update hub, h4.2]

theorem links_del {h : Heap A} {head e : A} {l : List A} (H : Links h head l) (he : e ∈ l) :
    Links (listDel h e) head (l.erase e) := by
  have hnd := H.1
  obtain ⟨a, b, rfl, hea, herase⟩ : ∃ a b, l = a ++ e :: b ∧ e ∉ a ∧ l.erase e = a ++ b := by
    obtain ⟨a, b, h1, h2, h3⟩ := List.exists_erase_eq he
    exact ⟨a, b, h2, h1, h3⟩
  rw [herase]
  -- the element before `e`
  obtain ⟨p, u, hp⟩ : ∃ p u, head :: a = p ++ [u] := by
    rcases List.eq_nil_or_concat (head :: a) with h' | ⟨p, u, h'⟩
    · simp at h'
    · exact ⟨p, u, by rw [h', List.concat_eq_append]⟩
  obtain ⟨q, v, hq⟩ : ∃ q v, head :: b.reverse = q ++ [v] := by
    rcases List.eq_nil_or_concat (head :: b.reverse) with h' | ⟨p, u, h'⟩
    · simp at h'
    · exact ⟨p, u, by rw [h', List.concat_eq_append]⟩
  have H' := H.swap
  have hr : (a ++ e :: b).reverse = b.reverse ++ e :: a.reverse := by simp
  rw [hr] at H'
  obtain ⟨d1, d2⟩ := del_next hp H.1 H.2.1
  obtain ⟨d3, d4⟩ := del_next hq H'.1 H'.2.1
  simp only [Heap.swap] at d3 d4
  -- the neighbours of `e` are `u` and `v`
  have hu : h.prev e = u := by
    have h3 := H.2.2
    rw [← List.cons_append, hp] at h3
    simp only [List.append_assoc, List.cons_append, List.map_append, List.map_cons, List.nil_append] at h3
    have hl : (a.map h.prev).length = p.length := by have := congrArg List.length hp; simpa using this
    have := List.append_inj_right h3 hl
    exact (List.cons.inj this).1
  have hv : h.next e = v := by
    have h3 := H'.2.2
    rw [← List.cons_append, hq] at h3
    simp only [Heap.swap, List.append_assoc, List.cons_append, List.map_append, List.map_cons, List.nil_append] at h3
    have hl : (b.reverse.map h.next).length = q.length := by have := congrArg List.length hq; simpa using this
    have := List.append_inj_right h3 hl
    exact (List.cons.inj this).1
  refine ⟨?_, ?_, ?_⟩
  · have hsub : (head :: (a ++ b)).Sublist (head :: (a ++ e :: b)) :=
      List.Sublist.cons_cons _ (List.Sublist.append_left (List.sublist_cons_self e b) a)
    exact hnd.sublist hsub
  · simp only [listDel, listDel_, Heap.setNext, Heap.setPrev]
    rw [hu]; exact d1
  · simp only [listDel, listDel_, Heap.setNext, Heap.setPrev]
    rw [hv]
    have := congrArg List.reverse d3
    simpa using this

/-- A list is unaffected by changes of the fields of other addresses. -/
theorem Spec.Links.congr {h h' : Heap A} {head : A} {l : List A} (H : Links h head l)
    (hn : ∀ a ∈ head :: l, h'.next a = h.next a) (hp : ∀ a ∈ head :: l, h'.prev a = h.prev a) : Links h' head l := by
  refine ⟨H.1, ?_, ?_⟩
  · rw [← H.2.1]; exact List.map_congr_left hn
  · rw [← H.2.2]
    refine List.map_congr_left fun a ha => hp a ?_
    simpa [or_comm] using ha

theorem init_frame (h : Heap A) (head a : A) (ha : a ≠ head) :
    (initListHead h head).next a = h.next a ∧ (initListHead h head).prev a = h.prev a := by
  simp [initListHead, Heap.setNext, Heap.setPrev, Function.update_of_ne ha]

theorem add_frame {h : Heap A} {head x : A} {l : List A} (H : Links h head l) {a : A} (ha : a ∉ head :: l)
    (hx : a ≠ x) : (listAdd h x head).next a = h.next a ∧ (listAdd h x head).prev a = h.prev a := by
  have h1 : a ≠ head := by intro e; exact ha (by simp [e])
  have h2 : a ≠ h.next head := by intro e; exact ha (e ▸ H.next_mem (by simp))
  simp [listAdd, listAdd_, Heap.setNext, Heap.setPrev, Function.update_of_ne, h1, h2, hx]

theorem addTail_frame {h : Heap A} {head x : A} {l : List A} (H : Links h head l) {a : A} (ha : a ∉ head :: l)
    (hx : a ≠ x) : (listAddTail h x head).next a = h.next a ∧ (listAddTail h x head).prev a = h.prev a := by
  have h1 : a ≠ head := by intro e; exact ha (by simp [e])
  have h2 : a ≠ h.prev head := by intro e; exact ha (e ▸ H.prev_mem (by simp))
  simp [listAddTail, listAdd_, Heap.setNext, Heap.setPrev, Function.update_of_ne, h1, h2, hx]

theorem del_frame {h : Heap A} {head e : A} {l : List A} (H : Links h head l) (he : e ∈ l) {a : A}
    (ha : a ∉ head :: l) : (listDel h e).next a = h.next a ∧ (listDel h e).prev a = h.prev a := by
  have h1 : a ≠ h.prev e := by intro e'; exact ha (e' ▸ H.prev_mem (by simp [he]))
  have h2 : a ≠ h.next e := by intro e'; exact ha (e' ▸ H.next_mem (by simp [he]))
  simp [listDel, listDel_, Heap.setNext, Heap.setPrev, Function.update_of_ne, h1, h2]

/-- `list_del` leaves the fields of the removed element alone. -/
theorem del_self {h : Heap A} {head e : A} {l : List A} (H : Links h head l) (he : e ∈ l) :
    (listDel h e).next e = h.next e := by
  have hne : h.prev e ≠ e := by
    intro hc
    -- an element that is its own predecessor would appear twice in a row
    obtain ⟨a, b, rfl⟩ := List.append_of_mem he
    obtain ⟨p, u, hp⟩ : ∃ p u, head :: a = p ++ [u] := by
      rcases List.eq_nil_or_concat (head :: a) with h' | ⟨p, u, h'⟩
      · simp at h'
      · exact ⟨p, u, by rw [h', List.concat_eq_append]⟩
    have h3 := H.2.2
    rw [← List.cons_append, hp] at h3
    simp only [List.append_assoc, List.cons_append, List.map_append, List.map_cons, List.nil_append] at h3
    have hl : (a.map h.prev).length = p.length := by have := congrArg List.length hp; simpa using this
    have h4 := (List.cons.inj (List.append_inj_right h3 hl)).1
    have h1 := H.1
    rw [← List.cons_append, hp, List.append_assoc, List.nodup_append] at h1
    rw [← h4, hc] at h1
    simp at h1
  simp [listDel, listDel_, Heap.setNext, Heap.setPrev, Function.update_of_ne hne.symm]

/-- The lists of the program are well formed and mutually disjoint. -/
def Inv (h : Heap A) (s : Lists A) : Prop := (nodes s).Nodup ∧ ∀ p ∈ s, Links h p.1 p.2

theorem mem_nodes {s : Lists A} {p : A × List A} (hp : p ∈ s) {a : A} (ha : a ∈ p.1 :: p.2) : a ∈ nodes s :=
  List.mem_flatMap.2 ⟨p, hp, ha⟩

/-- Two lists of the program sharing an address are the same. -/
theorem nodes_disjoint {s : Lists A} (h : (nodes s).Nodup) {p q : A × List A} (hp : p ∈ s) (hq : q ∈ s) {a : A}
    (h1 : a ∈ p.1 :: p.2) (h2 : a ∈ q.1 :: q.2) : p = q := by
  induction s with
  | nil => simp at hp
  | cons r s ih =>
    simp only [nodes, List.flatMap_cons] at h
    rw [List.nodup_append] at h
    obtain ⟨-, h3, h4⟩ := h
    rcases List.mem_cons.1 hp with rfl | hp' <;> rcases List.mem_cons.1 hq with rfl | hq'
    · rfl
    · exact absurd rfl (h4 a h1 a (mem_nodes hq' h2))
    · exact absurd rfl (h4 a h2 a (mem_nodes hp' h1))
    · exact ih h3 hp' hq'

/-- Adding a fresh element to one list keeps all addresses distinct. -/
theorem nodes_add {s : Lists A} (h : (nodes s).Nodup) {x a : A} (hx : x ∉ nodes s) (f : List A → List A)
    (hf : ∀ l, (f l).Perm (x :: l)) :
    (nodes (s.map fun p => if p.1 = a then (p.1, f p.2) else p)).Nodup ∧
    ∀ y, y ∈ nodes (s.map fun p => if p.1 = a then (p.1, f p.2) else p) → y = x ∨ y ∈ nodes s := by
  induction s with
  | nil => exact ⟨by simp [nodes], by simp [nodes]⟩
  | cons r s ih =>
    simp only [nodes, List.flatMap_cons, List.mem_append, not_or] at h hx ⊢
    rw [List.nodup_append] at h
    obtain ⟨h1, h2, h3⟩ := h
    by_cases hr : r.1 = a
    · -- the others have another head
      have hrest : s.map (fun p => if p.1 = a then (p.1, f p.2) else p) = s := by
        conv_rhs => rw [← List.map_id s]
        refine List.map_congr_left fun p hp => ?_
        rw [if_neg]; · rfl
        intro hpa
        exact h3 r.1 (by simp) p.1 (List.mem_flatMap.2 ⟨p, hp, by simp⟩) (hr.trans hpa.symm)
      simp only [List.map_cons, List.flatMap_cons, hrest, if_pos hr]
      have hperm : (r.1 :: f r.2).Perm (x :: r.1 :: r.2) :=
        ((hf r.2).cons r.1).trans (List.Perm.swap _ _ _)
      refine ⟨?_, ?_⟩
      · rw [List.nodup_append]
        refine ⟨?_, h2, ?_⟩
        · rw [hperm.nodup_iff, List.nodup_cons]; exact ⟨hx.1, h1⟩
        · intro y hy z hz e
          subst e
          rcases List.mem_cons.1 (hperm.mem_iff.1 hy) with rfl | hy'
          · exact hx.2 hz
          · exact h3 y hy' y hz rfl
      · intro y hy
        rcases List.mem_append.1 hy with hy | hy
        · rcases List.mem_cons.1 (hperm.mem_iff.1 hy) with rfl | hy'
          · exact Or.inl rfl
          · exact Or.inr (Or.inl hy')
        · exact Or.inr (Or.inr hy)
    · obtain ⟨ih1, ih2⟩ := ih h2 hx.2
      simp only [List.map_cons, List.flatMap_cons, if_neg hr]
      refine ⟨?_, ?_⟩
      · rw [List.nodup_append]
        refine ⟨h1, ih1, ?_⟩
        intro y hy z hz e
        subst e
        rcases ih2 y hz with rfl | hz'
        · exact hx.1 hy
        · exact h3 y hy y hz' rfl
      · intro y hy
        rcases List.mem_append.1 hy with hy | hy
        · exact Or.inr (Or.inl hy)
        · rcases ih2 y hy with rfl | h'
          · exact Or.inl rfl
          · exact Or.inr (Or.inr h')

theorem Inv.step {h : Heap A} {s : Lists A} (H : Inv h s) {o : Op A} (hv : Valid s o) :
    Inv (Listx.step h o) (Spec.step s o) := by
  obtain ⟨H1, H2⟩ := H
  cases o with
  | init a =>
    have hv : a ∉ nodes s := hv
    refine ⟨?_, ?_⟩
    · show (nodes ((a, []) :: s)).Nodup
      simp only [nodes, List.flatMap_cons]
      exact List.nodup_cons.2 ⟨hv, H1⟩
    · intro p hp
      rcases List.mem_cons.1 hp with rfl | hp'
      · exact links_init h a
      · refine (H2 p hp').congr ?_ ?_ <;> intro b hb <;>
          have hba : b ≠ a := by rintro rfl; exact hv (mem_nodes hp' hb)
        · exact (init_frame h a b hba).1
        · exact (init_frame h a b hba).2
  | add x a =>
    obtain ⟨hx, l, hl⟩ := hv
    refine ⟨(nodes_add H1 hx (fun l => x :: l) (fun l => List.Perm.refl _)).1, ?_⟩
    intro p hp
    obtain ⟨q, hq, rfl⟩ := List.mem_map.1 hp
    by_cases hqa : q.1 = a
    · have : q = (a, l) := nodes_disjoint H1 hq hl (a := a) (by simp [hqa]) (by simp)
      subst this
      simp only [if_true]
      exact links_add (H2 _ hl) (fun hm => hx (mem_nodes hl hm))
    · simp only [if_neg hqa]
      have hd : ∀ b ∈ q.1 :: q.2, b ∉ a :: l := by
        intro b hb hb'
        have := nodes_disjoint H1 hq hl hb hb'
        exact hqa (by rw [this])
      refine (H2 q hq).congr ?_ ?_ <;> intro b hb <;>
        have hbx : b ≠ x := by rintro rfl; exact hx (mem_nodes hq hb)
      · exact (add_frame (H2 _ hl) (hd b hb) hbx).1
      · exact (add_frame (H2 _ hl) (hd b hb) hbx).2
  | addTail x a =>
    obtain ⟨hx, l, hl⟩ := hv
    refine ⟨(nodes_add H1 hx (fun l => l ++ [x]) (fun l => List.perm_append_singleton x l)).1, ?_⟩
    intro p hp
    obtain ⟨q, hq, rfl⟩ := List.mem_map.1 hp
    by_cases hqa : q.1 = a
    · have : q = (a, l) := nodes_disjoint H1 hq hl (a := a) (by simp [hqa]) (by simp)
      subst this
      simp only [if_true]
      exact links_addTail (H2 _ hl) (fun hm => hx (mem_nodes hl hm))
    · simp only [if_neg hqa]
      have hd : ∀ b ∈ q.1 :: q.2, b ∉ a :: l := by
        intro b hb hb'
        have := nodes_disjoint H1 hq hl hb hb'
        exact hqa (by rw [this])
      refine (H2 q hq).congr ?_ ?_ <;> intro b hb <;>
        have hbx : b ≠ x := by rintro rfl; exact hx (mem_nodes hq hb)
      · exact (addTail_frame (H2 _ hl) (hd b hb) hbx).1
      · exact (addTail_frame (H2 _ hl) (hd b hb) hbx).2
  | del x =>
    obtain ⟨r, hr, hxr⟩ := hv
    refine ⟨?_, ?_⟩
    · refine H1.sublist ?_
      clear H1 H2 hr hxr
      show (nodes (s.map fun p => (p.1, p.2.erase x))).Sublist (nodes s)
      induction s with
      | nil => simp [nodes]
      | cons p s ih =>
        simp only [nodes, List.map_cons, List.flatMap_cons] at ih ⊢
        exact List.Sublist.append (List.Sublist.cons_cons _ List.erase_sublist) ih
    · intro p hp
      obtain ⟨q, hq, rfl⟩ := List.mem_map.1 hp
      by_cases hxq : x ∈ q.2
      · exact links_del (H2 q hq) hxq
      · have hd : ∀ b ∈ q.1 :: q.2, b ∉ r.1 :: r.2 := by
          intro b hb hb'
          have := nodes_disjoint H1 hq hr hb hb'
          exact hxq (this ▸ hxr)
        simp only [List.erase_of_not_mem hxq]
        refine (H2 q hq).congr ?_ ?_ <;> intro b hb
        · exact (del_frame (H2 r hr) hxr (hd b hb)).1
        · exact (del_frame (H2 r hr) hxr (hd b hb)).2

theorem Inv.run {h : Heap A} {s : Lists A} (H : Inv h s) (ops : List (Op A)) (hv : ValidRun s ops) :
    Inv (Listx.run h ops) (Spec.run s ops) := by
  induction ops generalizing h s with
  | nil => exact H
  | cons o ops ih => exact ih (H.step hv.1) hv.2

/-- Iterating from inside the list with a body that removes the current element when `p` holds. -/
theorem forLoop_del (p : A → Bool) {head : A} (kept rest : List A) {h : Heap A} (H : Links h head (kept ++ rest))
    (pos : A) (hpos : (rest ++ [head]).head? = some pos) (fuel : Nat) (hf : rest.length < fuel) :
    ∃ h', forLoop (fun h a => if p a then listDel h a else h) head fuel h pos = some (rest, h') ∧
      Links h' head (kept ++ rest.filter (fun a => !p a)) := by
  induction rest generalizing kept h pos fuel with
  | nil =>
    simp only [List.nil_append, List.head?_cons, Option.some.injEq] at hpos
    subst hpos
    obtain ⟨fuel, rfl⟩ : ∃ f, fuel = f + 1 := ⟨fuel - 1, by simp at hf; omega⟩
    exact ⟨h, by simp [forLoop], by simpa using H⟩
  | cons x rest ih =>
    simp only [List.cons_append, List.head?_cons, Option.some.injEq] at hpos
    subst hpos
    simp only [List.length_cons] at hf
    obtain ⟨fuel, rfl⟩ : ∃ f, fuel = f + 1 := ⟨fuel - 1, by omega⟩
    have hxh : x ≠ head := by
      rintro rfl
      have := H.1
      simp at this
    -- the successor of `x`
    have hnext : (rest ++ [head]).head? = some (h.next x) := by
      have h2 := H.2.1
      have e1 : head :: (kept ++ x :: rest) = (head :: kept) ++ x :: rest := rfl
      have e2 : kept ++ x :: rest ++ [head] = (kept ++ [x]) ++ (rest ++ [head]) := by simp
      rw [e1, e2, List.map_append] at h2
      have := List.append_inj_right h2 (by simp)
      rw [← this]; rfl
    simp only [forLoop, if_neg hxh]
    by_cases hp : p x
    · have hm : x ∈ kept ++ x :: rest := by simp
      have hdel := links_del H hm
      have hxk : x ∉ kept := by
        intro hx
        have := H.1
        rw [List.nodup_cons, List.nodup_append] at this
        exact this.2.2.2 x hx x (by simp) rfl
      rw [List.erase_append_right _ hxk, List.erase_cons_head] at hdel
      obtain ⟨h', e', l'⟩ := ih kept hdel (h.next x) hnext fuel (by omega)
      refine ⟨h', ?_, ?_⟩
      · simp only [hp, if_true]
        rw [del_self H hm, e']; rfl
      · simpa [hp] using l'
    · simp only [Bool.not_eq_true] at hp
      obtain ⟨h', e', l'⟩ := ih (kept ++ [x]) (by simpa using H) (h.next x) hnext fuel (by omega)
      refine ⟨h', ?_, ?_⟩
      · simp only [hp, Bool.false_eq_true, if_false, e']; rfl
      · simpa [hp] using l'

theorem Spec.Links.head_next {h : Heap A} {head : A} {l : List A} (H : Links h head l) :
    (l ++ [head]).head? = some (h.next head) := by rw [← H.2.1]; rfl

theorem forLoopPrev_eq (h : Heap A) (head : A) (fuel : Nat) (pos : A) :
    forLoopPrev head h fuel pos = (forLoop (fun h _ => h) head fuel h.swap pos).map fun r => r.1 := by
  induction fuel generalizing pos with
  | zero => rfl
  | succ fuel ih =>
    simp only [forLoopPrev, forLoop]
    split
    · rfl
    · rw [ih]; simp [Heap.swap]; rfl

end Gel.Listx
