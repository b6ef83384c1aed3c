import Verif.Param.Clone

/-!
# Parameter: limits that are other parameters, property C183
-/
namespace Gel.Param
open Spec

/-- `h` comes before `k` in the list: separate variables, and the limits of `h` are not in the variable of `k`. The limits of `k` may
be in the variable of `h`. -/
def Before (h k : Handle) : Prop := Separate h k ∧ LimitsApart h k

theorem outside_frame (F : Fl) (m m' : Mem) (h : Handle) (x : Int) (hl : lo m' h = lo m h) (hh : hi m' h = hi m h) :
    outside F m' h x = outside F m h x := by rw [outside, outside, hl, hh]

theorem limits_elsewhere (m m' : Mem) (h : Handle) (hs : List Handle) (hl : ∀ k ∈ hs, LimitsApart h k)
    (hf : ∀ b, Elsewhere hs b → m' b = m b) : lo m' h = lo m h ∧ hi m' h = hi m h := by
  have key : ∀ a, h.pmin = some a ∨ h.pmax = some a → rdv m' a h.type = rdv m a h.type := fun a ha =>
    rdv_congr _ _ _ _ fun b h1 h2 => hf b fun k hk => by rcases hl k hk a ha with hh | hh <;> omega
  constructor
  · rw [lo, lo]
    cases hp : h.pmin with
    | none => rfl
    | some a => exact key a (Or.inl hp)
  · rw [hi, hi]
    cases hp : h.pmax with
    | none => rfl
    | some a => exact key a (Or.inr hp)

theorem each_chain (F : Fl) (hs : List Handle) : ∀ (m : Mem) (c : Int), hs.Pairwise Before → (∀ h ∈ hs, LimitsApart h h) →
    0 ≤ c → c + hs.length < 2 ^ 31 →
    ∃ m' c', each (checkBody F) hs (m, c) = .ok (m', c') ∧ (∀ b, Elsewhere hs b → m' b = m b) ∧
      ∀ h ∈ hs, outside F m' h (member h.type h.defaultv) = false → outside F m' h (rdv m' h.pointer h.type) = false := by
  induction hs with
  | nil => intro m c _ _ _ _; exact ⟨m, c, rfl, fun _ _ => rfl, by simp⟩
  | cons h hs ih =>
    intro m c hp hown h0 h1
    obtain ⟨hp1, hp2⟩ := List.pairwise_cons.1 hp
    simp only [List.length_cons] at h1
    obtain ⟨m1, c1, e1, hc1, hv1, hf1⟩ : ∃ m1 c1, checkBody F h (m, c) = .ok (m1, c1) ∧ (c1 = c ∨ c1 = c + 1) ∧
        rdv m1 h.pointer h.type = (if outside F m h (rdv m h.pointer h.type) then member h.type h.defaultv
          else rdv m h.pointer h.type) ∧
        (∀ b, b < h.pointer ∨ h.pointer + h.type.size ≤ b → m1 b = m b) := by
      have hc := checkRange_eq F m h
      cases ho : outside F m h (rdv m h.pointer h.type) with
      | true =>
        refine ⟨setDefault m h, c + 1, ?_, by simp, by simpa using setDefault_value m h, setDefault_frame m h⟩
        rw [checkBody, if_pos (hc.2 ho), chkS, if_pos (by omega)]; rfl
      | false =>
        refine ⟨m, c, ?_, by simp, by simp, fun _ _ => rfl⟩
        rw [checkBody, if_neg (fun hh => by rw [hc.1 hh] at ho; cases ho)]; rfl
    obtain ⟨m', c', e2, hf, hv⟩ := ih m1 c1 hp2 (fun k hk => hown k (by simp [hk])) (by omega) (by push_cast at h1; omega)
    refine ⟨m', c', by rw [each, e1, Res.ok_bind, e2], ?_, ?_⟩
    · intro b hb
      rw [hf b (fun j hj => hb j (by simp [hj])), hf1 b (hb h (by simp))]
    · intro k hk hd
      rcases List.mem_cons.1 hk with rfl | hk
      · have l1 := lo_frame m m1 k k (hown k (by simp)) hf1
        have l2 := hi_frame m m1 k k (hown k (by simp)) hf1
        obtain ⟨l3, l4⟩ := limits_elsewhere m1 m' k hs (fun j hj => (hp1 j hj).2) hf
        have hr : rdv m' k.pointer k.type = rdv m1 k.pointer k.type :=
          rdv_congr _ _ _ _ fun b b1 b2 => hf b fun j hj => by rcases (hp1 j hj).1 with hh | hh <;> omega
        have ho : ∀ x, outside F m' k x = outside F m k x := fun x =>
          outside_frame F m m' k x (l3.trans l1) (l4.trans l2)
        rw [hr, hv1]
        cases hout : outside F m k (rdv m k.pointer k.type) with
        | true => simpa using hd
        | false => simpa [ho] using hout
      · exact hv k hk hd

theorem each_inside (F : Fl) (hs : List Handle) (m : Mem) (c : Int)
    (hi : ∀ h ∈ hs, outside F m h (rdv m h.pointer h.type) = false) : each (checkBody F) hs (m, c) = .ok (m, c) := by
  induction hs with
  | nil => rfl
  | cons h hs ih =>
    have : ¬ checkRange F m h ≠ 0 := fun hh => by
      have := (checkRange_eq F m h).1 hh
      rw [hi h (by simp)] at this
      cases this
    rw [each, checkBody, if_neg this, Res.pure_eq, Res.ok_bind]
    exact ih fun k hk => hi k (by simp [hk])

/-- **C183, partial.** If the limits of a parameter may be the variables of parameters before it in the list, and every default is
within the limits that hold in the end, one `parameter_check_ranges` brings all parameters within their limits, and a second one
finds nothing. Missing: limits that are parameters further back, for which it is false (`C183_wrong`). -/
theorem C183_chain_partial (env : Env) (g : Nat → Handle → Handle) (hl : Local env g) (F : Fl) (ps : List Handle) (m : Mem)
    (hp : (ps.map (upd g)).Pairwise Before) (hown : ∀ h ∈ ps.map (upd g), LimitsApart h h) (hlen : ps.length < 2 ^ 31) :
    ∃ ps' m' c, checkRanges env F (ps, m) = .ok ((ps', m'), c) ∧ (∀ b, Elsewhere (ps.map (upd g)) b → m' b = m b) ∧
      ((∀ h ∈ ps.map (upd g), outside F m' h (member h.type h.defaultv) = false) →
        (∀ h ∈ ps.map (upd g), outside F m' h (rdv m' h.pointer h.type) = false) ∧
        ((∀ h ∈ ps, upd g (upd g h) = upd g h) → ∃ ps'', checkRanges env F (ps', m') = .ok ((ps'', m'), 0))) := by
  obtain ⟨ps', e, l, p⟩ := eachLoop_eq hl (checkBody F) ps.length 0 ps m 0 (by omega)
  obtain ⟨m', c, e', hf, hv⟩ := each_chain F (ps.map (upd g)) m 0 hp hown (Int.le_refl _) (by simp; omega)
  rw [List.drop_zero, e', Res.ok_bind] at e
  refine ⟨ps', m', c, e, hf, fun hd => ⟨fun h hh => hv h hh (hd h hh), fun hup => ?_⟩⟩
  obtain ⟨ps'', e2, -, -⟩ := eachLoop_eq hl (checkBody F) ps'.length 0 ps' m' 0 (by omega)
  have hall : ∀ h ∈ (ps'.drop 0).map (upd g), outside F m' h (rdv m' h.pointer h.type) = false := by
    intro h hh
    rw [List.drop_zero] at hh
    obtain ⟨k, hk, rfl⟩ := List.mem_map.1 hh
    obtain ⟨j, hj, rfl⟩ := List.getElem_of_mem hk
    have hjp : j < ps.length := by omega
    have := p j hjp
    rw [List.getElem?_eq_getElem hj, List.getElem?_eq_getElem hjp, if_pos (Nat.zero_le _)] at this
    have hu : ∀ n, 0 < n → updN g n ps[j] = upd g ps[j] := by
      intro n hn
      induction n with
      | zero => omega
      | succ n ih =>
        rcases Nat.eq_zero_or_pos n with rfl | hn'
        · rfl
        · rw [updN, Function.iterate_succ_apply', show (upd g)^[n] ps[j] = updN g n ps[j] from rfl, ih hn',
            hup _ (List.getElem_mem hjp)]
    have e3 : ps'[j] = upd g ps[j] := by
      have := Option.some.inj this
      rw [this, hu _ (by omega)]
    rw [e3, hup _ (List.getElem_mem hjp)]
    exact hv _ (List.mem_map.2 ⟨_, List.getElem_mem hjp, rfl⟩) (hd _ (List.mem_map.2 ⟨_, List.getElem_mem hjp, rfl⟩))
  rw [each_inside F _ m' 0 hall, Res.ok_bind] at e2
  exact ⟨ps'', e2⟩

/-- A `uint8_t` at address 0 between 0 and the value of the one at address 1. -/
def follower (d : BitVec 64) : Handle := ⟨.u8, 0, none, some 1, 0, 0, d, 1, 0, 0, none, 0⟩

/-- The `uint8_t` at address 1 between 0 and `max`. -/
def leader (max d : BitVec 64) : Handle := ⟨.u8, 1, none, none, 0, max, d, 1, 0, 0, none, 0⟩

theorem rdv_u8 (m : Mem) (a : Nat) : rdv m a .u8 = (m a).toNat := by
  have := (m a).isLt
  simp only [rdv, Ty.wrap, Ty.signed, Ty.size, load, wrapU]
  simp
  omega

theorem member_u8 (x : BitVec 64) (hx : x.toNat < 256) : member .u8 x = x.toNat := by
  simp only [member, Ty.wrap, Ty.signed, Ty.size, wrapU]
  simp
  omega

theorem setDefault_u8 (m : Mem) (h : Handle) (ht : h.type = .u8) (hd : h.defaultv.toNat < 256) (b : Nat) :
    (setDefault m h b).toNat = if b = h.pointer then h.defaultv.toNat else (m b).toNat := by
  by_cases hb : b = h.pointer
  · have := setDefault_value m h
    rw [ht, rdv_u8, member_u8 _ hd] at this
    rw [if_pos hb, hb]
    exact_mod_cast this
  · rw [if_neg hb, setDefault_frame m h b (by rw [ht]; simp only [Ty.size]; omega)]

/-- **C183 is false of the code**: the follower before the leader. If the leader is out of its limits, and its default is below the
follower, which is not above the leader: `parameter_check_ranges` reports one parameter, and leaves the follower outside. -/
theorem C183_wrong (env : Env) (F : Fl) (m : Mem) (max d e : BitVec 64) (hm : max.toNat < (m 1).toNat) (he : e.toNat ≤ max.toNat)
    (ha : (m 0).toNat ≤ (m 1).toNat) (hae : e.toNat < (m 0).toNat) :
    ∃ m', checkRanges env F ([follower d, leader max e], m) = .ok (([follower d, leader max e], m'), 1) ∧
      outside F m' (follower d) (rdv m' 0 .u8) = true := by
  have b0 := (m 0).isLt
  have b1 := (m 1).isLt
  have hmax : member .u8 max = max.toNat := member_u8 max (by omega)
  have h1 : checkRange F m (follower d) = 0 := by
    by_contra h
    have := (checkRange_eq F m (follower d)).1 h
    rw [outside_int _ _ _ _ rfl] at this
    simp only [lo, hi, follower, rdv_u8] at this
    have hz : member .u8 (0 : BitVec 64) = 0 := rfl
    rw [hz] at this
    omega
  have h2 : checkRange F m (leader max e) ≠ 0 := by
    rw [checkRange_eq, outside_int _ _ _ _ rfl]
    right
    simp only [hi, leader, rdv_u8, hmax]
    omega
  refine ⟨setDefault m (leader max e), ?_, ?_⟩
  · have hchk : chkS 32 1 = .ok 1 := by decide
    simp [checkRanges, eachLoop, getHandle, cassert, getLoop, follower, leader, callRuntime, rd, checkBody] at h1 h2 ⊢
    simp [h1, h2, hchk]
  · rw [outside_int _ _ _ _ rfl]
    right
    have s0 := setDefault_u8 m (leader max e) rfl (by simp only [leader]; omega) 0
    have s1 := setDefault_u8 m (leader max e) rfl (by simp only [leader]; omega) 1
    simp only [leader] at s0 s1
    simp only [hi, follower, rdv_u8]
    simp only [leader]
    rw [s0, s1]
    simp
    omega

/-- The follower at 50, the leader at 200 with maximum 100 and default 10: the leader becomes 10, the follower stays at 50, and a
second check puts it to its default 0. In the other order one check is enough. -/
example :
    let m : Mem := fun b => if b = 0 then 50 else 200
    (checkRanges (fun _ _ s => s) F0 ([follower 0, leader 100 10], m) >>= fun r => .ok (r.2, r.1.2 0, r.1.2 1)) = .ok (1, 50, 10) ∧
    (checkRanges (fun _ _ s => s) F0 ([leader 100 10, follower 0], m) >>= fun r => .ok (r.2, r.1.2 0, r.1.2 1)) =
      .ok (2, 0, 10) := by decide

end Gel.Param
