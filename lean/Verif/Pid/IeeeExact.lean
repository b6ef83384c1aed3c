import Verif.Pid.IeeeProps
import Verif.Pid.Props

/-!
# PID with floating point types: exact for multiples of a unit, property C189
-/
namespace Gel.Pid.Fp
open Gel.Ieee Spec

variable {f : Fmt} {n d : Nat}

namespace Spec

/-- `x` is a multiple of `2^e`, by a factor of at most `m`. -/
def Grid (e : ℤ) (m : ℤ) (x : ℚ) : Prop := ∃ k : ℤ, x = k * 2 ^ e ∧ |k| ≤ m

/-- A call with rational values. -/
inductive QOp where
  | input (v : ℚ)
  | tune (kp ki kd : ℚ)
  | sp (x : ℚ)
  | clear
  | lowEn (b : Bool)
  | highEn (b : Bool)
  | dthr (b : Bool)
  | low (t : Nat)
  | high (t : Nat)
  | dlow (x : ℚ)
  | auto (b : Bool)

/-- The call of the floating point controller. -/
def QOp.toF : QOp → Op
  | .input v => .input (.fin v)
  | .tune kp ki kd => .set (.tune (.fin kp) (.fin ki) (.fin kd))
  | .sp x => .set (.sp (.fin x))
  | .clear => .set .clear
  | .lowEn b => .set (.lowEn b)
  | .highEn b => .set (.highEn b)
  | .dthr b => .set (.dthr b)
  | .low t => .set (.low t)
  | .high t => .set (.high t)
  | .dlow x => .set (.dlow (.fin x))
  | .auto b => .set (.auto b)

/-- The call of the controller of C74 to C77 with exact arithmetic. -/
def QOp.toQ : QOp → Pid.Op ℚ
  | .input v => .input v
  | .tune kp ki kd => .set (.tune (fun x => kp * x) (fun x => ki * x) (fun x => kd * x))
  | .sp x => .set (.sp x)
  | .clear => .set .clear
  | .lowEn b => .set (.lowEn b)
  | .highEn b => .set (.highEn b)
  | .dthr b => .set (.dthr b)
  | .low t => .set (.low t)
  | .high t => .set (.high t)
  | .dlow x => .set (.dlow x)
  | .auto b => .set (.auto b)

/-- Setpoints and inputs are multiples of `2^e` by at most `m`, gains of `2^g` by at most `k`, thresholds at most `2^p`. -/
def QOp.Ok (f : Fmt) (e g m k : ℤ) : QOp → Prop
  | .input v | .sp v => Grid e m v
  | .tune kp ki kd => Grid g k kp ∧ Grid g k ki ∧ Grid g k kd
  | .low t | .high t => (t : ℤ) ≤ 2 ^ f.p
  | _ => True

/-- Everything fits into the `p` bits of the format, and into its range. -/
structure Room (f : Fmt) (n : Nat) (e g m k : ℤ) : Prop where
  eb : 2 ≤ f.eb
  m0 : 0 ≤ m
  k0 : 0 ≤ k
  small : f.qmin ≤ 0 ∧ f.qmin ≤ e ∧ f.qmin ≤ e + g
  bits : (2 * n + 6) * m ≤ 2 ^ f.p
  bitsOut : (2 * n + 6) * m * k ≤ 2 ^ f.p
  large : 2 ^ f.p * 2 ^ e ≤ f.max
  largeOut : 2 ^ f.p * 2 ^ (e + g) ≤ f.max
  threshold : 2 ^ f.p ≤ f.max

end Spec

theorem Spec.Grid.add {e m l : ℤ} {x y : ℚ} (hx : Grid e m x) (hy : Grid e l y) : Grid e (m + l) (x + y) := by
  obtain ⟨i, rfl, hi⟩ := hx
  obtain ⟨j, rfl, hj⟩ := hy
  refine ⟨i + j, by push_cast; ring, (abs_add_le i j).trans (by omega)⟩

theorem Spec.Grid.neg {e m : ℤ} {x : ℚ} (hx : Grid e m x) : Grid e m (-x) := by
  obtain ⟨i, rfl, hi⟩ := hx
  exact ⟨-i, by push_cast; ring, by rwa [abs_neg]⟩

theorem Spec.Grid.sub {e m l : ℤ} {x y : ℚ} (hx : Grid e m x) (hy : Grid e l y) : Grid e (m + l) (x - y) := by
  rw [sub_eq_add_neg]; exact Grid.add hx (Grid.neg hy)

theorem Spec.Grid.mono {e m l : ℤ} {x : ℚ} (hx : Grid e m x) (h : m ≤ l) : Grid e l x := by
  obtain ⟨i, hi, hm⟩ := hx
  exact ⟨i, hi, hm.trans h⟩

theorem Spec.Grid.zero {e m : ℤ} (h : 0 ≤ m) : Grid e m 0 := ⟨0, by simp, by simpa using h⟩

theorem Spec.Grid.mul {e g m k : ℤ} {x y : ℚ} (hk : 0 ≤ k) (hx : Grid g k x) (hy : Grid e m y) : Grid (e + g) (m * k) (x * y) := by
  obtain ⟨i, rfl, hi⟩ := hx
  obtain ⟨j, rfl, hj⟩ := hy
  refine ⟨i * j, ?_, ?_⟩
  · rw [zpow_add₀ (by norm_num)]
    push_cast
    ring
  · rw [abs_mul, mul_comm m k]
    exact mul_le_mul hi hj (abs_nonneg j) hk

/-- Rounding does nothing to such numbers. -/
theorem Spec.Grid.round {e m : ℤ} {x : ℚ} (hx : Grid e m x) (he : 2 ≤ f.eb) (hq : f.qmin ≤ e) (hm : m ≤ 2 ^ f.p)
    (hmax : (2 : ℚ) ^ f.p * 2 ^ e ≤ f.max) : Ieee.round f x = .fin x := by
  obtain ⟨i, rfl, hi⟩ := hx
  refine round_exact he (hi.trans hm) hq rfl ?_
  rw [abs_mul, abs_of_pos (two_zpow_pos e)]
  refine le_trans (mul_le_mul_of_nonneg_right ?_ (two_zpow_pos e).le) hmax
  have : |i| ≤ 2 ^ f.p := hi.trans hm
  exact_mod_cast this

/-- The floating point controller in the state of an exact one. -/
def emb (f : Fmt) (kp ki kd : ℚ) (P : Pid ℚ) : Pid Val :=
  ⟨mul f (.fin kp), mul f (.fin ki), mul f (.fin kd), P.index, P.dindex, P.dsize, P.hist.map .fin, P.dhist.map .fin, .fin P.input, .fin P.sp,
    .fin P.low, .fin P.high, .fin P.dlow, P.first, P.auto, P.dthr, P.highEn, P.lowEn, P.sign⟩

/-- What the calls keep. -/
structure Sim (f : Fmt) (e g m k : ℤ) (kp ki kd : ℚ) (P : Pid ℚ) : Prop where
  ekp : P.kp = fun x => kp * x
  eki : P.ki = fun x => ki * x
  ekd : P.kd = fun x => kd * x
  kp : Grid g k kp
  ki : Grid g k ki
  kd : Grid g k kd
  sp : Grid e m P.sp
  input : Grid e m P.input
  hist : ∀ x ∈ P.hist, Grid e (2 * m) x
  dhist : ∀ x ∈ P.dhist, Grid e (2 * m) x

variable {e g m k : ℤ} {kp ki kd : ℚ}

theorem error_emb (h : Spec.Room f n e g m k) {P : Pid ℚ} (hs : Grid e m P.sp) (hi : Grid e m P.input) :
    error f (emb f kp ki kd P) = .fin (Pid.error P) := by
  have hg : Grid e (2 * m) (P.sp + -P.input) := (Grid.add hs (Grid.neg hi)).mono (by omega)
  have hb := h.bits
  have hm0 := h.m0
  have : (0 : ℤ) ≤ n * m := mul_nonneg (by omega) hm0
  have hr := hg.round h.eb h.small.2.1 (by nlinarith) h.large
  simp only [error, sub, emb, neg, add, hr, Pid.error, sub_eq_add_neg]

theorem updateSign_emb (P : Pid ℚ) (x : ℚ) :
    updateSign n (emb f kp ki kd P) (.fin x) = emb f kp ki kd (Pid.updateSign n P x) := by
  have h1 : less zero (.fin x) = decide (0 < x) := rfl
  have h2 : less (.fin x) zero = decide (x < 0) := rfl
  simp only [updateSign, Pid.updateSign, h1, h2, decide_eq_true_eq]
  have hsign : (emb f kp ki kd P).sign = P.sign := rfl
  have hauto : (emb f kp ki kd P).auto = P.auto := rfl
  rw [hsign, hauto]
  by_cases hs : P.sign ≠ (if 0 < x then 1 else if x < 0 then -1 else P.sign)
  · rw [if_pos hs, if_pos hs]
    cases P.auto with
    | true => simp [clear, Pid.clear, emb, zero]
    | false => simp [emb]
  · rw [if_neg hs, if_neg hs]

theorem absF_fin (x : ℚ) : absF (.fin x) = .fin (Pid.abs x) := by
  have h1 : less zero (.fin x) = decide (0 < x) := rfl
  simp only [absF, h1, decide_eq_true_eq, Pid.abs]
  split <;> rfl

theorem entry_emb (P : Pid ℚ) (x : ℚ) : entry (emb f kp ki kd P) (.fin x) = (Pid.entry P x).map .fin := by
  have h1 : less zero (.fin x) = decide (0 < x) := rfl
  have h2 : less (.fin x) zero = decide (x < 0) := rfl
  have h3 : ∀ a b : ℚ, less (.fin a) (.fin b) = decide (a < b) := fun _ _ => rfl
  have e1 : (emb f kp ki kd P).low = .fin P.low := rfl
  have e2 : (emb f kp ki kd P).high = .fin P.high := rfl
  have e3 : (emb f kp ki kd P).lowEn = P.lowEn := rfl
  have e4 : (emb f kp ki kd P).highEn = P.highEn := rfl
  simp only [entry, Pid.entry, h1, h2, absF_fin, e1, e2, e3, e4, h3, decide_eq_true_eq]
  by_cases c1 : 0 < x
  · simp only [if_pos c1]
    by_cases c2 : P.lowEn = false ∨ Pid.abs x < P.low
    · simp only [if_pos c2, Option.map_some]
    · simp only [if_neg c2, Option.map_some]; rfl
  · simp only [if_neg c1]
    by_cases c3 : x < 0
    · simp only [if_pos c3]
      by_cases c2 : P.highEn = false ∨ Pid.abs x < P.high
      · simp only [if_pos c2, Option.map_some]
      · simp only [if_neg c2, Option.map_some]; rfl
    · simp only [if_neg c3, Option.map_none]

theorem store_map (l : List ℚ) (i : Nat) (o : Option ℚ) (l' : List ℚ) (h : store l i o = .ok l') :
    store (l.map Val.fin) i (o.map Val.fin) = .ok (l'.map Val.fin) := by
  cases o with
  | none => cases h; rfl
  | some x =>
    simp only [store, wr] at h
    split at h
    · rename_i hi
      cases h
      simp [store, wr, hi]
    · cases h

theorem addOld_emb (P P' : Pid ℚ) (x : ℚ) (h : addOld d P x = .ok P') :
    addOld d (emb f kp ki kd P) (.fin x) = .ok (emb f kp ki kd P') := by
  rw [addOld] at h ⊢
  have e1 : (emb f kp ki kd P).first = P.first := rfl
  rw [e1]
  cases hf : P.first with
  | false =>
    rw [hf] at h
    cases h
    rfl
  | true =>
    rw [hf, if_pos rfl, Res.bind_eq_ok] at h
    obtain ⟨l, h1, h2⟩ := h
    cases h2
    have := store_map P.dhist P.dindex (some x) l h1
    simp only [store, Option.map_some] at this
    rw [if_pos rfl]
    have e2 : (emb f kp ki kd P).dhist = P.dhist.map .fin := rfl
    have e3 : (emb f kp ki kd P).dindex = P.dindex := rfl
    rw [e2, e3, this]
    rfl

theorem wr_mem {l l' : List ℚ} {i : Nat} {x y : ℚ} (h : wr l i x = .ok l') (hy : y ∈ l') : y = x ∨ y ∈ l := by
  rw [wr] at h
  split at h
  · cases h
    rcases List.mem_or_eq_of_mem_set hy with h | h
    · exact Or.inr h
    · exact Or.inl h
  · cases h

theorem input_emb (hr : Spec.Room f n e g m k) {P P' : Pid ℚ} (hs : Sim f e g m k kp ki kd P) (v : ℚ) (hv : Grid e m v)
    (h : Pid.addInput n d P v = .ok P') :
    addInput f n d (emb f kp ki kd P) (.fin v) = .ok (emb f kp ki kd P') ∧ Sim f e g m k kp ki kd P' := by
  have e1 : error f (emb f kp ki kd P) = .fin (Pid.error P) := error_emb hr hs.sp hs.input
  have e2 : error f { emb f kp ki kd P with input := .fin v } = .fin (Pid.error { P with input := v }) :=
    error_emb (P := { P with input := v }) hr hs.sp hv
  have e3 := updateSign_emb (f := f) (n := n) (kp := kp) (ki := ki) (kd := kd) { P with input := v } (Pid.error { P with input := v })
  have hz : Grid e (2 * m) 0 := Grid.zero (by have := hr.m0; omega)
  have hold : Grid e (2 * m) (Pid.error P) := (Grid.sub hs.sp hs.input).mono (by omega)
  rw [Pid.addInput] at h
  -- the exact controller
  have hQ : ∃ Q, Pid.updateSign n { P with input := v } (Pid.error { P with input := v }) = Q ∧ Q.kp = P.kp ∧ Q.ki = P.ki ∧ Q.kd = P.kd ∧
      Q.sp = P.sp ∧ Q.input = v ∧ Q.dhist = P.dhist ∧ (∀ x ∈ Q.hist, Grid e (2 * m) x) := by
    refine ⟨_, rfl, ?_⟩
    rw [Pid.updateSign]
    generalize (if 0 < Pid.error { P with input := v } then (1 : Int) else if Pid.error { P with input := v } < 0 then -1
      else ({ P with input := v } : Pid ℚ).sign) = sg
    by_cases hsg : ({ P with input := v } : Pid ℚ).sign ≠ sg
    · simp only [if_pos hsg]
      by_cases ha : P.auto = true
      · simp only [if_pos ha]
        refine ⟨rfl, rfl, rfl, rfl, rfl, rfl, ?_⟩
        intro x hx
        rw [List.eq_of_mem_replicate hx]
        exact hz
      · simp only [if_neg ha]
        exact ⟨trivial, trivial, trivial, trivial, trivial, trivial, hs.hist⟩
    · simp only [if_neg hsg]
      exact ⟨trivial, trivial, trivial, trivial, trivial, trivial, hs.hist⟩
  obtain ⟨Q, eQ, q1, q2, q3, q4, q5, q6, q7⟩ := hQ
  simp only [eQ] at h
  have eErr : Pid.error Q = Pid.error { P with input := v } := by simp only [Pid.error, q4, q5]
  rw [Res.bind_eq_ok] at h
  obtain ⟨l, hl, h⟩ := h
  have herr : Grid e (2 * m) (Pid.error Q) := by
    rw [Pid.error, q4, q5]; exact (Grid.sub hs.sp hv).mono (by omega)
  have hlm : ∀ x ∈ l, Grid e (2 * m) x := by
    intro x hx
    cases ee : Pid.entry Q (Pid.error Q) with
    | none => rw [ee] at hl; cases hl; exact q7 x hx
    | some y =>
      rw [ee] at hl
      rcases wr_mem hl hx with rfl | hx
      · rw [Pid.entry] at ee
        split at ee
        · split at ee <;> cases ee
          · exact herr
          · exact hz
        · split at ee
          · split at ee <;> cases ee
            · exact herr
            · exact hz
          · cases ee
      · exact q7 x hx
  constructor
  · rw [addInput]
    have e3' : updateSign n { emb f kp ki kd P with input := .fin v } (.fin (Pid.error Q)) = emb f kp ki kd Q := by
      rw [eErr, ← eQ]; exact e3
    rw [← eErr] at e2
    simp only [e1, e2, e3', entry_emb]
    have := store_map Q.hist Q.index _ l hl
    have a1 : (emb f kp ki kd Q).hist = Q.hist.map .fin := rfl
    have a2 : (emb f kp ki kd Q).index = Q.index := rfl
    rw [a1, a2, this, Res.ok_bind]
    exact addOld_emb (f := f) (kp := kp) (ki := ki) (kd := kd) { Q with hist := l, index := (Q.index + 1) % n } P' (Pid.error P) h
  · rw [addOld] at h
    simp only at h
    split at h
    · rw [Res.bind_eq_ok] at h
      obtain ⟨l2, h1, h2⟩ := h
      cases h2
      refine ⟨q1.trans hs.ekp, q2.trans hs.eki, q3.trans hs.ekd, hs.kp, hs.ki, hs.kd, q4 ▸ hs.sp, q5 ▸ hv, hlm, ?_⟩
      intro x hx
      rcases wr_mem h1 hx with rfl | hx
      · exact hold
      · exact hs.dhist x (q6 ▸ hx)
    · cases h
      exact ⟨q1.trans hs.ekp, q2.trans hs.eki, q3.trans hs.ekd, hs.kp, hs.ki, hs.kd, q4 ▸ hs.sp, q5 ▸ hv, hlm,
        fun x hx => hs.dhist x (q6 ▸ hx)⟩

theorem run_emb (hr : Spec.Room f n e g m k) (os : List QOp) : ∀ (P P' : Pid ℚ) (kp ki kd : ℚ), Sim f e g m k kp ki kd P →
    (∀ o ∈ os, QOp.Ok f e g m k o) → Pid.run n d P (os.map QOp.toQ) = .ok P' →
    ∃ kp' ki' kd', run f n d (emb f kp ki kd P) (os.map QOp.toF) = .ok (emb f kp' ki' kd' P') ∧ Sim f e g m k kp' ki' kd' P' := by
  induction os with
  | nil =>
    intro P P' kp ki kd hs _ h
    cases h
    exact ⟨kp, ki, kd, rfl, hs⟩
  | cons o os ih =>
    intro P P' kp ki kd hs ho h
    rw [List.map_cons, Pid.run, Res.bind_eq_ok] at h
    obtain ⟨P1, h1, h2⟩ := h
    obtain ⟨a, b, c, e1, s1⟩ : ∃ a b c, step f n d (emb f kp ki kd P) o.toF = .ok (emb f a b c P1) ∧ Sim f e g m k a b c P1 := by
      have hok := ho o (by simp)
      have hthr : ∀ t : Nat, (t : ℤ) ≤ 2 ^ f.p → Ieee.round f t = .fin (t : ℚ) := by
        intro t ht
        have hg : Grid 0 (2 ^ f.p) (t : ℚ) := ⟨t, by simp, by rwa [abs_of_nonneg (by omega)]⟩
        exact hg.round hr.eb hr.small.1 (le_refl _) (by simpa using hr.threshold)
      obtain ⟨s1, s2, s3, s4, s5, s6, s7, s8, s9, s10⟩ := hs
      cases o with
      | input v =>
        obtain ⟨i1, i2⟩ := input_emb hr ⟨s1, s2, s3, s4, s5, s6, s7, s8, s9, s10⟩ v hok h1
        exact ⟨kp, ki, kd, i1, i2⟩
      | tune a b c =>
        cases h1
        exact ⟨a, b, c, rfl, rfl, rfl, rfl, hok.1, hok.2.1, hok.2.2, s7, s8, s9, s10⟩
      | sp x => cases h1; exact ⟨kp, ki, kd, rfl, s1, s2, s3, s4, s5, s6, hok, s8, s9, s10⟩
      | clear =>
        cases h1
        refine ⟨kp, ki, kd, ?_, s1, s2, s3, s4, s5, s6, s7, s8, ?_, s10⟩
        · simp [step, QOp.toF, set, clear, emb, Pid.set, Pid.clear, zero]
        · intro x hx
          rw [List.eq_of_mem_replicate hx]
          exact Grid.zero (by have := hr.m0; omega)
      | low t =>
        cases h1
        refine ⟨kp, ki, kd, ?_, s1, s2, s3, s4, s5, s6, s7, s8, s9, s10⟩
        simp only [step, QOp.toF, set, hthr t hok]
        rfl
      | high t =>
        cases h1
        refine ⟨kp, ki, kd, ?_, s1, s2, s3, s4, s5, s6, s7, s8, s9, s10⟩
        simp only [step, QOp.toF, set, hthr t hok]
        rfl
      | _ => cases h1; exact ⟨kp, ki, kd, rfl, s1, s2, s3, s4, s5, s6, s7, s8, s9, s10⟩
    obtain ⟨a', b', c', e2, s2⟩ := ih P1 P' a b c s1 (fun o h => ho o (by simp [h])) h2
    exact ⟨a', b', c', by rw [List.map_cons, run, e1, Res.ok_bind, e2], s2⟩

theorem sum_emb (hr : Spec.Room f n e g m k) (l : List ℚ) (hl : l.length = n) (hg : ∀ x ∈ l, Grid e (2 * m) x) :
    ∃ s, Pid.sumFrom l n 0 0 = .ok s ∧ sumFrom f (l.map .fin) n 0 zero = .ok (.fin s) ∧ Grid e (n * (2 * m)) s := by
  have key : ∀ (j i : Nat) (acc : ℚ), i + j = n → Grid e (i * (2 * m)) acc →
      ∃ s, Pid.sumFrom l j i acc = .ok s ∧ sumFrom f (l.map .fin) j i (.fin acc) = .ok (.fin s) ∧ Grid e (n * (2 * m)) s := by
    intro j
    induction j with
    | zero =>
      intro i acc hi h
      have : i = n := by omega
      subst this
      exact ⟨acc, rfl, rfl, h⟩
    | succ j ih =>
      intro i acc hi h
      have hlt : i < l.length := by omega
      have hg1 : Grid e ((i + 1 : Nat) * (2 * m)) (acc + l[i]) := (Grid.add h (hg _ (List.getElem_mem hlt))).mono (by push_cast; linarith)
      have hm0 := hr.m0
      have hb := hr.bits
      have hle : ((i + 1 : Nat) : ℤ) * (2 * m) ≤ 2 ^ f.p := by
        have : ((i + 1 : Nat) : ℤ) ≤ n := by omega
        nlinarith
      have hrd := hg1.round hr.eb hr.small.2.1 hle hr.large
      obtain ⟨s, a, b, c⟩ := ih (i + 1) (acc + l[i]) (by omega) hg1
      refine ⟨s, ?_, ?_, c⟩
      · rw [Pid.sumFrom, rd, List.getElem?_eq_getElem hlt, Res.ok_bind]
        exact a
      · rw [sumFrom, rd, List.getElem?_map, List.getElem?_eq_getElem hlt]
        simp only [Option.map_some, Res.ok_bind, add, hrd]
        exact b
  exact key n 0 0 (by omega) (by simpa using Grid.zero (le_refl (0 : ℤ)))

/-- **C189.** If setpoints and inputs are multiples of a power of two and everything fits into the bits of the format, every history gives
exactly the output of exact arithmetic. -/
theorem C189_exact (hr : Spec.Room f n e g m k) (hn : 0 < n) (hd : 0 < d) (os : List QOp) (ho : ∀ o ∈ os, QOp.Ok f e g m k o) :
    ∃ p P v, run f n d (init f n d) (os.map QOp.toF) = .ok p ∧ Pid.run n d (Pid.init n d) (os.map QOp.toQ) = .ok P ∧
      Pid.compute n d P = .ok v ∧ compute f n d p = .ok (.fin v) := by
  obtain ⟨P, eP, hin, -⟩ := Pid.C77_in_range (α := ℚ) n d hn hd (os.map QOp.toQ)
  have hk0 := hr.k0
  have hm0 := hr.m0
  have h0 : Sim f e g m k 0 0 0 (Pid.init n d) := by
    refine ⟨?_, ?_, ?_, Grid.zero hk0, Grid.zero hk0, Grid.zero hk0, Grid.zero hm0, Grid.zero hm0, ?_, ?_⟩
    · funext x; simp [Pid.init]
    · funext x; simp [Pid.init]
    · funext x; simp [Pid.init]
    · intro x hx
      rw [List.eq_of_mem_replicate hx]
      exact Grid.zero (by omega)
    · intro x hx
      rw [List.eq_of_mem_replicate hx]
      exact Grid.zero (by omega)
  have hi : init f n d = emb f 0 0 0 (Pid.init n d) := by simp [init, emb, Pid.init, zero]
  obtain ⟨kp, ki, kd, ep, hs⟩ := run_emb (d := d) hr os (Pid.init n d) P 0 0 0 h0 ho eP
  rw [← hi] at ep
  have hb := hr.bits
  have hbo := hr.bitsOut
  have hmk : 0 ≤ m * k := mul_nonneg hm0 hk0
  have hnm : (0 : ℤ) ≤ n * m := mul_nonneg (by omega) hm0
  have hnmk : (0 : ℤ) ≤ n * (m * k) := mul_nonneg (by omega) hmk
  have hbo' : 2 * (n * (m * k)) + 6 * (m * k) ≤ 2 ^ f.p := by
    have : (2 * (n : ℤ) + 6) * m * k = 2 * (n * (m * k)) + 6 * (m * k) := by ring
    omega
  have hb' : 2 * (n * m) + 6 * m ≤ 2 ^ f.p := by
    have : (2 * (n : ℤ) + 6) * m = 2 * (n * m) + 6 * m := by ring
    omega
  have herr : error f (emb f kp ki kd P) = .fin (Pid.error P) := error_emb hr hs.sp hs.input
  have gerr : Grid e (2 * m) (Pid.error P) := (Grid.sub hs.sp hs.input).mono (by omega)
  obtain ⟨s, s1, s2, s3⟩ := sum_emb hr P.hist hin.1 hs.hist
  -- the three terms
  have gP : Grid (e + g) (2 * m * k) (kp * Pid.error P) := Grid.mul hk0 hs.kp gerr
  have gI : Grid (e + g) (n * (2 * m) * k) (ki * s) := Grid.mul hk0 hs.ki s3
  have hP : computeP f (emb f kp ki kd P) = .fin (kp * Pid.error P) := by
    rw [computeP, herr]
    exact gP.round hr.eb hr.small.2.2 (by nlinarith) hr.largeOut
  have hI : computeI f n (emb f kp ki kd P) = .ok (.fin (ki * s)) := by
    rw [computeI]
    have : (emb f kp ki kd P).hist = P.hist.map .fin := rfl
    rw [this, s2, Res.ok_bind]
    have : (emb f kp ki kd P).ki (.fin s) = .fin (ki * s) := gI.round hr.eb hr.small.2.2 (by nlinarith) hr.largeOut
    rw [this]
    rfl
  have hD : ∃ t, Pid.computeD d P = .ok t ∧ computeD f d (emb f kp ki kd P) = .ok (.fin t) ∧ Grid (e + g) (4 * m * k) t := by
    have gz : Grid (e + g) (4 * m * k) 0 := Grid.zero (by nlinarith)
    rw [Pid.computeD, computeD]
    have a1 : (emb f kp ki kd P).dsize = P.dsize := rfl
    have a2 : (emb f kp ki kd P).dhist = P.dhist.map .fin := rfl
    have a3 : (emb f kp ki kd P).dindex = P.dindex := rfl
    have a4 : (emb f kp ki kd P).dthr = P.dthr := rfl
    have a5 : (emb f kp ki kd P).dlow = .fin P.dlow := rfl
    rw [a1, a2, a3, a4, a5, herr, absF_fin]
    by_cases hz : P.dsize = 0
    · rw [if_pos hz, if_pos hz]; exact ⟨0, rfl, rfl, gz⟩
    · rw [if_neg hz, if_neg hz]
      have hlt : (if P.dsize = d then P.dindex else 0) < P.dhist.length := by
        rw [hin.2]
        have := hin.4
        split <;> omega
      generalize (if P.dsize = d then P.dindex else 0) = i at hlt
      rw [rd, List.getElem?_eq_getElem hlt, rd, List.getElem?_map, List.getElem?_eq_getElem hlt]
      simp only [Option.map_some, Res.ok_bind]
      have hle : less (.fin P.dlow) (.fin (Pid.abs (Pid.error P))) = decide (P.dlow < Pid.abs (Pid.error P)) := rfl
      rw [hle]
      by_cases ht : P.dthr = true ∧ P.dlow < Pid.abs (Pid.error P)
      · rw [if_pos ht, if_pos (by simpa using ht)]; exact ⟨0, rfl, rfl, gz⟩
      · rw [if_neg ht, if_neg (by simpa using ht)]
        have gd : Grid e (4 * m) (Pid.error P - P.dhist[i]) := (Grid.sub gerr (hs.dhist _ (List.getElem_mem hlt))).mono (by omega)
        have gk : Grid (e + g) (4 * m * k) (kd * (Pid.error P - P.dhist[i])) := Grid.mul hk0 hs.kd gd
        refine ⟨kd * (Pid.error P - P.dhist[i]), ?_, ?_, gk⟩
        · rw [hs.ekd]; rfl
        · have r1 : sub f (.fin (Pid.error P)) (.fin P.dhist[i]) = .fin (Pid.error P - P.dhist[i]) := by
            rw [sub_eq_add_neg] at gd ⊢
            exact gd.round hr.eb hr.small.2.1 (by nlinarith) hr.large
          rw [r1]
          have r2 : (emb f kp ki kd P).kd (.fin (Pid.error P - P.dhist[i])) = .fin (kd * (Pid.error P - P.dhist[i])) :=
            gk.round hr.eb hr.small.2.2 (by nlinarith) hr.largeOut
          rw [r2]
          rfl
  obtain ⟨t, t1, t2, gt⟩ := hD
  refine ⟨_, P, kp * Pid.error P + ki * s + t, ep, eP, ?_, ?_⟩
  · have : Pid.computeI n P = .ok (ki * s) := by
      rw [Pid.computeI, s1, Res.ok_bind, hs.eki]; rfl
    rw [Pid.compute, this, Res.ok_bind, t1, Res.ok_bind, Pid.computeP, hs.ekp]
    rfl
  · have r1 : add f (.fin (kp * Pid.error P)) (.fin (ki * s)) = .fin (kp * Pid.error P + ki * s) :=
      (Grid.add gP gI).round hr.eb hr.small.2.2 (by nlinarith) hr.largeOut
    have r2 : add f (.fin (kp * Pid.error P + ki * s)) (.fin t) = .fin (kp * Pid.error P + ki * s + t) :=
      (Grid.add (Grid.add gP gI) gt).round hr.eb hr.small.2.2 (by nlinarith) hr.largeOut
    rw [compute, hI, Res.ok_bind, t2, Res.ok_bind, hP, r1, r2]
    rfl

/-- A `float` controller with 10 samples, integer values up to 1000 and gains that are multiples of 1/16 up to 32 is exact. -/
example : Spec.Room binary32 10 0 (-4) 1000 512 := by
  refine ⟨by decide, by decide, by decide, by decide, by decide, by decide, ?_, ?_, ?_⟩ <;>
    norm_num [Fmt.max, binary32, Fmt.p, Fmt.qmin]

/-- Gains 1, 1/2 and 0, setpoint 10, readings 3 and 4: 6 + 13/2. -/
example : let os := [QOp.tune 1 (1 / 2) 0, .sp 10, .input 3, .input 4]
    (run binary32 10 1 (init binary32 10 1) (os.map QOp.toF) >>= compute binary32 10 1) = .ok (.fin (25 / 2)) ∧
      ∀ o ∈ os, QOp.Ok binary32 0 (-4) 1000 512 o := by
  refine ⟨by decide +kernel, ?_⟩
  intro o ho
  simp only [List.mem_cons, List.not_mem_nil, or_false] at ho
  rcases ho with rfl | rfl | rfl | rfl
  · exact ⟨⟨16, by norm_num, by norm_num⟩, ⟨8, by norm_num, by norm_num⟩, ⟨0, by norm_num, by norm_num⟩⟩
  · exact ⟨10, by norm_num, by norm_num⟩
  · exact ⟨3, by norm_num, by norm_num⟩
  · exact ⟨4, by norm_num, by norm_num⟩

/-- **C189**, why the bits are needed: with the errors 2^24 and 1 a `float` controller loses the 1, exact arithmetic does not. -/
theorem C189_bits : let os := [QOp.tune 0 1 0, .input (-2 ^ 24), .input (-1)]
    (run binary32 2 1 (init binary32 2 1) (os.map QOp.toF) >>= compute binary32 2 1) = .ok (.fin (2 ^ 24)) ∧
    (Pid.run 2 1 (Pid.init 2 1) (os.map QOp.toQ) >>= Pid.compute 2 1) = .ok ((2 : ℚ) ^ 24 + 1) := by
  constructor <;> decide +kernel

end Gel.Pid.Fp
