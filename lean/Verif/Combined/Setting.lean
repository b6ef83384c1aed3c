import Verif.Combined.Bounce
import Verif.Param.Steps

/-!
# A setting stepped with a bouncing key (C232)

The loop of C190 and C231; in every cycle that reports KEY_PRESS of the key the program calls `parameter_operator(handle, 1)`.
-/
namespace Gel.Combined.Setting
open Gel.Combined Gel.Combined.Spec

variable {v w : Nat}

/-- The memory after `n` cycles of `event = keypad_routine(...); if (event.event == KEY_PRESS && event.code == code)
parameter_operator(handle, 1);`, parameter.c:298-347, where the keypad gets the debounced inputs (`event`). -/
def cycles (F : Param.Fl) (h : Param.Handle) (ev : Nat → Res (Int × Keypad.Event)) (code : Int) (m : Param.Mem) : Nat → Res Param.Mem
  | 0 => .ok m
  | n + 1 => do
    let m ← cycles F h ev code m n
    let (c, e) ← ev n
    if c = code ∧ e = .press then do
      let (m, _) ← Param.operator F m (some h) 1
      pure m
    else pure m

theorem operators_snoc (F : Param.Fl) (h : Param.Handle) : ∀ (k : Nat) (m : Param.Mem), Param.operators F h (List.replicate (k + 1) 1) m = (do
    let m ← Param.operators F h (List.replicate k 1) m
    let (m, _) ← Param.operator F m (some h) 1
    pure m)
  | 0, m => by
    simp only [List.replicate, Param.operators, Res.ok_bind, Res.pure_eq]
  | k + 1, m => by
    rw [List.replicate_succ, Param.operators, List.replicate_succ, Param.operators]
    cases hq : Param.operator F m (some h) 1 with
    | ok r => simp only [Res.ok_bind]; exact operators_snoc F h k r.1
    | ub => rfl
    | abort => rfl
    | diverge => rfl

/-- The memory is that after as many steps as there were KEY_PRESS. -/
theorem cycles_eq (F : Param.Fl) (h : Param.Handle) {ev : Nat → Res (Int × Keypad.Event)} (code : Int) (m : Param.Mem)
    (hev : ∀ n, ∃ c e, ev n = .ok (c, e)) (n : Nat) :
    cycles F h ev code m n = Param.operators F h (List.replicate (pressEvents ev code n) 1) m := by
  induction n with
  | zero => rfl
  | succ n ih =>
    obtain ⟨c, e, he⟩ := hev n
    by_cases hp : c = code ∧ e = .press
    · obtain ⟨rfl, rfl⟩ := hp
      rw [cycles, ih, pressEvents, he]
      simp only [if_true, Res.ok_bind, and_self]
      exact (operators_snoc F h _ m).symm
    · have h0 : pressEvents ev code (n + 1) = pressEvents ev code n := by
        rw [pressEvents, he]
        split
        · rename_i c' hc
          obtain ⟨rfl, rfl⟩ := Prod.mk.inj (Res.ok.inj hc)
          rw [if_neg fun hh => hp ⟨hh, rfl⟩, Nat.add_zero]
        · rfl
      rw [cycles, ih, h0, he]
      simp only [Res.ok_bind, if_neg hp, Res.pure_eq]
      cases Param.operators F h (List.replicate (pressEvents ev code n) 1) m <;> rfl

section
variable (hvw : v ≤ w) (i : Nat) (hi : i < v) (f g : Debounce.Filter v) (hl : f.count.length = v) (hg : Debounce.init f = .ok g)
  (tbl : List (Keypad.Key w)) (code : Int) (ht : OneKey i tbl code) (d : BitVec v) (ts : Nat → Times w)
include hvw hi hl hg ht

/-- **C232.** Whenever the finger has not moved for the time of bouncing and debouncing, the setting has been stepped exactly as often as the
finger has pressed. -/
theorem C232_steps (F : Param.Fl) (h : Param.Handle) (m : Param.Mem) {B : Nat} (hB : B ≤ 2 * d.toNat + 1) {T raw : Nat → Bool}
    (hc : Contact B T raw) (hs : Slow (B + d.toNat) T) (n : Nat) (hn : ∀ m, m < n → Changes T m → m + (B + d.toNat) < n) :
    cycles F h (event f tbl (wires v i raw) d ts) code m n = Param.operators F h (List.replicate (presses T n) 1) m := by
  obtain ⟨_, _, _, hev⟩ := device hvw i hi f g hl hg tbl code ht raw d ts
  rw [cycles_eq F h code m (fun n => (hev n).imp fun _ h => h.imp fun _ h => h.1),
    (C231_once hvw i hi f g hl hg tbl code ht d ts hB hc hs n).2.2 hn]

/-- **C232.** A setting of an integer type that starts at its minimum, with a positive step and limits that leave room for one more step (C154):
the presses run through its values over and over. -/
theorem C232_value (F : Param.Fl) (h : Param.Handle) (m : Param.Mem) (hti : h.type.isInt = true) (ho : Param.OwnLimits h)
    (hle : Param.lo m h ≤ Param.hi m h) (h0 : 0 < Param.member h.type h.step) (hv : Param.rdv m h.pointer h.type = Param.lo m h)
    (hm : Param.Spec.InRange h.type.signed (8 * h.type.size) (Param.hi m h + Param.member h.type h.step)) {B : Nat} (hB : B ≤ 2 * d.toNat + 1)
    {T raw : Nat → Bool} (hc : Contact B T raw) (hs : Slow (B + d.toNat) T) (n : Nat)
    (hn : ∀ m, m < n → Changes T m → m + (B + d.toNat) < n) :
    ∃ m', cycles F h (event f tbl (wires v i raw) d ts) code m n = .ok m' ∧ Param.rdv m' h.pointer h.type = Param.lo m h +
      Param.member h.type h.step * (presses T n % ((Param.hi m h - Param.lo m h) / Param.member h.type h.step + 1)) := by
  rw [C232_steps hvw i hi f g hl hg tbl code ht d ts F h m hB hc hs n hn]
  exact Param.C154_cycle F h hti ho m (presses T n) hle h0 hv hm

/-- **C232**, a contact that bounces for one cycle more: for every `d` one press can step the setting twice. -/
theorem C232_long_wrong (F : Param.Fl) (h : Param.Handle) (m : Param.Mem) :
    ∃ T raw, Contact (2 * d.toNat + 2) T raw ∧ (∀ gap, Slow gap T) ∧ ∀ n, 3 * d.toNat + 3 ≤ n →
      presses T n = 1 ∧ cycles F h (event f tbl (wires v i raw) d ts) code m n = Param.operators F h [1, 1] m := by
  obtain ⟨T, raw, h1, h2, h3⟩ := C231_long_wrong hvw i hi f g hl hg tbl code ht d ts
  refine ⟨T, raw, h1, h2, fun n hn => ⟨(h3 n hn).1, ?_⟩⟩
  obtain ⟨_, _, _, hev⟩ := device hvw i hi f g hl hg tbl code ht raw d ts
  rw [cycles_eq F h code m (fun n => (hev n).imp fun _ h => h.imp fun _ h => h.1), (h3 n hn).2]
  rfl

end

/-! ## Example: the key and the contact of `Bounce`, a setting from 2 to 10 in steps of 4 -/

def exSetting (x : BitVec 8) (step : BitVec 64) (raw : Nat → Bool) (n : Nat) : Res Int := do
  let m ← cycles Param.F0 (Param.hnd .u8 2 10 step) (event ⟨0, 0, List.replicate 8 0⟩ exTable (wires 8 2 raw) 2 exTimes) 7 (Param.mem x) n
  pure (Param.rdv m 100 .u8)

/-- One press: not yet in cycle 7, then one step; from 10 the step leads back to 2. -/
example : exSetting 2 4 exRaw 8 = .ok 2 ∧ exSetting 2 4 exRaw 20 = .ok 6 ∧ exSetting 10 4 exRaw 20 = .ok 2 := by decide +kernel
/-- One press of a contact that bounces for too long: two steps. -/
example : exSetting 2 4 (badRaw 2) 20 = .ok 10 := by decide +kernel

end Gel.Combined.Setting
