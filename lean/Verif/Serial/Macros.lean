import Verif.Serial.Model
import Mathlib.Tactic.SplitIfs

/-!
# Serializer and struct updates: property C152, names used by the macros

The macros of serializer.h:17-54 and struct_update.h:22-26 declare the variables `tmp`, `size` and `_value` in a block of their
own and use their arguments within it. Here an argument is an expression with names, evaluated where the macro puts it.
-/
namespace Gel.Serial

/-- The values of the variables; `none`: not initialized. -/
abbrev Env := String → Option Nat

/-- An argument. -/
inductive Expr where
  | lit (n : Nat)
  | var (x : String)
  | add (a b : Expr)

/-- Its value; using a variable that is not initialized is undefined. -/
def Expr.eval (e : Env) : Expr → Res Nat
  | .lit n => .ok n
  | .var x => match e x with
    | some v => .ok v
    | none => .ub
  | .add a b => do pure ((← a.eval e) + (← b.eval e))

/-- The variable `x` occurs. -/
def Expr.mentions (x : String) : Expr → Prop
  | .lit _ => False
  | .var y => x = y
  | .add a b => a.mentions x ∨ b.mentions x

/-- Change a variable. -/
def Env.put (e : Env) (x : String) (v : Option Nat) : Env := fun y => if y = x then v else e y

/-- `UNPACK_UINT16_BE(var, buffer)`, serializer.h:17-23, and in the same way `UNPACK_UINT32_BE`, 25-31, and `UNPACK_UINT8`, 33-39: `d` is
the function called; the buffer is given by an offset. The variables of the block hide those of the same name; at its end
these reappear. The types of the variables hold the value. -/
def unpackM (d : Mem → Nat → Res (BitVec w × Nat)) (buf : Mem) (e : Env) (var : String) (at' : Expr) : Res (Env × Nat) := do
  let i := (e.put "tmp" none).put "size" none
  let off ← at'.eval i
  let (v, n) ← d buf off
  let i := (i.put "tmp" (some v.toNat)).put "size" (some n)
  let t ← (Expr.var "tmp").eval i
  let i := i.put var (some t)
  let r ← (Expr.var "size").eval i
  pure ((i.put "tmp" (e "tmp")).put "size" (e "size"), r)

/-- `PACK_UINT16_BE(buffer, var)`, serializer.h:42-47, and in the same way `PACK_UINT8`, 49-54: `s` is the function called. -/
def packM (s : Mem → Nat → BitVec w → Res (Mem × Nat)) (buf : Mem) (e : Env) (at' var : Expr) : Res (Mem × Nat) := do
  let i := e.put "tmp" none
  let v ← var.eval i
  let i := (i.put "tmp" (some (BitVec.ofNat w v).toNat)).put "size" none
  let off ← at'.eval i
  let t ← (Expr.var "tmp").eval i
  let (buf, n) ← s buf off (BitVec.ofNat w t)
  let i := i.put "size" (some n)
  let r ← (Expr.var "size").eval i
  pure (buf, r)

/-- The bytes that `STRUCT_UPDATE(object, field, value)`, struct_update.h:22-26, saves, for a field of `w` bits. -/
def structUpdateM (w : Nat) (e : Env) (value : Expr) : Res (BitVec w) := do
  let i := e.put "_value" none
  let v ← value.eval i
  pure (BitVec.ofNat w v)

/-! ## Specification -/

/-- What the macros should do, wherever they are used. -/
def unpackI (d : Mem → Nat → Res (BitVec w × Nat)) (buf : Mem) (e : Env) (var : String) (at' : Expr) : Res (Env × Nat) := do
  let off ← at'.eval e
  let (v, n) ← d buf off
  pure (e.put var (some v.toNat), n)

def packI (s : Mem → Nat → BitVec w → Res (Mem × Nat)) (buf : Mem) (e : Env) (at' var : Expr) : Res (Mem × Nat) := do
  let off ← at'.eval e
  let v ← var.eval e
  s buf off (BitVec.ofNat w v)

def structUpdateI (w : Nat) (e : Env) (value : Expr) : Res (BitVec w) := do
  pure (BitVec.ofNat w (← value.eval e))

/-! ## Theorems -/

theorem eval_congr {e e' : Env} : ∀ (a : Expr), (∀ x, a.mentions x → e x = e' x) → a.eval e = a.eval e'
  | .lit _, _ => rfl
  | .var x, h => by rw [Expr.eval, Expr.eval, h x rfl]
  | .add a b, h => by
    rw [Expr.eval, Expr.eval, eval_congr a fun x hx => h x (.inl hx), eval_congr b fun x hx => h x (.inr hx)]

theorem put_ne (e : Env) {x y : String} (v : Option Nat) (h : y ≠ x) : e.put x v y = e y := by rw [Env.put, if_neg h]

theorem put_eq (e : Env) (x : String) (v : Option Nat) : e.put x v x = v := by rw [Env.put, if_pos rfl]

theorem ne_of_mentions {a : Expr} {x y : String} (hx : a.mentions x) (hy : ¬ a.mentions y) : x ≠ y := fun h => hy (h ▸ hx)

/-- An expression that mentions a variable that is not initialized is undefined. -/
theorem eval_ub {e : Env} {x : String} (hx : e x = none) : ∀ (a : Expr), a.mentions x → (∀ y, a.mentions y → y ≠ x → e y ≠ none) →
    a.eval e = .ub
  | .var y, h, _ => by
    obtain rfl : x = y := h
    rw [Expr.eval, hx]
  | .add a b, h, hy => by
    have ha : a.mentions x ∨ ∃ v, a.eval e = .ok v := by
      by_cases hm : a.mentions x
      · exact .inl hm
      · right
        have : ∀ c : Expr, ¬ c.mentions x → (∀ y, c.mentions y → y ≠ x → e y ≠ none) → ∃ v, c.eval e = .ok v := by
          intro c
          induction c with
          | lit n => exact fun _ _ => ⟨n, rfl⟩
          | var y =>
            intro h1 h2
            have := h2 y rfl (fun h => h1 h.symm)
            rw [Expr.eval]
            cases hv : e y with
            | none => exact absurd hv this
            | some v => exact ⟨v, rfl⟩
          | add c1 c2 i1 i2 =>
            intro h1 h2
            obtain ⟨v1, e1⟩ := i1 (fun h => h1 (.inl h)) fun y hy => h2 y (.inl hy)
            obtain ⟨v2, e2⟩ := i2 (fun h => h1 (.inr h)) fun y hy => h2 y (.inr hy)
            exact ⟨v1 + v2, by rw [Expr.eval, e1, e2]; rfl⟩
        exact this a hm fun y h => hy y (.inl h)
    rcases ha with ha | ⟨v, ha⟩
    · rw [Expr.eval, eval_ub hx a ha fun y h => hy y (.inl h)]
      rfl
    · rcases h with h | h
      · rw [Expr.eval, eval_ub hx a h fun y h => hy y (.inl h)]
        rfl
      · rw [Expr.eval, ha, Res.ok_bind, eval_ub hx b h fun y h => hy y (.inr h)]
        rfl

/-- **C152** (partial). `UNPACK_…`: as specified if the variable is not called `tmp` or `size` and the buffer expression mentions neither.
Missing: `C152_unpack_size_wrong`, `C152_unpack_tmp_wrong`, `C152_offset_wrong`. -/
theorem C152_unpack_partial (d : Mem → Nat → Res (BitVec w × Nat)) (buf : Mem) (e : Env) (var : String) (at' : Expr)
    (h1 : var ≠ "tmp") (h2 : var ≠ "size") (h3 : ¬ at'.mentions "tmp") (h4 : ¬ at'.mentions "size") :
    unpackM d buf e var at' = unpackI d buf e var at' := by
  have he : at'.eval ((e.put "tmp" none).put "size" none) = at'.eval e := eval_congr at' fun x hx => by
    rw [put_ne _ _ (ne_of_mentions hx h4), put_ne _ _ (ne_of_mentions hx h3)]
  rw [unpackM, unpackI]
  simp only [he]
  congr 1
  funext off
  congr 1
  funext r
  simp only [Expr.eval]
  rw [put_ne _ _ (show "tmp" ≠ "size" by decide), put_eq]
  simp only [Res.ok_bind]
  rw [put_ne _ _ (Ne.symm h2), put_eq]
  simp only [Res.ok_bind, Res.pure_eq, Res.ok.injEq, Prod.mk.injEq, and_true]
  funext y
  simp only [Env.put]
  split_ifs <;> simp_all

/-- **C152**, where it fails: `UNPACK_…(size, …)`: the variable is not changed, and the result is the value read, not the number of
bytes. -/
theorem C152_unpack_size_wrong (d : Mem → Nat → Res (BitVec w × Nat)) (buf : Mem) (e : Env) (off n : Nat) (v : BitVec w)
    (hd : d buf off = .ok (v, n)) : unpackM d buf e "size" (.lit off) = .ok (e, v.toNat) := by
  rw [unpackM]
  simp only [Expr.eval, Res.ok_bind, hd]
  rw [put_ne _ _ (show "tmp" ≠ "size" by decide), put_eq]
  simp only [Res.ok_bind]
  rw [put_eq]
  simp only [Res.ok_bind, Res.pure_eq, Res.ok.injEq, Prod.mk.injEq, and_true]
  funext y
  simp only [Env.put]
  split_ifs <;> simp_all

/-- **C152**, where it fails: `UNPACK_…(tmp, …)` does not change the variable. -/
theorem C152_unpack_tmp_wrong (d : Mem → Nat → Res (BitVec w × Nat)) (buf : Mem) (e : Env) (off n : Nat) (v : BitVec w)
    (hd : d buf off = .ok (v, n)) : unpackM d buf e "tmp" (.lit off) = .ok (e, n) := by
  rw [unpackM]
  simp only [Expr.eval, Res.ok_bind, hd]
  rw [put_ne _ _ (show "tmp" ≠ "size" by decide), put_eq]
  simp only [Res.ok_bind]
  rw [put_ne _ _ (show "size" ≠ "tmp" by decide), put_eq]
  simp only [Res.ok_bind, Res.pure_eq, Res.ok.injEq, Prod.mk.injEq, and_true]
  funext y
  simp only [Env.put]
  split_ifs <;> simp_all

/-- **C152**, where it fails: a buffer expression that mentions the caller's `size` (as in `&buffer[size]`) makes both macros
undefined. (All other variables have values.) -/
theorem C152_offset_wrong (d : Mem → Nat → Res (BitVec w × Nat)) (s : Mem → Nat → BitVec w → Res (Mem × Nat)) (buf : Mem) (e : Env)
    (he : ∀ x, e x ≠ none) (var : String) (at' : Expr) (h : at'.mentions "size") (h' : ¬ at'.mentions "tmp") (v : Nat) :
    unpackM d buf e var at' = .ub ∧ packM s buf e at' (.lit v) = .ub := by
  constructor
  · rw [unpackM]
    simp only
    rw [eval_ub (put_eq _ _ _) at' h fun y hy hne => by
      rw [put_ne _ _ hne, put_ne _ _ (ne_of_mentions hy h')]
      exact he y]
    rfl
  · rw [packM]
    simp only [Expr.eval, Res.ok_bind]
    rw [eval_ub (put_eq _ _ _) at' h fun y hy hne => by
      rw [put_ne _ _ hne, put_ne _ _ (ne_of_mentions hy h'), put_ne _ _ (ne_of_mentions hy h')]
      exact he y]
    rfl

/-- **C152** (partial). `PACK_…`: as specified if the value does not mention `tmp` and the buffer expression mentions neither `tmp` nor
`size`. Missing: `C152_pack_wrong`, `C152_offset_wrong`. -/
theorem C152_pack_partial (s : Mem → Nat → BitVec w → Res (Mem × Nat)) (buf : Mem) (e : Env) (at' var : Expr)
    (h1 : ¬ var.mentions "tmp") (h3 : ¬ at'.mentions "tmp") (h4 : ¬ at'.mentions "size") (v off : Nat) (hv : var.eval e = .ok v)
    (ho : at'.eval e = .ok off) : packM s buf e at' var = packI s buf e at' var := by
  have e1 : var.eval (e.put "tmp" none) = .ok v := by
    rw [← hv]
    exact eval_congr var fun x hx => put_ne _ _ (ne_of_mentions hx h1)
  have e2 : at'.eval (((e.put "tmp" none).put "tmp" (some (BitVec.ofNat w v).toNat)).put "size" none) = .ok off := by
    rw [← ho]
    exact eval_congr at' fun x hx => by
      rw [put_ne _ _ (ne_of_mentions hx h4), put_ne _ _ (ne_of_mentions hx h3), put_ne _ _ (ne_of_mentions hx h3)]
  rw [packM, packI, hv, ho]
  simp only [e1, e2, Res.ok_bind, Expr.eval]
  rw [put_ne _ _ (show "tmp" ≠ "size" by decide), put_eq]
  simp only [Res.ok_bind, BitVec.ofNat_toNat, BitVec.setWidth_eq]
  cases hs : s buf off (BitVec.ofNat w v) with
  | ok r =>
    simp only [Res.ok_bind]
    rw [put_eq]
    rfl
  | ub => rfl
  | abort => rfl
  | diverge => rfl

/-- **C152**, where it fails: `PACK_…(buffer + tmp, value)` writes at the offset `value`; `PACK_…(buffer, tmp)` and
`STRUCT_UPDATE(object, field, _value)` use a variable that is not initialized. -/
theorem C152_pack_wrong (s : Mem → Nat → BitVec w → Res (Mem × Nat)) (buf : Mem) (e : Env) (off v : Nat) :
    packM s buf e (.var "tmp") (.lit v) = packI s buf e (.lit (BitVec.ofNat w v).toNat) (.lit v) ∧
    packM s buf e (.lit off) (.var "tmp") = .ub ∧ structUpdateM w e (.var "_value") = .ub := by
  refine ⟨?_, ?_, ?_⟩
  · rw [packM, packI]
    simp only [Expr.eval, Res.ok_bind]
    rw [put_ne _ _ (show "tmp" ≠ "size" by decide), put_eq]
    simp only [Res.ok_bind, BitVec.ofNat_toNat, BitVec.setWidth_eq]
    cases hs : s buf (BitVec.ofNat w v).toNat (BitVec.ofNat w v) with
    | ok r =>
      simp only [Res.ok_bind]
      rw [put_eq]
      rfl
    | ub => rfl
    | abort => rfl
    | diverge => rfl
  · rw [packM]
    simp only [Expr.eval]
    rw [put_eq]
    rfl
  · rw [structUpdateM]
    simp only [Expr.eval]
    rw [put_eq]
    rfl

/-- **C152** (partial). `STRUCT_UPDATE`: as specified if the value does not mention `_value`. Missing: `C152_pack_wrong`. -/
theorem C152_struct_partial (w : Nat) (e : Env) (value : Expr) (h : ¬ value.mentions "_value") :
    structUpdateM w e value = structUpdateI w e value := by
  rw [structUpdateM, structUpdateI]
  rw [eval_congr value fun x hx => put_ne e none (ne_of_mentions hx h)]

/-- The caller's variables. -/
def caller : Env := fun x => if x = "size" then some 1 else if x = "tmp" then some 7 else some 0

example : (fun r => (r.1 "x", r.1 "size", r.1 "tmp", r.2)) <$> unpackM deserializeU16Be [1, 2, 3] caller "x" (.lit 1) =
      .ok (some 0x203, some 1, some 7, 2) ∧
    (fun r => (r.1 "size", r.2)) <$> unpackM deserializeU16Be [1, 2, 3] caller "size" (.lit 1) = .ok (some 1, 0x203) ∧
    (fun r => r.2) <$> unpackM deserializeU16Be [1, 2, 3] caller "x" (.add (.lit 0) (.var "size")) = .ub ∧
    packM serializeU8 [1, 2, 3, 4] caller (.var "tmp") (.lit 2) = .ok ([1, 2, 2, 4], 1) := by
  decide

end Gel.Serial
