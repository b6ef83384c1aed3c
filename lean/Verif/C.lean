/-!
# C executions

The outcome type shared by all models, checked memory accesses and the integer conversions the C code performs.
Nothing here is specific to one file of the library.
-/
namespace Gel

/-- Outcome of executing a piece of C: a value, undefined behaviour, a failed `assert`, or a loop that never ends. -/
inductive Res (α : Type u) where
  | ok (a : α)
  | ub
  | abort
  | diverge
  deriving Repr, DecidableEq

namespace Res

/-- Sequencing: anything but a value stops the execution. -/
def bind {α : Type u} {β : Type v} (r : Res α) (f : α → Res β) : Res β :=
  match r with
  | ok a => f a
  | ub => ub
  | abort => abort
  | diverge => diverge

instance : Monad Res where
  pure := ok
  bind := bind

@[simp] theorem pure_eq (a : α) : (pure a : Res α) = ok a := rfl
@[simp] theorem ok_bind (a : α) (f : α → Res β) : (ok a >>= f) = f a := rfl
@[simp] theorem ub_bind (f : α → Res β) : ((ub : Res α) >>= f) = ub := rfl
@[simp] theorem abort_bind (f : α → Res β) : ((abort : Res α) >>= f) = abort := rfl
@[simp] theorem diverge_bind (f : α → Res β) : ((diverge : Res α) >>= f) = diverge := rfl

theorem bind_eq_ok {r : Res α} {f : α → Res β} {b : β} :
    (r >>= f) = ok b ↔ ∃ a, r = ok a ∧ f a = ok b := by
  cases r <;> simp

instance : LawfulMonad Res := LawfulMonad.mk'
  (id_map := by intro α x; cases x <;> rfl)
  (pure_bind := by intros; rfl)
  (bind_assoc := by intro α β γ x f g; cases x <;> rfl)

/-- The execution ends normally with a value. -/
def isOk : Res α → Bool
  | ok _ => true
  | _ => false

end Res

/-- `a[i]` as an rvalue. -/
def rd (a : List α) (i : Nat) : Res α :=
  match a[i]? with
  | some x => .ok x
  | none => .ub

/-- `a[i] = x`. -/
def wr (a : List α) (i : Nat) (x : α) : Res (List α) :=
  if i < a.length then .ok (a.set i x) else .ub

/-- `memcpy(&dst[doff], &src[soff], cnt * sizeof(elem))`, element-wise, for distinct objects. -/
def memcpy (dst : List α) (doff : Nat) (src : List α) (soff cnt : Nat) : Res (List α) :=
  if doff + cnt ≤ dst.length ∧ soff + cnt ≤ src.length then
    .ok (dst.take doff ++ (src.drop soff).take cnt ++ dst.drop (doff + cnt))
  else .ub

/-- `assert(c)` with assertions enabled. -/
def cassert (c : Bool) : Res Unit := if c then .ok () else .abort

/-- Conversion of an `int` (or wider signed value) to a 64-bit `size_t`. -/
def asSize (i : Int) : Nat := (i % 2 ^ 64).toNat

/-- Value of a `w`-bit two's complement signed object holding the low bits of `i`. -/
def wrapS (w : Nat) (i : Int) : Int := (BitVec.ofInt w i).toInt

/-- Value of a `w`-bit unsigned object holding the low bits of `i`. -/
def wrapU (w : Nat) (i : Int) : Int := i % 2 ^ w

/-- A signed `w`-bit arithmetic result: overflow is undefined. -/
def chkS (w : Nat) (i : Int) : Res Int :=
  if -(2 : Int) ^ (w - 1) ≤ i ∧ i < (2 : Int) ^ (w - 1) then .ok i else .ub

/-- `x << k` for a signed `x` of `w` bits, given by its representation. Undefined unless `k < w`, `x` is non-negative and
`x * 2^k` is representable (C11 6.5.7p3-4); with `gnu` only `k < w` is required (GCC documents it so). -/
def shlS (gnu : Bool) (x : BitVec w) (k : Nat) : Res (BitVec w) :=
  if k < w ∧ (gnu ∨ (0 ≤ x.toInt ∧ x.toInt * 2 ^ k < 2 ^ (w - 1))) then .ok (x <<< k) else .ub

/-- `x >> k` for an unsigned `x`, undefined unless `k < w`. -/
def shrU (x : BitVec w) (k : Nat) : Res (BitVec w) := if k < w then .ok (x >>> k) else .ub

end Gel
