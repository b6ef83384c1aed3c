import Verif.Debounce.Model

/-!
# Debounce: histories of calls
-/
namespace Gel.Debounce

variable {w : Nat}

/-- The filter after `k` calls of `debounce_filter` with the given inputs and debounce values. -/
def run (gnu : Bool) (f : Filter w) (ins ds : Nat → BitVec w) : Nat → Res (Filter w)
  | 0 => .ok f
  | k + 1 => do
    let g ← run gnu f ins ds k
    let (g, _) ← filter gnu g (ins k) (ds k)
    pure g

/-- The states a client can bring a filter into, starting from arbitrary memory. -/
inductive Reachable : Filter w → Prop where
  | init (f g : Filter w) : f.count.length = w → init f = .ok g → Reachable g
  | set (f : Filter w) (v : BitVec w) : Reachable f → Reachable (set f v)
  | filter (f g : Filter w) (input d c : BitVec w) : Reachable f → filter true f input d = .ok (g, c) → Reachable g
  | single (f g : Filter w) (input d c : BitVec w) (i : Nat) : Reachable f → i < w →
      filterSingle true f input i d = .ok (g, c) → Reachable g

end Gel.Debounce
