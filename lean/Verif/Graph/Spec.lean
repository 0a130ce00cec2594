import Verif.Graph.Model
/-! # Specification of the include graph -/

namespace Verif.Graph.Spec

/-- `f` is reached from `r` by following includes, in zero or more steps. -/
inductive Reach (inc : Nat → Nat → Prop) : Nat → Nat → Prop
  | refl (a : Nat) : Reach inc a a
  | step {a b c : Nat} : inc a b → Reach inc b c → Reach inc a c

/-- An iteration order of a hash map with these keys: every key once. -/
def IsOrderOf (order keys : List Nat) : Prop := order.Nodup ∧ ∀ x, x ∈ order ↔ x ∈ keys

end Verif.Graph.Spec
