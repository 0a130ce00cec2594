import Verif.Pre.Expand
/-!
# How deep definitions name each other: vocabulary of C22
-/

namespace Verif.Pre.Spec

open Verif.Pre

/-- The definition of `x`, if it has one, names definitions that name definitions …, at most `n` of them deep (itself counted). -/
def Nested (macros : Macros) : Nat → Str → Prop
  | 0, x => macros x = none
  | n + 1, x => ∀ m, macros x = some m → ∀ r ∈ m.body, r.kind = .ident → Nested macros n r.text

end Verif.Pre.Spec
