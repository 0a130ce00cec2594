import Verif.Pre.MacroSpec
import Verif.Pre.EvalSpec
/-!
# Conditions in which definitions are used: vocabulary of C102
-/

namespace Verif.Pre.Spec

open Verif.Pre

/-- Tokens of an expression that stand for themselves. -/
def Itself (k : Kind) : Prop :=
  k = .lparen ∨ k = .rparen ∨ (∃ o, k = .op o) ∨ k = .true_ ∨ k = .false_ ∨ k = .intLit ∨ k = .numLit ∨ k = .charLit

/-- `Replaced macros ts r`: `r` is the condition `ts` with every use of a definition replaced by what it stands for (`Deep`), except
in `defined NAME` and `defined(NAME)`. -/
inductive Replaced (macros : Macros) : List KT → List KT → Prop where
  | nil : Replaced macros [] []
  | part {a b ts r : List KT} : Deep macros 4 a b → (∀ k ∈ b, Itself k.1) → Replaced macros ts r → Replaced macros (a ++ ts) (b ++ r)
  | defined {d x : KT} {ts r : List KT} : d.1 = .defined → x.1 = .ident → Replaced macros ts r → Replaced macros (d :: x :: ts) (d :: x :: r)
  | definedParen {d l x c : KT} {ts r : List KT} : d.1 = .defined → l.1 = .lparen → x.1 = .ident → c.1 = .rparen → Replaced macros ts r →
      Replaced macros (d :: l :: x :: c :: ts) (d :: l :: x :: c :: r)
  | eof {k : KT} {ts r : List KT} : k.1 = .eof → Replaced macros ts r → Replaced macros (k :: ts) r

end Verif.Pre.Spec
