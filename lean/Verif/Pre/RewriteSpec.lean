import Verif.Pre.OffsetsSpec
import Verif.Pre.MainSpec
/-!
# The text that is analysed

Specification: a line with its uses of macros replaced, and lines of which nothing is left but comments.
-/

namespace Verif.Pre.Spec
open Verif.Pre

/-- `Rewritten ms c uses src txt`: `src` is what a line has from column `c` on, and `uses` are the uses of macros in it. `txt` is `src` in which each use, from
the first character of its name to the last one of its arguments, is replaced by what it stands for, and all else is kept, blanks as spaces. -/
inductive Rewritten (ms : Macros) : Nat → List Use → Str → Str → Prop where
  | rest {c : Nat} {src txt : Str} : src.map shown = txt.map shown → Rewritten ms c [] src txt
  | use {c : Nat} {u : Use} {us : List Use} {a a' used src txt t : Str} {full : List KT} : a.map shown = a'.map shown →
      u.name.range.s.char = c + a.length → u.stop = c + a.length + used.length → Means ms u full → Spelled full t →
      Rewritten ms (c + a.length + used.length) us src txt → Rewritten ms c (u :: us) (a ++ (used ++ src)) (a' ++ (t ++ txt))

/-- The text has nothing but comments that are among the tokens, and white space. -/
def OnlyComments (tokens : List Sym) (txt : Str) : Prop :=
  ∃ cs : List Sym, (∀ c ∈ cs, c ∈ tokens ∧ IsComment c) ∧ visible txt = visible (cs.flatMap (·.text))

end Verif.Pre.Spec
