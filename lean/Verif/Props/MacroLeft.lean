import Verif.Props.Conditional

/-!
# A call after a condition that cannot be evaluated (C27)
-/

namespace Verif.Props.MacroLeft

open Verif.Pre Verif.Pre.Spec Verif.Props.Conditional

/-- A token of a definition. -/
def part (k : Kind) (text : String) (v : Option Int := none) : RSym := ⟨k, text.toList, ⟨0, 0⟩, v⟩

/-- `#define F(%1) %1;` and `#define B F 1 U`. -/
def leftMacros : Macros := fun x =>
  if x = "F".toList then some ⟨0, 0, some [-1, 0], 1, [part (.op .percent) "%", part .intLit "1" (some 1), part .semicolon ";", part .newline "\n"]⟩
  else if x = "B".toList then some ⟨0, 1, none, 0, [part .ident "F", part .intLit "1" (some 1), part .ident "U", part .newline "\n"]⟩
  else none

/-- `F(2)` on line 2. -/
def leftCall : List Sym := [sy .ident "F" 2, sy .lparen "(" 2, sy .intLit "2" 2 false (some 2), sy .rparen ")" 2, nl 2, sy .eof "" 3]

/-- `#if B`, `#endif`, `F(2)`. -/
def leftFile : List Sym := [sy (.dir .if_) "#if" 0, sy .ident "B" 0 true, nl 0 true, sy (.dir .endif) "#endif" 1, nl 1] ++ leftCall

/-- C27, violated: the same call `F(2)` is replaced by the body of `F`, `2;`, when the file holds nothing else, and is left as it is when a
condition above it names a macro that cannot be expanded to the end: the names found in its body without their arguments stay barred from
expansion when the condition is given up (evaluator.rs:227-239, macros.rs:237-245), and the next call of `F` pays for it (lib.rs:353-357). -/
theorem call_after_condition_refuted : ∃ r r', Gives plainEnv leftMacros leftCall (.result r) ∧ Gives plainEnv leftMacros leftFile (.result r') ∧
    textLines r.out = ["2;".toList, []] ∧ textLines r'.out = [[], [], "F(2)".toList, []] :=
  ⟨_, _, gives_of 60 (r := _) rfl, gives_of 60 (r := _) rfl, by decide +kernel, by decide +kernel⟩

/-- A second call is expanded again: the bar is lifted by the first (lib.rs:354-355). -/
theorem call_after_condition_once : ∃ r, Gives plainEnv leftMacros
      (leftFile.dropLast ++ [sy .ident "F" 3, sy .lparen "(" 3, sy .intLit "5" 3 false (some 5), sy .rparen ")" 3, nl 3, sy .eof "" 4]) (.result r) ∧
    textLines r.out = [[], [], "F(2)".toList, "5;".toList, []] :=
  ⟨_, gives_of 90 (r := _) rfl, by decide +kernel⟩

end Verif.Props.MacroLeft
