import Verif.Pre.Main
/-!
# When preprocessing is expected to finish

Conditions on macro tables, files and `#if` lines under which no endless loop is possible.
-/

namespace Verif.Pre.Spec

/-- The name of a macro with parameters. -/
def IsFn (macros : Macros) (k : Kind) (x : Str) : Prop := k = .ident ∧ ∃ m, macros x = some m ∧ m.params.isSome = true

/-- A macro body in which every name of a macro with parameters is directly followed by an opening parenthesis. -/
def Applied (macros : Macros) : List RSym → Prop
  | [] => True
  | r :: rs => (IsFn macros r.kind r.text → ∃ u us, rs = u :: us ∧ u.kind = .lparen) ∧ Applied macros rs

/-- The kinds of tokens that may be written in a condition: no punctuation other than parentheses and operators, no keywords. -/
def ConditionKind : Kind → Prop
  | .lparen | .rparen | .defined | .op _ | .true_ | .false_ | .intLit | .numLit | .charLit | .strLit | .otherLit | .blockComment
  | .lineComment | .lineContinuation | .newline | .eof | .dir _ | .ident => True
  | _ => False

/-- A set of names fit for use in conditions: the macros they name consist of such tokens and of such names again, and their bodies
give arguments to every macro that takes some. -/
def CleanNames (macros : Macros) (R : Str → Prop) : Prop :=
  ∀ x m, R x → macros x = some m →
    (∀ r ∈ m.body, ConditionKind r.kind ∧ (r.kind = .ident → R r.text)) ∧ Applied macros m.body

/-- Opening parentheses that are not closed, reading from the left; closing ones without a partner are ignored. -/
def unclosed : Nat → List Kind → Nat
  | n, [] => n
  | n, .lparen :: ks => unclosed (n + 1) ks
  | n, .rparen :: ks => unclosed (n - 1) ks
  | n, _ :: ks => unclosed n ks

/-- States the main loop can be in, starting from `s₀`. -/
inductive Reach (env : Env) (s₀ : PSt) : PSt → Prop where
  | start : Reach env s₀ s₀
  | step {s t s₁ f s₂} : Reach env s₀ s → pNext s = some (t, s₁) → pStep env f t s₁ = .next s₂ → Reach env s₀ s₂

end Verif.Pre.Spec
