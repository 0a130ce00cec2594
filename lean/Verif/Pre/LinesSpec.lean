import Verif.Pre.Main
/-!
# Line numbers: what it means that a file is lexed, and a class of files

`Lexes` relates a text to its tokens, `Good` collects the conditions under which line numbers are kept.
-/

namespace Verif.Pre.Spec

/-- Number of line breaks in a text. -/
def breaks (t : Str) : Nat := t.count '\n'

/-- Number of lines of a text. -/
def lineCount (t : Str) : Nat := breaks t + 1

/-- `Lexes n text tokens`: `text`, which starts on line `n`, is the text of the tokens with blanks in between, and the tokens have
the lines where they stand in their ranges. `Eof` comes last. -/
inductive Lexes : Nat → Str → List Sym → Prop where
  | nil {n : Nat} : Lexes n [] []
  | cons {n : Nat} {ws rest : Str} {s : Sym} {ss : List Sym} : breaks ws = 0 → s.range.s.line = n → s.range.e.line = n + breaks s.text →
      (s.kind = .newline → breaks s.text = 1) → (s.kind = .eof → s.text = [] ∧ rest = [] ∧ ss = []) → Lexes (n + breaks s.text) rest ss →
      Lexes n (ws ++ (s.text ++ rest)) (s :: ss)

/-- Directives that read the rest of their line. -/
def readsLine : Kind → Bool
  | .dir .if_ | .dir .elseif | .dir .define | .dir .undef => true
  | _ => false

/-- The lexer's flag `in_preprocessor`: after such a directive it is set up to the end of the line. No directive is inside a
directive. -/
def DirectiveLines : List Sym → Prop
  | [] => True
  | s :: ss =>
    (∀ t ∈ ss.head?, (s.kind = .newline → t.inPre = false) ∧
      (s.kind ≠ .newline → (readsLine s.kind = true ∨ s.inPre = true) → t.inPre = true)) ∧
    (s.inPre = true → ∀ d, s.kind ≠ .dir d) ∧ DirectiveLines ss

/-- Every `#define` is followed by a name and does not declare parameters; every `#undef` is followed by a name. -/
def SimpleDirectives : List Sym → Prop
  | [] => True
  | s :: ss =>
    (s.kind = .dir .define → ∃ n ss', ss = n :: ss' ∧ n.kind = .ident ∧ n.text ≠ [] ∧
      ∀ p ∈ ss'.head?, ¬ (p.kind = .lparen ∧ p.delta.col = 0)) ∧
    (s.kind = .dir .undef → ∃ n ss', ss = n :: ss' ∧ n.kind = .ident) ∧ SimpleDirectives ss

/-- Kinds of tokens that are left out when a macro is expanded. -/
def Dropped : Kind → Prop
  | .newline | .lineContinuation | .blockComment | .lineComment => True
  | _ => False

/-- Only line breaks, comments, line continuations, strings outside of directives, and includes (which are read up to the end of their
line) span several lines. -/
def Shape (s : Sym) : Prop :=
  breaks s.text = 0 ∨ Dropped s.kind ∨ (s.kind = .strLit ∧ s.inPre = false) ∨
    ((s.kind = .dir .include_ ∨ s.kind = .dir .tryinclude) ∧ breaks (trim s.text) = 0)

/-- Conditional blocks are well nested and closed at the end of the file, and inside of them only line breaks span several lines. -/
def Blocks : Nat → List Sym → Prop
  | _, [] => False
  | d, s :: ss =>
    if s.kind = .eof then d = 0
    else (0 < d → breaks s.text = 0 ∨ s.kind = .newline) ∧
      (if s.kind = .dir .if_ then Blocks (d + 1) ss
       else if s.kind = .dir .endif then 0 < d ∧ Blocks (d - 1) ss
       else Blocks d ss)

/-- Macros without parameters whose bodies have no directive and no token of several lines that is not dropped. -/
def ObjectMacros (ms : Macros) : Prop :=
  ∀ x m, ms x = some m → m.params = none ∧ ∀ r ∈ m.body, (breaks r.text = 0 ∨ Dropped r.kind) ∧ r.kind ≠ .eof ∧ ∀ d, r.kind ≠ .dir d

/-- The text the preprocessor hands on: the source itself after an error (lib.rs:172-206). -/
def resultText (source : Str) : Final → Option Str
  | .result st => some (joinLines st.out)
  | .errorResult _ => some source
  | .panic => none

/-- States of the main loop, from one in which the first of the remaining tokens is about to be dealt with to later ones. -/
inductive Reaches (env : Env) : PSt → PSt → Prop where
  | refl (st : PSt) : Reaches env st st
  | step {st st₁ st₂ st₃ : PSt} {t : Tok} {f : Nat} : pNext st = some (t, st₁) → pStep env f t st₁ = .next st₂ → Reaches env st₂ st₃ →
      Reaches env st st₃

/-- The text written so far. -/
def written (st : PSt) : Str := joinLines (st.out ++ [st.line])

end Verif.Pre.Spec
