import Verif.Pre.Position
import Verif.Pre.LinesSpec
import Verif.Pre.DefineSpec
import Verif.Pre.MacroSpec
/-!
# Files for which positions are followed through the preprocessor

A file is given line by line: code, definitions, includes, conditional directives and code that is not compiled. `File` says what is in force where.
-/

namespace Verif.Pre.Spec
open Verif.Pre

/-- Tokens that are copied as they are (an identifier if it is not the name of a macro). -/
def PlainKind : Kind → Prop
  | .dir (.other _) => True
  | .newline | .eof | .dir _ | .unknown | .using_ | .intrinsics => False
  | _ => True

/-! ### Uses of macros -/

/-- The names that are met when `x` is expanded. -/
inductive Needs (ms : Macros) (x : Str) : Str → Prop where
  | self : Needs ms x x
  | body {y : Str} {m : Macro} {r : RSym} : Needs ms x y → ms y = some m → r ∈ m.body → r.kind = .ident → Needs ms x r.text

/-- The macros met when `x` is expanded have no parameters, and consist of tokens of kind `K` and of tokens that are left out. -/
def Simple (K : Kind → Prop) (ms : Macros) (x : Str) : Prop :=
  ∀ y m, Needs ms x y → ms y = some m → m.params = none ∧ ∀ r ∈ m.body, 0 ≤ r.delta.col ∧ (K r.kind ∨ Dropped r.kind)

/-- The expansion of `x` starts with the first token of its body, or of the macro named by this token, and so on, at most `d` times. -/
def Starts (ms : Macros) : Nat → Str → Prop
  | 0, _ => False
  | d + 1, x => ∃ m r rs, ms x = some m ∧ m.body = r :: rs ∧ ¬ Dropped r.kind ∧ r.text ≠ [] ∧ (r.kind = .ident → ms r.text ≠ none → Starts ms d r.text)

/-- Is the token the name of a macro? -/
def IsUse (ms : Macros) (s : Sym) : Prop := s.kind = .ident ∧ ms s.text ≠ none

instance (ms : Macros) (s : Sym) : Decidable (IsUse ms s) := inferInstanceAs (Decidable (_ ∧ _))

/-- A use of a macro: its name and, in a call, the tokens of the arguments from the opening parenthesis to the closing one. -/
structure Use where
  name : Sym
  args : List Sym

/-- The column at which a use ends. -/
def Use.stop (u : Use) : Nat := ((u.args.getLast?).getD u.name).range.e.char

/-- The tokens between the parentheses. -/
def Use.inner (u : Use) : List Sym := u.args.tail.dropLast

/-- The names of macros among the tokens, without arguments. -/
def usesOf (ms : Macros) (toks : List Sym) : List Use := (toks.filter fun s => IsUse ms s).map fun s => ⟨s, []⟩

/-- What is given for `%n` in a call with the arguments `as`, `params` being the positions of the parameters. -/
def given (params : List Int) (as : List (List Tok)) (n : Nat) : List Tok := as.getD ((params[n]?).getD 0).toNat []

/-- The token stays, or the macro it names starts with a token that stays. -/
def Begins (ms : Macros) (k : Kind) (x : Str) : Prop := ¬ Dropped k ∧ x ≠ [] ∧ (k = .ident → ms x ≠ none → Starts ms 3 x)

/-- What a call becomes starts with a token that is in `B`: one of the body that is not a number, or an argument; or with an argument as a string. -/
def Opens (B : Kind → Str → Prop) (arg : Nat → List Tok) : List Piece → Prop
  | .plain r :: _ => r.kind ≠ .intLit ∧ B r.kind r.text
  | .param _ _ n :: _ => ∃ t ts, arg n = t :: ts ∧ B t.kind t.text
  | .quoted _ _ _ _ :: _ => True
  | _ => False

/-- `s` and the tokens `args` are a call of the macro `m`, with the arguments `as`. The body of the macro is made of `pieces`. Arguments and body are
plain, and the macros named in them simple. -/
structure Call (ms : Macros) (s : Sym) (args : List Sym) (m : Macro) (params : List Int) (as : List (List Tok)) (pieces : List Piece) : Prop where
  kind : s.kind = .ident
  isMacro : ms s.text = some m
  isParams : m.params = some params
  tokens : ∃ l mid r, args = l :: (mid ++ [r]) ∧ l.kind = .lparen ∧ l.delta.col = 0 ∧ r.kind = .rparen ∧ Separated as (mid.map Sym.tok) ∧
    ∀ x ∈ mid, PlainKind x.kind ∧ (IsUse ms x → Simple PlainKind ms x.text)
  enough : as.length ≤ m.nbParams
  arguments : ∀ (i : Nat) (a : List Tok), as[i]? = some a → Argument a ∨ (i + 1 = m.nbParams ∧ Balanced a)
  wf : ∀ p ∈ pieces, p.WF params
  body : ∃ fin, m.body = pieces.flatMap Piece.tokens ++ fin ∧
    ((∃ nl : RSym, nl.kind = .newline ∧ fin = [nl]) ∨ (fin = [] ∧ ∀ r, m.body.getLast? = some r → r.kind ≠ .newline))
  plain : ∀ r ∈ m.body, 0 ≤ r.delta.col ∧ (PlainKind r.kind ∨ Dropped r.kind) ∧ (r.kind = .ident → Simple PlainKind ms r.text)
  opens : Opens (Begins ms) (given params as) pieces

/-- `s` and the tokens `args` are a call of the macro `m`, with the arguments `as`. The body of the macro is made of `pieces`. With the arguments put in, it is
made of plain tokens, uses of macros, and calls, whose definitions are written on one line. -/
structure DeepCall (ms : Macros) (s : Sym) (args : List Sym) (m : Macro) (params : List Int) (as : List (List Tok)) (pieces : List Piece) : Prop where
  kind : s.kind = .ident
  isMacro : ms s.text = some m
  isParams : m.params = some params
  oneLine : OneLine m
  tokens : ∃ l mid r, args = l :: (mid ++ [r]) ∧ l.kind = .lparen ∧ l.delta.col = 0 ∧ r.kind = .rparen ∧ Separated as (mid.map Sym.tok)
  enough : as.length ≤ m.nbParams
  arguments : ∀ (i : Nat) (a : List Tok), as[i]? = some a → Argument a ∨ (i + 1 = m.nbParams ∧ Balanced a)
  made : MadeOf m params pieces
  plain : ∃ d r, d ≤ 3 ∧ Deep ms d (pieces.flatMap (Piece.result (given params as))) r ∧ ∀ k ∈ r, PlainKind k.1
  opens : Opens (Leads ms) (given params as) pieces

/-- The macros named by `x`, by their bodies, and so on are nested at most `d` deep. -/
def Fits (ms : Macros) : Nat → Str → Prop
  | 0, x => ms x = none
  | d + 1, x => ∀ m, ms x = some m → ∀ r ∈ m.body, r.kind = .ident → Fits ms d r.text

/-- The token `x` is part of an argument for a parameter that is used in the body as it is. It is neither a literal of characters nor the name of a macro. -/
structure Passed (ms : Macros) (m : Macro) (params : List Int) (as : List (List Tok)) (pieces : List Piece) (x : Sym) : Prop where
  used : ∃ p l n, Piece.param p l n ∈ pieces ∧ x.tok ∈ given params as n
  kind : ¬ Dropped x.kind ∧ x.kind ≠ .strLit ∧ x.kind ≠ .charLit ∧ (x.kind = .ident → ms x.text = none)

/-- The macros met in a call are not nested too deep. -/
def Shallow (ms : Macros) (m : Macro) (as : List (List Tok)) : Prop :=
  (∀ r ∈ m.body, r.kind = .ident → Fits ms 3 r.text) ∧ ∀ a ∈ as, ∀ t ∈ a, t.kind = .ident → Fits ms 3 t.text

/-- The token `x` of an argument appears in what the call becomes. -/
def Copied (ms : Macros) (u : Use) (x : Sym) : Prop :=
  ∃ m params as pieces, Call ms u.name u.args m params as pieces ∧ Shallow ms m as ∧ Passed ms m params as pieces x

/-! ### Lines -/

/-- The text `x` is at column `c` of `txt`. -/
def Found (txt : Str) (c : Nat) (x : Str) : Prop := ∃ a b, txt = a ++ (x ++ b) ∧ a.length = c

/-- A blank is shown as a space. -/
def shown (c : Char) : Char := if c = '\t' then ' ' else c

def Blanks (ws : Str) : Prop := ∀ b ∈ ws, shown b = ' '

/-- `Placed n c toks src`: the tokens are on line `n` from column `c` on, one after the other with blanks in between, and their text is `src`. -/
inductive Placed (n : Nat) : Nat → List Sym → Str → Prop where
  | nil {c : Nat} : Placed n c [] []
  | cons {c : Nat} {ws : Str} {s : Sym} {ss : List Sym} {rest : Str} : Blanks ws → s.text ≠ [] → s.delta.col = Int.ofNat ws.length →
      s.range = ⟨⟨n, c + ws.length⟩, ⟨n, c + ws.length + s.text.length⟩⟩ → Placed n (c + ws.length + s.text.length) ss rest →
      Placed n c (s :: ss) (ws ++ (s.text ++ rest))

/-- Code in which every use of a macro has a simple expansion that is not empty, and its uses. In the expansions of `deepUse` and `deepCall`, macros with
parameters are called. -/
inductive Code (ms : Macros) : List Sym → List Use → Prop where
  | nil : Code ms [] []
  | plain {s : Sym} {ss : List Sym} {us : List Use} : PlainKind s.kind → ¬ IsUse ms s → Code ms ss us → Code ms (s :: ss) us
  | use {s : Sym} {ss : List Sym} {us : List Use} : IsUse ms s → Simple PlainKind ms s.text → Starts ms 4 s.text → Code ms ss us →
      Code ms (s :: ss) (⟨s, []⟩ :: us)
  | call {s : Sym} {args ss : List Sym} {us : List Use} {m : Macro} {params : List Int} {as : List (List Tok)} {pieces : List Piece} :
      Call ms s args m params as pieces → Code ms ss us → Code ms (s :: (args ++ ss)) (⟨s, args⟩ :: us)
  | deepUse {s : Sym} {ss : List Sym} {us : List Use} {m : Macro} {d : Nat} {r : List KT} : s.kind = .ident → ms s.text = some m → m.params = none → d ≤ 4 →
      Deep ms d [ofSym s] r → (∀ k ∈ r, PlainKind k.1) → Leads ms .ident s.text → Code ms ss us → Code ms (s :: ss) (⟨s, []⟩ :: us)
  | deepCall {s : Sym} {args ss : List Sym} {us : List Use} {m : Macro} {params : List Int} {as : List (List Tok)} {pieces : List Piece} :
      DeepCall ms s args m params as pieces → Code ms ss us → Code ms (s :: (args ++ ss)) (⟨s, args⟩ :: us)

/-- The tokens are one after the other with blanks in between, and their text is `text`, which may have several lines. -/
inductive Laid : List Sym → Str → Prop where
  | nil : Laid [] []
  | cons {ws : Str} {s : Sym} {ss : List Sym} {rest : Str} : Blanks ws → s.delta.col = Int.ofNat ws.length → Laid ss rest →
      Laid (s :: ss) (ws ++ (s.text ++ rest))

/-- The line break at the end of line `n`, after the blanks `ws`. -/
structure LineEnd (n : Nat) (ws : Str) (e : Sym) : Prop where
  kind : e.kind = .newline
  line : e.range.s.line = n
  next : e.range.e.line = n + 1
  blanks : Blanks ws
  delta : e.delta.col = Int.ofNat ws.length

/-! ### Definitions -/

/-- What is defined by the tokens after `#define`: the name and the macro. -/
inductive Defines (fileId idx : Nat) : List Sym → Str → Macro → Prop where
  | object {n : Sym} {body : List Sym} : n.kind = .ident → n.text ≠ [] → (∀ p ∈ body.head?, ¬ (p.kind = .lparen ∧ p.delta.col = 0)) →
      Defines fileId idx (n :: body) n.text ⟨fileId, idx, none, 0, body.map Sym.rangeLess⟩
  | function {name : Str} {ds : List Nat} {body toks : List Sym} {params : List Int} : DefineToks name ds body toks → ds.Nodup → (∀ x ∈ ds, x < 10) →
      params.length = 10 → (∀ x < 10, params[x]? = some (if x ∈ ds then (ds.idxOf x : Int) else -1)) →
      Defines fileId idx toks name ⟨fileId, idx, some params, ds.length, body.map Sym.rangeLess⟩

/-! ### Conditions -/

/-- Tokens of conditions. -/
def CondKind : Kind → Prop
  | .lparen | .rparen | .defined | .op _ | .true_ | .false_ | .intLit | .numLit | .charLit | .strLit | .otherLit | .blockComment | .lineComment | .ident => True
  | _ => False

/-- Tokens of the bodies of macros used in conditions. -/
def CondBody (k : Kind) : Prop := CondKind k ∧ k ≠ .defined

/-- The macros of a condition other than those after `defined` have simple expansions. `d`: is there a `defined` that waits for its name? -/
def Conditional (ms : Macros) : Bool → List Sym → Prop
  | _, [] => True
  | d, s :: ss => CondKind s.kind ∧ (s.kind = .ident → d = false → ms s.text ≠ none → Simple CondBody ms s.text) ∧
      Conditional ms (if s.kind = .defined then true else if s.kind = .ident then false else d) ss

/-- The condition of a line, up to its line break, has the value `b`. -/
structure Value (env : Env) (ms : Macros) (cond : List Sym) (e : Sym) (b : Bool) : Prop where
  shape : Conditional ms false cond
  value : ∃ f, evaluate env.profile ms [] (cond ++ [e]) f = some (.ok b)

/-! ### Files -/

/-- What is in force at the start of a line: the macros, the number of definitions read so far, and for each open conditional block, the innermost first,
whether its current branch is compiled (`active`), an earlier one was or none will be (`activated`), or none was so far. -/
structure Front where
  macros : Macros
  count  : Nat
  conds  : List Cond

/-- What becomes of a line: its text appears in the preprocessed text, or not, the latter for a condition that is evaluated or otherwise. `more`: the text
appears, and the line starts inside of a comment or a definition. -/
inductive LineKind where
  | shown | more | hidden | cond
  deriving DecidableEq

/-- A line of the file: its text, the macros in force and their uses on this line, and what becomes of it. -/
structure Line where
  src    : Str
  macros : Macros
  uses   : List Use
  kind   : LineKind

/-- The text of the line appears in the preprocessed text. -/
def Line.kept (l : Line) : Prop := l.kind = .shown ∨ l.kind = .more

/-- The number of lines without those of conditions that are evaluated and those that start inside of a comment or a definition. -/
def counted (lines : List Line) : Nat := (lines.filter fun l => l.kind ≠ .cond ∧ l.kind ≠ .more).length

/-- The lines of a text over several lines, with the uses on the first one. -/
def spread (ms : Macros) (us : List Use) : List Str → List Line
  | [] => []
  | t :: ts => ⟨t, ms, us, .shown⟩ :: ts.map fun t => ⟨t, ms, [], .more⟩

/-- The state of a block after `#else`. -/
def afterElse : Cond → Cond
  | .notActivated => .active
  | _ => .activated

/-- Tokens that do nothing where code is not compiled. -/
def SkippedKind : Kind → Prop
  | .newline | .eof | .dir .if_ | .dir .elseif | .dir .else_ | .dir .endif => False
  | _ => True

/-- A comment on one line. -/
def IsComment (s : Sym) : Prop := (s.kind = .blockComment ∨ s.kind = .lineComment) ∧ breaks s.text = 0

/-- The tokens are the rest of a directive line. -/
def InDirective (toks : List Sym) : Prop := ∀ s ∈ toks, s.inPre = true

/-- The next line does not belong to the directive. -/
def NewLine (rest : List Sym) : Prop := ∀ s ∈ rest.head?, s.inPre = false

/-- `File env n fr toks lines`: the tokens are those of a file from line `n` on, where `fr` is in force, and `lines` are its lines. -/
inductive File (env : Env) : Nat → Front → List Sym → List Line → Prop where
  /-- the last line -/
  | last {n : Nat} {fr : Front} {toks : List Sym} {us : List Use} {src ws : Str} {e : Sym} : skipping fr.conds = false → Placed n 0 toks src → Code fr.macros toks us →
      e.kind = .eof → e.range.s.line = n → Blanks ws → e.delta.col = Int.ofNat ws.length →
      File env n fr (toks ++ [e]) [⟨src ++ ws, fr.macros, us, .shown⟩]
  /-- a line of code -/
  | code {n : Nat} {fr : Front} {toks rest : List Sym} {us : List Use} {src ws : Str} {e : Sym} {ls : List Line} : skipping fr.conds = false → Placed n 0 toks src →
      Code fr.macros toks us → LineEnd n ws e → File env (n + 1) fr rest ls →
      File env n fr (toks ++ e :: rest) (⟨src ++ ws, fr.macros, us, .shown⟩ :: ls)
  /-- code with tokens of several lines (comments). There are no uses of macros from the first such token on. -/
  | comment {n : Nat} {fr : Front} {toks more rest : List Sym} {x : Sym} {us : List Use} {src text ws : Str} {e : Sym} {ls : List Line} :
      skipping fr.conds = false → Placed n 0 toks src → Code fr.macros toks us → breaks src = 0 → x.range.s.line = n → Laid (x :: more) text →
      (∀ s ∈ x :: more, PlainKind s.kind ∧ ¬ IsUse fr.macros s) → LineEnd (n + breaks text) ws e → File env (n + breaks text + 1) fr rest ls →
      File env n fr (toks ++ x :: (more ++ e :: rest)) (spread fr.macros us (splitLines (src ++ (text ++ ws))) ++ ls)
  /-- a line that is not compiled -/
  | skipped {n : Nat} {fr : Front} {toks rest : List Sym} {src ws : Str} {e : Sym} {ls : List Line} : skipping fr.conds = true →
      (∀ s ∈ toks, SkippedKind s.kind) → LineEnd n ws e → File env (n + 1) fr rest ls →
      File env n fr (toks ++ e :: rest) (⟨src, fr.macros, [], .hidden⟩ :: ls)
  /-- `#define` -/
  | define {n : Nat} {fr : Front} {d : Sym} {toks rest : List Sym} {src ws : Str} {e : Sym} {ls : List Line} {name : Str} {m : Macro} :
      skipping fr.conds = false → d.kind = .dir .define → Placed n 0 (d :: toks) src → (∀ s ∈ toks, s.kind ≠ .newline ∧ s.kind ≠ .eof) → LineEnd n ws e →
      InDirective (toks ++ [e]) → Defines env.fileId fr.count (toks ++ [e]) name m → NewLine rest →
      File env (n + 1) ⟨updateMacros fr.macros name (some m), fr.count + 1, fr.conds⟩ rest ls →
      File env n fr (d :: (toks ++ e :: rest)) (⟨src ++ ws, fr.macros, [], .shown⟩ :: ls)
  /-- `#define` over several lines -/
  | defineLong {n : Nat} {fr : Front} {d : Sym} {toks rest : List Sym} {text ws : Str} {e : Sym} {ls : List Line} {name : Str} {m : Macro} :
      skipping fr.conds = false → d.kind = .dir .define → Laid (d :: toks) text → (∀ s ∈ toks, s.kind ≠ .newline ∧ s.kind ≠ .eof) →
      LineEnd (n + breaks text) ws e → InDirective (toks ++ [e]) → Defines env.fileId fr.count (toks ++ [e]) name m → NewLine rest →
      File env (n + breaks text + 1) ⟨updateMacros fr.macros name (some m), fr.count + 1, fr.conds⟩ rest ls →
      File env n fr (d :: (toks ++ e :: rest)) (spread fr.macros [] (splitLines (text ++ ws)) ++ ls)
  /-- `#undef` -/
  | undef {n : Nat} {fr : Front} {d x : Sym} {rest : List Sym} {src ws : Str} {e : Sym} {ls : List Line} : skipping fr.conds = false →
      d.kind = .dir .undef → x.kind = .ident → x.inPre = true → Placed n 0 [d, x] src → LineEnd n ws e →
      File env (n + 1) ⟨updateMacros fr.macros x.text none, fr.count, fr.conds⟩ rest ls →
      File env n fr (d :: x :: e :: rest) (⟨src ++ ws, fr.macros, [], .shown⟩ :: ls)
  /-- `#include` and `#tryinclude`, with their line break -/
  | include {n : Nat} {fr : Front} {d : Sym} {rest : List Sym} {text ws : Str} {ls : List Line} : skipping fr.conds = false →
      (d.kind = .dir .include_ ∨ d.kind = .dir .tryinclude) → trim d.text = text → d.range.s.line = n → d.range.e.line = n + 1 → Blanks ws →
      d.delta.col = Int.ofNat ws.length → File env (n + 1) ⟨env.inc text fr.macros, fr.count, fr.conds⟩ rest ls →
      File env n fr (d :: rest) (⟨ws ++ text, fr.macros, [], .shown⟩ :: ls)
  /-- `#if` -/
  | «if» {n : Nat} {fr : Front} {d : Sym} {cond rest : List Sym} {src ws : Str} {e : Sym} {ls : List Line} {b : Bool} : skipping fr.conds = false →
      d.kind = .dir .if_ → Placed n 0 (d :: cond) src → LineEnd n ws e → InDirective (cond ++ [e]) → Value env fr.macros cond e b → NewLine rest →
      File env (n + 1) ⟨fr.macros, fr.count, (if b then .active else .notActivated) :: fr.conds⟩ rest ls →
      File env n fr (d :: (cond ++ e :: rest)) (⟨src ++ ws, fr.macros, usesOf fr.macros cond, .cond⟩ :: ls)
  /-- `#if` where code is not compiled -/
  | ifSkipped {n : Nat} {fr : Front} {d : Sym} {toks rest : List Sym} {src ws : Str} {e : Sym} {ls : List Line} : skipping fr.conds = true →
      d.kind = .dir .if_ → (∀ s ∈ toks, SkippedKind s.kind) → LineEnd n ws e → File env (n + 1) ⟨fr.macros, fr.count, .activated :: fr.conds⟩ rest ls →
      File env n fr (d :: (toks ++ e :: rest)) (⟨src, fr.macros, [], .hidden⟩ :: ls)
  /-- `#elseif` after branches that are not compiled -/
  | elseif {n : Nat} {fr : Front} {cs : List Cond} {d : Sym} {cond rest : List Sym} {src ws : Str} {e : Sym} {ls : List Line} {b : Bool} :
      fr.conds = .notActivated :: cs → d.kind = .dir .elseif → Placed n 0 (d :: cond) src → LineEnd n ws e → InDirective (cond ++ [e]) →
      Value env fr.macros cond e b → NewLine rest →
      File env (n + 1) ⟨fr.macros, fr.count, (if b then .active else .notActivated) :: cs⟩ rest ls →
      File env n fr (d :: (cond ++ e :: rest)) (⟨src ++ ws, fr.macros, usesOf fr.macros cond, .cond⟩ :: ls)
  /-- `#elseif` after a branch that was compiled -/
  | elseifSkipped {n : Nat} {fr : Front} {c : Cond} {cs : List Cond} {d : Sym} {toks rest : List Sym} {src ws : Str} {e : Sym} {ls : List Line} :
      fr.conds = c :: cs → c ≠ .notActivated → d.kind = .dir .elseif → (∀ s ∈ toks, SkippedKind s.kind) → LineEnd n ws e →
      File env (n + 1) ⟨fr.macros, fr.count, .activated :: cs⟩ rest ls →
      File env n fr (d :: (toks ++ e :: rest)) (⟨src, fr.macros, [], .hidden⟩ :: ls)
  /-- `#else`, a comment may follow -/
  | «else» {n : Nat} {fr : Front} {c : Cond} {cs : List Cond} {d : Sym} {toks rest : List Sym} {src ws : Str} {e : Sym} {ls : List Line} :
      fr.conds = c :: cs → d.kind = .dir .else_ → (∀ s ∈ toks, IsComment s) → LineEnd n ws e →
      File env (n + 1) ⟨fr.macros, fr.count, afterElse c :: cs⟩ rest ls →
      File env n fr (d :: (toks ++ e :: rest)) (⟨src, fr.macros, [], .hidden⟩ :: ls)
  /-- `#endif`, a comment may follow -/
  | «endif» {n : Nat} {fr : Front} {c : Cond} {cs : List Cond} {d : Sym} {toks rest : List Sym} {src ws : Str} {e : Sym} {ls : List Line} :
      fr.conds = c :: cs → d.kind = .dir .endif → (∀ s ∈ toks, IsComment s) → LineEnd n ws e → File env (n + 1) ⟨fr.macros, fr.count, cs⟩ rest ls →
      File env n fr (d :: (toks ++ e :: rest)) (⟨src, fr.macros, [], .hidden⟩ :: ls)

/-- The text is the tokens one after the other, with blanks in between. -/
inductive Spelled : List KT → Str → Prop where
  | one (k : KT) : Spelled [k] k.2
  | cons (k : KT) (n : Nat) {ks : List KT} {t : Str} : Spelled ks t → Spelled (k :: ks) (k.2 ++ (List.replicate n ' ' ++ t))

/-- What a use of a macro stands for: all macros are replaced in turn. The nesting of replacements is limited (C24). -/
inductive Means (ms : Macros) : Use → List KT → Prop where
  | name {s : Sym} {d : Nat} {full : List KT} : d ≤ 4 → Full ms d [ofSym s] full → Means ms ⟨s, []⟩ full
  | call {s : Sym} {args : List Sym} {m : Macro} {params : List Int} {as : List (List Tok)} {pieces : List Piece} {d : Nat} {full : List KT} :
      Call ms s args m params as pieces → d ≤ 3 → Full ms d (pieces.flatMap (Piece.result (given params as))) full → Means ms ⟨s, args⟩ full
  | deepName {s : Sym} {m : Macro} {d : Nat} {full : List KT} : s.kind = .ident → ms s.text = some m → m.params = none → d ≤ 4 → Deep ms d [ofSym s] full →
      Means ms ⟨s, []⟩ full
  | deepCall {s : Sym} {args : List Sym} {m : Macro} {params : List Int} {as : List (List Tok)} {pieces : List Piece} {d : Nat} {full : List KT} :
      DeepCall ms s args m params as pieces → d ≤ 3 → Deep ms d (pieces.flatMap (Piece.result (given params as))) full → Means ms ⟨s, args⟩ full

/-- No line has a line break in its text or in what its uses of macros stand for. -/
def Unbroken (lines : List Line) : Prop :=
  ∀ l ∈ lines, l.kept → breaks l.src = 0 ∧ ∀ u ∈ l.uses, ∃ full, Means l.macros u full ∧ ∀ k ∈ full, breaks k.2 = 0

end Verif.Pre.Spec
