/-!
# Tokens and macros

Tokens as the external lexer (`sourcepawn_lexer` 0.2) delivers them, `crates/preprocessor/src/{token,symbol}.rs`, and `Macro`
(`preprocessor/src/lib.rs:80-87`). The lexer itself is not part of the repository; a source file is modelled as the list of
tokens it yields. Simplification: `text()` and `inline_text()` are one field (line continuations inside a token are not
modelled). Token kinds the preprocessor does not distinguish are `other n`.
-/

namespace Verif.Pre

abbrev Str := List Char

/-- `sourcepawn_lexer::Operator`, as far as it is distinguished. -/
inductive Op where
  | not | tilde | star | slash | percent | minus | plus | shl | shr | ushr | ampersand | bitxor | bitor
  | lt | le | gt | ge | equals | notEquals | and | or
  | stringize
  | other (n : Nat)
  deriving DecidableEq, Repr

/-- `sourcepawn_lexer::PreprocDir`. -/
inductive Dir where
  | if_ | elseif | else_ | endif | define | undef | include_ | tryinclude | other (n : Nat)
  deriving DecidableEq, Repr

/-- `sourcepawn_lexer::TokenKind`. `numLit` is a binary, hexadecimal or octal literal. -/
inductive Kind where
  | lparen | rparen | lbracket | rbracket | lbrace | rbrace | comma | semicolon | dot | newline | lineContinuation | blockComment | lineComment | eof
  | op (o : Op)
  | true_ | false_ | intLit | numLit | charLit | strLit | otherLit
  | dir (d : Dir)
  | defined | ident | using_ | intrinsics | unknown
  | other (n : Nat)
  deriving DecidableEq, Repr

structure Pos where
  line : Nat
  char : Nat
  deriving DecidableEq, Repr

structure Rng where
  s : Pos
  e : Pos
  deriving DecidableEq, Repr

/-- `sourcepawn_lexer::Delta`. -/
structure Delta where
  line : Int
  col  : Int
  deriving DecidableEq, Repr

/-- `sourcepawn_lexer::Symbol`. `val` is the result of `to_int()`; `inPre` is what
`lexer.in_preprocessor()` returns just before the token is lexed (is the token part of a directive line?). -/
structure Sym where
  kind  : Kind
  text  : Str
  range : Rng
  delta : Delta
  val   : Option Int
  inPre : Bool
  deriving DecidableEq, Repr

/-- `Token` (token.rs:5-8). -/
structure Tok where
  sym  : Sym
  orig : Option Rng
  deriving DecidableEq, Repr

def Tok.kind (t : Tok) : Kind := t.sym.kind
def Tok.text (t : Tok) : Str := t.sym.text

/-- `From<Symbol> for Token` (token.rs:10-17). -/
def Sym.tok (s : Sym) : Tok := ⟨s, none⟩

/-- `set_delta` (token.rs:36-38). -/
def Tok.setDelta (t : Tok) (d : Delta) : Tok := { t with sym := { t.sym with delta := d } }

/-- `RangeLessSymbol` (symbol.rs:10-14). -/
structure RSym where
  kind  : Kind
  text  : Str
  delta : Delta
  val   : Option Int
  deriving DecidableEq, Repr

/-- `From<Symbol> for RangeLessSymbol` (symbol.rs:30-38). -/
def Sym.rangeLess (s : Sym) : RSym := ⟨s.kind, s.text, s.delta, s.val⟩

/-- `to_symbol` (symbol.rs:41-53); `saturating_add_signed` clamps at 0 (the upper bound of `u32` is not modelled). -/
def RSym.toSym (r : RSym) (prev : Rng) : Sym :=
  ⟨r.kind, r.text, ⟨prev.e, ⟨(Int.ofNat prev.e.line + r.delta.line).toNat, (Int.ofNat prev.e.char + r.delta.col).toNat⟩⟩, r.delta, r.val, false⟩

/-- `Macro` (lib.rs:80-87). -/
structure Macro where
  fileId   : Nat
  idx      : Nat
  params   : Option (List Int)
  nbParams : Nat
  body     : List RSym
  deriving DecidableEq, Repr

/-- `MacrosMap` (lib.rs:49). -/
abbrev Macros := Str → Option Macro

/-- `QueuedToken` (macros.rs:20-27). -/
structure QTok where
  tok   : Tok
  delta : Delta
  deriving DecidableEq, Repr

end Verif.Pre
