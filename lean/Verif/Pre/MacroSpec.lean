import Verif.Pre.Token
/-!
# Specification of macro expansion
-/

namespace Verif.Pre.Spec

/-- What of a token matters: its kind and its text. -/
abbrev KT := Kind × Str

def ofTok (t : Tok) : KT := (t.kind, t.text)
def ofSym (s : Sym) : KT := (s.kind, s.text)
def ofRSym (r : RSym) : KT := (r.kind, r.text)

/-- Comments and line breaks in a macro body are not part of the expansion. -/
def Blank (k : Kind) : Prop := k = .newline ∨ k = .lineContinuation ∨ k = .blockComment ∨ k = .lineComment

instance (k : Kind) : Decidable (Blank k) := by unfold Blank; infer_instance

/-- `Full macros d ts r`: replacing in `ts` every object-like macro by its body, and the macros in it in turn, gives `r`; `d` bounds
the nesting of replacements. -/
inductive Full (macros : Macros) : Nat → List KT → List KT → Prop where
  | nil {d : Nat} : Full macros d [] []
  | use {d : Nat} {x : Str} {m : Macro} {ts b r : List KT} : macros x = some m → m.params = none →
      Full macros d (m.body.map ofRSym) b → Full macros (d + 1) ts r → Full macros (d + 1) ((.ident, x) :: ts) (b ++ r)
  | undefined {d : Nat} {x : Str} {ts r : List KT} : macros x = none → Full macros d ts r → Full macros d ((.ident, x) :: ts) ((.ident, x) :: r)
  | blank {d : Nat} {k : Kind} {x : Str} {ts r : List KT} : Blank k → Full macros d ts r → Full macros d ((k, x) :: ts) r
  | keep {d : Nat} {k : Kind} {x : Str} {ts r : List KT} : k ≠ .ident → ¬ Blank k → Full macros d ts r → Full macros d ((k, x) :: ts) ((k, x) :: r)

/-- Tokens with balanced parentheses. -/
inductive Balanced : List Tok → Prop where
  | nil : Balanced []
  | tok {t : Tok} {ts : List Tok} : t.kind ≠ .lparen → t.kind ≠ .rparen → Balanced ts → Balanced (t :: ts)
  | group {l r : Tok} {ts us : List Tok} : l.kind = .lparen → r.kind = .rparen → Balanced ts → Balanced us → Balanced (l :: ts ++ r :: us)

/-- One argument of a call: balanced, with no comma outside parentheses. -/
inductive Argument : List Tok → Prop where
  | nil : Argument []
  | tok {t : Tok} {ts : List Tok} : t.kind ≠ .lparen → t.kind ≠ .rparen → t.kind ≠ .comma → Argument ts → Argument (t :: ts)
  | group {l r : Tok} {ts us : List Tok} : l.kind = .lparen → r.kind = .rparen → Balanced ts → Argument us → Argument (l :: ts ++ r :: us)

/-- Arguments separated by commas. -/
inductive Separated : List (List Tok) → List Tok → Prop where
  | one {a : List Tok} : Separated [a] a
  | cons {a ts : List Tok} {as : List (List Tok)} {c : Tok} : c.kind = .comma → Separated as ts → Separated (a :: as) (a ++ c :: ts)

/-- Pieces of the body of a function-like macro. -/
inductive Piece where
  /-- an ordinary token -/
  | plain (r : RSym)
  /-- `%n` -/
  | param (pct lit : RSym) (n : Nat)
  /-- `#%n` -/
  | quoted (hash pct lit : RSym) (n : Nat)
  /-- `%%` followed by an ordinary token -/
  | escaped (p₁ p₂ next : RSym)

def Piece.tokens : Piece → List RSym
  | .plain r => [r]
  | .param p l _ => [p, l]
  | .quoted h p l _ => [h, p, l]
  | .escaped p₁ p₂ x => [p₁, p₂, x]

def Ordinary (r : RSym) : Prop := r.kind ≠ .op .percent ∧ r.kind ≠ .op .stringize

/-- The tokens are what the piece says. -/
def Piece.WF (params : List Int) : Piece → Prop
  | .plain r => Ordinary r
  | .param p l n => p.kind = .op .percent ∧ l.kind = .intLit ∧ l.val = some (n : Int) ∧ ∃ a : Nat, a < 10 ∧ n < 10 ∧ params[n]? = some (a : Int)
  | .quoted h p l n => h.kind = .op .stringize ∧ p.kind = .op .percent ∧ l.kind = .intLit ∧ l.val = some (n : Int) ∧
      ∃ a : Nat, a < 10 ∧ n < 10 ∧ params[n]? = some (a : Int)
  | .escaped p₁ p₂ x => p₁.kind = .op .percent ∧ p₂.kind = .op .percent ∧ Ordinary x

/-- Text of an argument turned into a string: its tokens, with the blanks that separated them. -/
def quotedText : List Tok → Str
  | [] => []
  | t :: ts => t.text ++ (ts.map fun u => List.replicate u.sym.delta.col.toNat ' ' ++ u.text).flatten

/-- What a piece becomes, `arg n` being the argument given for `%n`. -/
def Piece.result (arg : Nat → List Tok) : Piece → List KT
  | .plain r => [ofRSym r]
  | .param _ _ n => (arg n).map ofTok
  | .quoted _ _ _ n => [(.strLit, '"' :: (quotedText (arg n) ++ ['"']))]
  | .escaped p _ x => [ofRSym p, ofRSym x]

/-! ### Calls inside of expansions -/

/-- `Balanced`, `Argument` and `Separated` for kinds and texts. -/
inductive BalancedK : List KT → Prop where
  | nil : BalancedK []
  | tok {t : KT} {ts : List KT} : t.1 ≠ .lparen → t.1 ≠ .rparen → BalancedK ts → BalancedK (t :: ts)
  | group {l r : KT} {ts us : List KT} : l.1 = .lparen → r.1 = .rparen → BalancedK ts → BalancedK us → BalancedK (l :: ts ++ r :: us)

inductive ArgumentK : List KT → Prop where
  | nil : ArgumentK []
  | tok {t : KT} {ts : List KT} : t.1 ≠ .lparen → t.1 ≠ .rparen → t.1 ≠ .comma → ArgumentK ts → ArgumentK (t :: ts)
  | group {l r : KT} {ts us : List KT} : l.1 = .lparen → r.1 = .rparen → BalancedK ts → ArgumentK us → ArgumentK (l :: ts ++ r :: us)

inductive SeparatedK : List (List KT) → List KT → Prop where
  | one {a : List KT} : SeparatedK [a] a
  | cons {a ts : List KT} {as : List (List KT)} {c : KT} : c.1 = .comma → SeparatedK as ts → SeparatedK (a :: as) (a ++ c :: ts)

/-- The argument given for `%n`: `params` says at which place the parameter `%n` is declared. -/
def givenK (params : List Int) (as : List (List KT)) (n : Nat) : List KT := as.getD ((params[n]?).getD 0).toNat []

/-- What a piece becomes. -/
def Piece.resultK (arg : Nat → List KT) : Piece → List KT
  | .plain r => [ofRSym r]
  | .param _ _ n => arg n
  | .quoted _ _ _ n => [(.strLit, '"' :: ((arg n).flatMap (·.2) ++ ['"']))]
  | .escaped p _ x => [ofRSym p, ofRSym x]

/-- The definition is written on one line, its tokens one after the other. -/
def OneLine (m : Macro) : Prop := ∀ r ∈ m.body, r.delta.line = 0 ∧ 0 ≤ r.delta.col

instance (m : Macro) : Decidable (OneLine m) := by unfold OneLine; infer_instance

/-- The body of `m` is made of `pieces`; a line break at its end is left out. -/
def MadeOf (m : Macro) (params : List Int) (pieces : List Piece) : Prop :=
  (∀ p ∈ pieces, p.WF params) ∧ ∃ fin, m.body = pieces.flatMap Piece.tokens ++ fin ∧
    ((∃ nl : RSym, nl.kind = .newline ∧ fin = [nl]) ∨ (fin = [] ∧ ∀ r, m.body.getLast? = some r → r.kind ≠ .newline))

/-- `Deep macros d ts r`: replacing in `ts` every use of a macro without parameters by its body and every call of a macro with parameters by the body with the
arguments in the places of the parameters, and the macros in it in turn, gives `r`; `d` bounds the nesting of replacements. An argument taken as a string is
one token (of more than one, the code forgets the blanks in some cases, see `nested_string_refuted`). -/
inductive Deep (macros : Macros) : Nat → List KT → List KT → Prop where
  | nil {d : Nat} : Deep macros d [] []
  | use {d : Nat} {x : Str} {m : Macro} {ts b r : List KT} : macros x = some m → m.params = none → OneLine m →
      Deep macros d (m.body.map ofRSym) b → Deep macros (d + 1) ts r → Deep macros (d + 1) ((.ident, x) :: ts) (b ++ r)
  | call {d : Nat} {x : Str} {m : Macro} {params : List Int} {o c : KT} {mid : List KT} {as : List (List KT)} {pieces : List Piece} {ts b r : List KT} :
      macros x = some m → m.params = some params → OneLine m → o.1 = .lparen → c.1 = .rparen → SeparatedK as mid → as.length ≤ m.nbParams →
      (∀ (i : Nat) (a : List KT), as[i]? = some a → ArgumentK a ∨ (i + 1 = m.nbParams ∧ BalancedK a)) → MadeOf m params pieces →
      (∀ h p l n, Piece.quoted h p l n ∈ pieces → (givenK params as n).length ≤ 1) →
      Deep macros d (pieces.flatMap (Piece.resultK (givenK params as))) b → Deep macros (d + 1) ts r →
      Deep macros (d + 1) ((.ident, x) :: o :: (mid ++ c :: ts)) (b ++ r)
  | undefined {d : Nat} {x : Str} {ts r : List KT} : macros x = none → Deep macros d ts r → Deep macros d ((.ident, x) :: ts) ((.ident, x) :: r)
  | blank {d : Nat} {k : Kind} {x : Str} {ts r : List KT} : Blank k → Deep macros d ts r → Deep macros d ((k, x) :: ts) r
  | keep {d : Nat} {k : Kind} {x : Str} {ts r : List KT} : k ≠ .ident → ¬ Blank k → Deep macros d ts r → Deep macros d ((k, x) :: ts) ((k, x) :: r)

/-- The token stays, or it names a macro whose body starts with a token for which the same holds. In the body of a macro with parameters this token is neither part
of a parameter nor a number. -/
inductive Leads (macros : Macros) : Kind → Str → Prop where
  | stays {k : Kind} {x : Str} : ¬ Blank k → x ≠ [] → (k = .ident → macros x = none) → Leads macros k x
  | body {x : Str} {m : Macro} {r : RSym} {rs : List RSym} : macros x = some m → m.body = r :: rs → (m.params ≠ none → Ordinary r ∧ r.kind ≠ .intLit) →
      Leads macros r.kind r.text → Leads macros .ident x

end Verif.Pre.Spec
