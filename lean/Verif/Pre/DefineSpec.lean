import Verif.Pre.Main
import Verif.Pre.MacroSpec
/-!
# Definitions of macros with parameters, as they are written
-/

namespace Verif.Pre.Spec
open Verif.Pre

/-- `%d₁,%d₂,…` without blanks. -/
inductive ParamToks : List Nat → List Sym → Prop where
  | one {d : Nat} {p l : Sym} : p.kind = .op .percent → p.delta.col = 0 → l.kind = .intLit → l.delta.col = 0 → l.val = some (d : Int) → ParamToks [d] [p, l]
  | cons {d : Nat} {ds : List Nat} {p l c : Sym} {ts : List Sym} : p.kind = .op .percent → p.delta.col = 0 → l.kind = .intLit → l.delta.col = 0 →
      l.val = some (d : Int) → c.kind = .comma → c.delta.col = 0 → ParamToks ds ts → ParamToks (d :: ds) (p :: l :: c :: ts)

/-- `NAME(%d₁,%d₂,…)body` -/
inductive DefineToks (name : Str) (ds : List Nat) (body : List Sym) : List Sym → Prop where
  | mk {n l r : Sym} {ps : List Sym} : n.kind = .ident → n.text = name → name ≠ [] → l.kind = .lparen → l.delta.col = 0 → ParamToks ds ps → r.kind = .rparen →
      r.delta.col = 0 → DefineToks name ds body (n :: l :: (ps ++ r :: body))

/-- The directive ends: at the end of the file, or with the first token that does not belong to it. -/
def DirectiveEnds : List Sym → Prop
  | [] => True
  | s :: _ => s.kind = .eof ∨ s.inPre = false

/-- The tokens are what the piece says, for a macro with parameters `ds`. -/
def Piece.Over (ds : List Nat) : Piece → Prop
  | .plain r => Ordinary r
  | .param p l n => p.kind = .op .percent ∧ l.kind = .intLit ∧ l.val = some (n : Int) ∧ n ∈ ds
  | .quoted h p l n => h.kind = .op .stringize ∧ p.kind = .op .percent ∧ l.kind = .intLit ∧ l.val = some (n : Int) ∧ n ∈ ds
  | .escaped p₁ p₂ x => p₁.kind = .op .percent ∧ p₂.kind = .op .percent ∧ Ordinary x

end Verif.Pre.Spec
