import Verif.TextSync.Model
/-!
# Specification of document synchronisation (LSP 3.17, `TextDocumentContentChangeEvent`)

Positions are resolved by walking the text; no line table, no byte offsets.
-/

namespace Verif.TextSync.Spec
open Verif.TextSync

/-- Number of code units of a character in the negotiated encoding. -/
def units : Encoding → Char → Nat
  | .utf8, c => c.utf8Size
  | .utf16, c => if c.utf8Size = 4 then 2 else 1
  | .utf32, _ => 1

/-- Split after `n` complete lines; `none` if the text has fewer. -/
def skipLines : Nat → Text → Option (Text × Text)
  | 0, t => some ([], t)
  | _ + 1, [] => none
  | n + 1, c :: cs =>
    (skipLines (if c = '\n' then n else n + 1) cs).map (fun r => (c :: r.1, r.2))

/-- Split at a column of the first line. A column past the end of the line means the end of the line (LSP). A column
inside a character is no position. -/
def splitCol (enc : Encoding) : Nat → Text → Option (Text × Text)
  | 0, t => some ([], t)
  | _ + 1, [] => some ([], [])
  | n + 1, c :: cs =>
    if c = '\n' then some ([], c :: cs)
    else if units enc c ≤ n + 1 then
      (splitCol enc (n + 1 - units enc c) cs).map (fun r => (c :: r.1, r.2))
    else none

/-- The text before and after a position. -/
def splitAt (enc : Encoding) (t : Text) (p : Pos) : Option (Text × Text) :=
  match skipLines p.line t with
  | none => none
  | some (a, r) => (splitCol enc p.col r).map (fun x => (a ++ x.1, x.2))

/-- One content change. A range that does not denote a place of the text is ignored. -/
def applyOne (enc : Encoding) (t : Text) (c : Change) : Text :=
  match c.range with
  | none => c.text
  | some r =>
    match splitAt enc t r.start, splitAt enc t r.stop with
    | some (a, _), some (a', b) => if a.length ≤ a'.length then a ++ c.text ++ b else t
    | _, _ => t

/-- The changes of a batch are applied one after the other. -/
def applyAll (enc : Encoding) (t : Text) (cs : List Change) : Text := cs.foldl (applyOne enc) t

/-- The column of `p` is a real column of its line (not past its end, not inside a character). -/
def ValidPos (enc : Encoding) (t : Text) (p : Pos) : Prop :=
  ∃ a line rest, skipLines p.line t = some (a, line ++ rest) ∧ '\n' ∉ line ∧ (line.map (units enc)).sum = p.col

/-- `p` is not after `q`. -/
def Pos.le (p q : Pos) : Prop := p.line < q.line ∨ (p.line = q.line ∧ p.col ≤ q.col)

/-- A range that denotes a piece of the text. -/
def ValidRange (enc : Encoding) (t : Text) (r : Range) : Prop :=
  ValidPos enc t r.start ∧ ValidPos enc t r.stop ∧ Pos.le r.start r.stop

/-- Every ranged change of a batch denotes a piece of the text it is applied to. -/
def ValidBatch (enc : Encoding) : Text → List Change → Prop
  | _, [] => True
  | t, c :: cs => (∀ r, c.range = some r → ValidRange enc t r) ∧ ValidBatch enc (applyOne enc t c) cs

end Verif.TextSync.Spec

namespace Verif.TextSync.Spec
open Verif.TextSync

/-- The loop of a server that rebuilds its line table before every single edit; `none` = panic. -/
def naiveLoop (enc : Encoding) : Text → List Change → Option Text
  | t, [] => some t
  | t, c :: cs =>
    match c.range with
    | none => naiveLoop enc t cs
    | some r =>
      match textRange enc (LineIndex.new t) r with
      | none => naiveLoop enc t cs
      | some (a, b) =>
        match replaceRange t a b c.text with
        | none => none
        | some t' => naiveLoop enc t' cs

end Verif.TextSync.Spec
