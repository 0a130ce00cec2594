import Verif.Ide.Goto
import Verif.Ide.Hover
import Verif.Ide.Markdown
/-!
# Model of hovering over a name

`hover` and `find_macro_hover` (`crates/ide/src/hover.rs:58-179`), with the names, trees and results of `Verif.Ide.Goto`, the text of an
expansion of `Verif.Ide.Hover` and the layout of `Verif.Ide.Markdown`. The comments of a definition (`Documentation::from_node`, see
`Verif.Ide.Docs`) are a parameter. Columns count characters, as there.
-/

namespace Verif.Ide.HoverDef

open Verif.Pre Verif.Ide.Goto

/-- A line of a text, empty if there is none. -/
def row (ls : List Str) (n : Nat) : Str := (ls[n]?).getD []

/-- `utf8_text` of a node (hover.rs:92, 129): the text of a range of the preprocessed text. -/
def region (ls : List Str) (r : Rng) : Str :=
  if r.s.line = r.e.line then ((row ls r.s.line).take r.e.char).drop r.s.char
  else (row ls r.s.line).drop r.s.char ++ '\n' :: (((ls.take r.e.line).drop (r.s.line + 1)).flatMap (· ++ ['\n']) ++ (row ls r.e.line).take r.e.char)

/-- The text of a hover over a macro (hover.rs:159-177). -/
def macroText (source : Str) : Option Str → Str
  | some t => Markdown.fencedBlock source ++ "\nExpands to:\n".toList ++ Markdown.fencedBlock t
  | none => Markdown.fencedBlock source

/-- `find_macro_hover` (hover.rs:118-179). -/
def macroHover {Def : Type} (S : Sema Def) (file : Nat) (pos : Pos) : Option (Rng × Str) := do
  let (o, d) ← macroAt S (S.results file).offsets pos
  let n ← S.source d (S.trees (S.fileOf d))
  some (o.range, macroText (region (textLines (S.results (S.fileOf d)).out) n.range) (Hover.hoverText (S.results file).out (S.results file).offsets pos o))

/-- The rest of `hover` (hover.rs:71-116). -/
def otherHover {Def : Type} (cl : Markdown.Classes) (S : Sema Def) (docs : Nat → Node → List Str) (documentation : Bool) (file : Nat) (pos : Pos) : Option (Rng × Str) := do
  let r := S.results file
  let m := uToS r.argsMap r.offsets pos
  let node := nodeAt m.1 (S.trees file)
  let d ← S.findDef file node
  let n ← S.source d (S.trees (S.fileOf d))
  some (m.2.getD (sToU r.offsets node.range),
    Markdown.hoverText cl documentation (region (textLines (S.results (S.fileOf d)).out) n.range) (docs (S.fileOf d) n))

/-- `hover` (hover.rs:58-116): the range and the text. -/
def hover {Def : Type} (cl : Markdown.Classes) (S : Sema Def) (docs : Nat → Node → List Str) (documentation : Bool) (file : Nat) (pos : Pos) : Option (Rng × Str) :=
  match macroHover S file pos with
  | some h => some h
  | none => otherHover cl S docs documentation file pos

namespace Spec

open Verif.Pre.Spec

/-- The lines of the range are code that is compiled and free of macros. -/
def Clear (lines : List Line) (r : Rng) : Prop := ∀ n, r.s.line ≤ n → n ≤ r.e.line → ∃ line, lines[n]? = some line ∧ line.kept ∧ line.uses = []

/-- The text of a range of the source, with tabs shown as spaces. -/
def inSource (lines : List Line) (r : Rng) : Str := (region (lines.map (·.src)) r).map shown

end Spec

end Verif.Ide.HoverDef
