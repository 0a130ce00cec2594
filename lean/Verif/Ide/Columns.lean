import Verif.Ide.Goto
import Verif.TextSync.Spec

/-!
# Model of the columns of requests and answers

`lsp_position_to_ts_point`, `point_to_lsp_position`, `ts_range_to_lsp_range` (`crates/syntax/src/utils.rs:8-33`) and `file_position`
(`crates/sourcepawn_lsp/src/lsp/from_proto.rs:69-78`), for the syntax tree of a text without macros (then the text the server sees is that of the user).
Columns of tree-sitter count bytes; those of the client count code units of the encoding both agreed on.
-/

namespace Verif.Ide.Columns

open Verif.Pre (Pos Rng)
open Verif.Ide.Goto

/-- `file_position` (from_proto.rs:69-78) and `lsp_position_to_ts_point` (utils.rs:19-24): the column is not converted. -/
def toPoint (p : Pos) : Pos := ⟨p.line, p.char⟩

/-- `point_to_lsp_position` (utils.rs:31-33). -/
def toPosition (p : Pos) : Pos := ⟨p.line, p.char⟩

/-- `ts_range_to_lsp_range` (utils.rs:8-12). -/
def toRange (r : Rng) : Rng := ⟨toPosition r.s, toPosition r.e⟩

/-- The token of a position and the range of the answer about it (goto_definition.rs:46-56, hover.rs:76-86, without macros). -/
def tokenAt (t : Node) (p : Pos) : Node × Rng :=
  let n := nodeAt (toPoint p) t
  (n, toRange n.range)

namespace Spec

open Verif.TextSync (Text Encoding)

/-- The column of the `k`-th character of a line: the code units of the characters before it. -/
def column (enc : Encoding) (line : Text) (k : Nat) : Nat := ((line.take k).map (TextSync.Spec.units enc)).sum

/-- The range of the characters from `i` to `j` of line `n`. -/
def range (enc : Encoding) (n : Nat) (line : Text) (i j : Nat) : Rng := ⟨⟨n, column enc line i⟩, ⟨n, column enc line j⟩⟩

/-- Only characters of ASCII before the `k`-th. -/
def Ascii (line : Text) (k : Nat) : Prop := ∀ c ∈ line.take k, c.toNat < 128

end Spec

end Verif.Ide.Columns
