import Verif.Pre.Position
import Verif.Lsp.SemTokens
import Mathlib.Data.List.Dedup
import Mathlib.Data.List.Sort

/-!
# Model of semantic highlighting

`highlight` (`crates/ide/src/syntax_highlighting.rs:104-151`), `to_proto::semantic_tokens` and the two handlers
(`crates/sourcepawn_lsp/src/handlers/request.rs:63-79, 122-134`). Only macro uses are highlighted. The map of offsets is a list in the order of insertion,
as in `Pre/Main`.
-/

namespace Verif.Ide.Highlight

open Verif.Pre
open Verif.Lsp.SemTokens (encode)

/-- The lines that have offsets, sorted (`sorted_by_key`, syntax_highlighting.rs:130-134). -/
def lines (offsets : List (Nat × Offset)) : List Nat := ((offsets.map Prod.fst).dedup).insertionSort (· ≤ ·)

/-- `highlight` for a range (syntax_highlighting.rs:128-148): the ranges, all as macros without modifiers. -/
def highlight (offsets : List (Nat × Offset)) (range : Rng) : List Rng :=
  (lines offsets).flatMap fun k => ((onLine offsets k).filter fun o => (intersect o.range range).isSome).map (·.range)

/-- The standard types of `SUPPORTED_TYPES` (semantic_tokens.rs:38-58), which come first. -/
def standardTypes : List String :=
  ["comment", "decorator", "enumMember", "enum", "function", "interface", "keyword", "macro", "method", "namespace", "number", "operator", "parameter",
   "property", "string", "struct", "typeParameter", "variable"]

/-- `type_index` (semantic_tokens.rs:268-270). -/
def typeIndex (t : String) : Nat := standardTypes.idxOf t

/-- The loop of `to_proto::semantic_tokens` (to_proto.rs:80-90). -/
def semanticTokens (hl : List Rng) : Option (List Verif.Lsp.SemTokens.Tok) := encode (hl.map fun r => ⟨r.s.line, r.s.char, r.e.char, typeIndex "macro", 0⟩)

/-- `handle_semantic_tokens_range`. -/
def rangeRequest (offsets : List (Nat × Offset)) (range : Rng) : Option (List Verif.Lsp.SemTokens.Tok) := semanticTokens (highlight offsets range)

/-- `handle_semantic_tokens_full`; `root` is the range of the root of the tree of the preprocessed text (syntax_highlighting.rs:124). -/
def fullRequest (root : Rng) (offsets : List (Nat × Offset)) : Option (List Verif.Lsp.SemTokens.Tok) := rangeRequest offsets root

end Verif.Ide.Highlight
