import Verif.Text.Space

/-!
# Model of the documentation of a declaration

`Documentation::from_node` and `comment_to_doc` (`crates/ide-db/src/documentation.rs:25-83, 116-128`). Simplifications: a text that is not UTF-8 does not occur; the text of a pragma, which is never used, is left out.
-/

namespace Verif.Ide.Docs

abbrev Str := List Char

/-- `\s` -/
def isSpace (c : Char) : Bool := Text.whiteSpace c

/-- Removes what `^\s*/(?:\*)+\s*` matches (documentation.rs:118). -/
def stripOpen (t : Str) : Str :=
  match t.dropWhile isSpace with
  | '/' :: '*' :: r => (r.dropWhile (· = '*')).dropWhile isSpace
  | _ => t

/-- Removes what `\*/$` matches (documentation.rs:119). -/
def stripClose (t : Str) : Str :=
  match t.reverse with
  | '/' :: '*' :: r => r.reverse
  | _ => t

/-- Removes what `^\s*//\s*` matches (documentation.rs:120). -/
def stripSlashes (t : Str) : Str :=
  match t.dropWhile isSpace with
  | '/' :: '/' :: r => r.dropWhile isSpace
  | _ => t

/-- `comment_to_doc` (documentation.rs:116-128) -/
def commentToDoc (t : Str) : Str := stripSlashes (stripClose (stripOpen t))

/-- What matters of the kind of a sibling. -/
inductive Kind where
  | comment | pragma | other
deriving DecidableEq

/-- A sibling before the declaration: its kind, the rows of its two ends, its text. -/
structure Sibling where
  kind : Kind
  startRow : Nat
  endRow : Nat
  text : Str
deriving DecidableEq

/-- The loop (documentation.rs:52-79). `row` is where the node starts, `pragma` whether there was one, `prev` are the siblings before it, the nearest
first. What is pushed, in the order of pushing. -/
def collect (row : Nat) (pragma : Bool) : List Sibling → List Str
  | [] => []
  | p :: ps =>
    if row - p.endRow ≠ 1 then []
    else if p.kind = .pragma then (if pragma then [] else collect p.startRow true ps)
    else if p.kind ≠ .comment then []
    else if p.startRow ≠ p.endRow then [commentToDoc p.text]
    else commentToDoc p.text :: collect p.startRow pragma ps

/-- The kinds of nodes comments are looked for (documentation.rs:29-50). -/
def documented : List String :=
  ["function_declaration", "function_definition", "typedef", "typeset", "functag", "funcenum", "enum", "enum_struct", "enum_struct_field",
   "enum_struct_method", "methodmap", "methodmap_alias", "methodmap_method", "methodmap_method_constructor", "methodmap_method_destructor",
   "methodmap_property_getter", "methodmap_property_setter", "methodmap_property_native", "methodmap_property_method", "methodmap_native",
   "methodmap_native_constructor", "methodmap_native_destructor"]

/-- `docs` after `reverse` (documentation.rs:83), before they are joined with line feeds. -/
def docs (kind : String) (row : Nat) (prev : List Sibling) : List Str := if kind ∈ documented then (collect row false prev).reverse else []

/-! ## Specification -/

namespace Spec

/-- The row where sibling `i` has to end to be directly above what follows it. -/
def rowBelow (row : Nat) (prev : List Sibling) : Nat → Option Nat
  | 0 => some row
  | i + 1 => (prev[i]?).map (·.startRow)

/-- Sibling `i` ends in the row before the one in which what follows it starts. -/
def Adjacent (row : Nat) (prev : List Sibling) (i : Nat) : Prop := ∃ p r, prev[i]? = some p ∧ rowBelow row prev i = some r ∧ p.endRow + 1 = r

/-- Sibling `i` is a comment of the block directly above the declaration: from it on every sibling is a comment of one row, or the only pragma, and
each is directly above the next. -/
structure Above (row : Nat) (prev : List Sibling) (i : Nat) : Prop where
  comment : ∃ p, prev[i]? = some p ∧ p.kind = .comment
  adjacent : ∀ j ≤ i, Adjacent row prev j
  noOther : ∀ j p, j < i → prev[j]? = some p → p.kind ≠ .other
  oneRow : ∀ j p, j < i → prev[j]? = some p → p.kind = .comment → p.startRow = p.endRow
  onePragma : ∀ j k p q, j < i → k < i → prev[j]? = some p → prev[k]? = some q → p.kind = .pragma → q.kind = .pragma → j = k

/-- Nothing but comments and pragmas ends in the row in which comment `i` starts. -/
def OwnLine (prev : List Sibling) (i : Nat) : Prop :=
  ∀ p q, prev[i]? = some p → prev[i + 1]? = some q → q.kind = .other → q.endRow < p.startRow

end Spec

end Verif.Ide.Docs
