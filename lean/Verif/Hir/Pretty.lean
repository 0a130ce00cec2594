import Mathlib.Data.List.Forall2
import Verif.Hir.ItemTree

/-!
# Model of the item tree shown on request

`print_item_tree` (`crates/hir-def/src/item_tree/pretty.rs`), the answer of `sourcepawn-lsp/itemTree` (`crates/ide/src/lib.rs:120-125`,
`crates/sourcepawn_lsp/src/handlers/request.rs:182-195`). The text of a type (`TypeRef::to_str`) is a parameter. `none` is a panic: an index that is not in
its arena, or an indentation below zero.
-/

namespace Verif.Hir.Pretty

open Verif.Hir Verif.Hir.Items

/-- `"  ".repeat(n)`. -/
def pad : Nat → String
  | 0 => ""
  | n + 1 => "  " ++ pad n

/-- `Printer` (pretty.rs:34-38); the tree is an argument of its functions. -/
structure Printer where
  buf   : String := ""
  level : Nat := 0

/-- `push` (pretty.rs:62-64). -/
def Printer.push (p : Printer) (s : String) : Printer := { p with buf := p.buf ++ s }

/-- `newline` (pretty.rs:57-60). -/
def Printer.newline (p : Printer) : Printer := { p with buf := p.buf ++ "\n" ++ pad p.level }

/-- `indent` (pretty.rs:49-51). -/
def Printer.indent (p : Printer) : Printer := { p with level := p.level + 1 }

/-- `dedent` (pretty.rs:53-55). -/
def Printer.dedent (p : Printer) : Option Printer := if p.level = 0 then none else some { p with level := p.level - 1 }

/-- `format!("// {}", ast_id)` (ast_id_map.rs:73-77). -/
def comment (id : Nat) : String := "// AstId(" ++ toString id ++ ")"

/-- `RawVisibilityId::to_string` (item_tree.rs:73-88), with the space that was trimmed off and is added by its callers. -/
def visText (v : Vis) : String :=
  (if v.pub then "public " else "") ++ (if v.stock then "stock " else "") ++ (if v.static then "static " else "")

/-- The storage words (pretty.rs:86-89, 215-218). -/
def Printer.vis (p : Printer) (v : Vis) : Printer := if v = {} then p else p.push (visText v)

/-- A type, if there is one, and a space (pretty.rs:90-93, 224-227). -/
def Printer.type_ (ty : TypeRef → String) (p : Printer) : Option TypeRef → Printer
  | none => p
  | some r => (p.push (ty r)).push " "

/-- `print_macro` (pretty.rs:70-76). -/
def printMacro (t : Tree) (p : Printer) (i : Nat) : Option Printer := do
  let m ← t.macros[i]?
  some (((p.push (comment m.astId)).newline.push ("#define " ++ m.name)).newline)

/-- `print_variable` (pretty.rs:78-96). -/
def printVariable (ty : TypeRef → String) (t : Tree) (p : Printer) (i : Nat) : Option Printer := do
  let v ← t.variables[i]?
  let p := (p.push (comment v.astId)).newline
  let p := (p.vis v.vis).type_ ty v.type_
  some (p.push v.name).newline

/-- One turn of the loop over variants (pretty.rs:110-116). -/
def printVariant (p : Printer) (v : Variant) : Printer := ((p.push (comment v.astId)).newline.push (v.name ++ ",")).newline

/-- A slice of an arena. -/
def slice {α : Type} (arena : List α) (r : Range) : Option (List α) := all (arena[·]?) r.indices

/-- `print_enum` (pretty.rs:98-120). -/
def printEnum (t : Tree) (p : Printer) (i : Nat) : Option Printer := do
  let e ← t.enums[i]?
  let p := ((p.push (comment e.astId)).newline.push ("enum " ++ e.name ++ " {")).indent.newline
  let vs ← slice t.variants e.variants
  let p ← (vs.foldl printVariant p).dedent
  some (p.push "};").newline

/-- One turn of the loop over parameters (pretty.rs:231-239, 273-281, 337-345). -/
def printParam (ty : TypeRef → String) (p : Printer) (a : Param) : Printer :=
  match a.type_ with
  | none => p
  | some r => ((p.newline.push (comment a.astId)).newline.push (ty r)).push ","

/-- The word for the kind of a function (pretty.rs:219-223). -/
def Printer.fnKind (p : Printer) : FnKind → Printer
  | .forward => p.push "forward "
  | .native => p.push "native "
  | .definition => p

/-- `print_function` (pretty.rs:203-252). -/
def printFunction (ty : TypeRef → String) (t : Tree) (p : Printer) (i : Nat) : Option Printer := do
  let f ← t.functions[i]?
  let p := (p.push (comment f.astId)).newline
  let p := ((p.vis f.vis).fnKind f.kind).type_ ty f.ret
  let p := ((p.push f.name).push "(").indent
  let ps ← slice t.params f.params
  let p := ps.foldl (printParam ty) p
  if f.kind = .definition then do
    let p ← ((p.push ") {").newline.push "/* body */").dedent
    some (p.newline.push "}").newline
  else do
    let p ← (p.push ");").dedent
    some p.newline

/-- One member of an enum struct (pretty.rs:134-148). -/
def printEsItem (ty : TypeRef → String) (t : Tree) (p : Printer) : EsItem → Option Printer
  | .field i => do
    let f ← t.fields[i]?
    some ((p.push (comment f.astId)).newline.push (ty f.type_ ++ " " ++ f.name ++ ";")).newline
  | .method i => printFunction ty t p i

/-- `print_enum_struct` (pretty.rs:122-154). -/
def printEnumStruct (ty : TypeRef → String) (t : Tree) (p : Printer) (i : Nat) : Option Printer := do
  let e ← t.enumStructs[i]?
  let p := ((p.push (comment e.astId)).newline.push ("enum struct " ++ e.name ++ " {")).indent.newline
  let p ← e.items.foldlM (printEsItem ty t) p
  let p ← p.dedent
  some (p.newline.push "}").newline

/-- One member of a methodmap (pretty.rs:172-195). -/
def printMmItem (ty : TypeRef → String) (t : Tree) (p : Printer) : MmItem → Option Printer
  | .property i => do
    let q ← t.properties[i]?
    let p := ((p.push (comment q.astId)).newline.push ("property " ++ ty q.type_ ++ " " ++ q.name ++ " {")).indent.newline
    let p ← q.accessors.indices.foldlM (printFunction ty t) p
    let p ← p.dedent
    some (p.push "}").newline
  | .method i => printFunction ty t p i

/-- What a methodmap inherits from (pretty.rs:166-168). -/
def Printer.inherits (p : Printer) : Option String → Printer
  | none => p
  | some s => p.push (" < " ++ s)

/-- `print_methodmap` (pretty.rs:156-201). -/
def printMethodmap (ty : TypeRef → String) (t : Tree) (p : Printer) (i : Nat) : Option Printer := do
  let e ← t.methodmaps[i]?
  let p := (p.push (comment e.astId)).newline.push ("methodmap " ++ e.name)
  let p := ((p.inherits e.inherits).push " {").indent.newline
  let p ← e.items.foldlM (printMmItem ty t) p
  let p ← p.dedent
  some (p.newline.push "}").newline

/-- The name of a typedef, if it has one (pretty.rs:265-267). -/
def Printer.typedefName (p : Printer) : Option String → Printer
  | none => p
  | some s => p.push ("typedef " ++ s ++ " = ")

/-- `print_typedef` (pretty.rs:254-285). -/
def printTypedef (ty : TypeRef → String) (t : Tree) (p : Printer) (i : Nat) : Option Printer := do
  let d ← t.typedefs[i]?
  let p := ((p.push (comment d.astId)).newline.typedefName d.name).push ("function " ++ ty d.type_)
  let p := (p.push "(").indent
  let ps ← slice t.params d.params
  let p ← ((ps.foldl (printParam ty) p).push ");").dedent
  some p.newline

/-- `print_typeset` (pretty.rs:287-304). -/
def printTypeset (ty : TypeRef → String) (t : Tree) (p : Printer) (i : Nat) : Option Printer := do
  let e ← t.typesets[i]?
  let p := ((p.push (comment e.astId)).newline.push ("typeset " ++ e.name)).newline.indent
  let p ← e.typedefs.indices.foldlM (printTypedef ty t) p
  let p ← p.dedent
  some (p.push "};").newline

/-- The text of a type that may be missing (pretty.rs:320, 329). -/
def typeOr (ty : TypeRef → String) : Option TypeRef → String
  | none => ""
  | some r => ty r

/-- The head of a functag (pretty.rs:315-333). -/
def functagHead (ty : TypeRef → String) (r : Option TypeRef) : Option String → String
  | some s => "functag public " ++ typeOr ty r ++ ":" ++ s
  | none => typeOr ty r ++ ":public"

/-- `print_functag` (pretty.rs:306-349). -/
def printFunctag (ty : TypeRef → String) (t : Tree) (p : Printer) (i : Nat) : Option Printer := do
  let d ← t.functags[i]?
  let p := (p.push (comment d.astId)).newline.push (functagHead ty d.type_ d.name)
  let p := (p.push "(").indent
  let ps ← slice t.params d.params
  let p ← ((ps.foldl (printParam ty) p).push ");").dedent
  some p.newline

/-- `print_funcenum` (pretty.rs:351-368). -/
def printFuncenum (ty : TypeRef → String) (t : Tree) (p : Printer) (i : Nat) : Option Printer := do
  let e ← t.funcenums[i]?
  let p := ((p.push (comment e.astId)).newline.push ("funcenum " ++ e.name)).newline.indent
  let p ← e.functags.indices.foldlM (printFunctag ty t) p
  let p ← p.dedent
  some (p.push "};").newline

/-- The match over top level items (pretty.rs:14-26). -/
def printItem (ty : TypeRef → String) (t : Tree) (p : Printer) : FileItem → Option Printer
  | .function i => printFunction ty t p i
  | .global i => printVariable ty t p i
  | .enumStruct i => printEnumStruct ty t p i
  | .enum i => printEnum t p i
  | .macroDef i => printMacro t p i
  | .methodmap i => printMethodmap ty t p i
  | .typedef i => printTypedef ty t p i
  | .typeset i => printTypeset ty t p i
  | .functag i => printFunctag ty t p i
  | .funcenum i => printFuncenum ty t p i
  | .variant _ => some p

/-- The loop over top level items (pretty.rs:13-28). -/
def printItems (ty : TypeRef → String) (t : Tree) : List FileItem → Printer → Option Printer
  | [], p => some p
  | i :: is, p => do
    let p ← printItem ty t p i
    printItems ty t is p.newline

/-- `print_item_tree` (pretty.rs:11-31). -/
def printTree (ty : TypeRef → String) (t : Tree) : Option String := (printItems ty t t.top {}).map (·.buf)

/-- `handle_item_tree` for a file with this syntax tree (request.rs:182-195, lib.rs:120-125). -/
def request (syn : Syn) (ty : TypeRef → String) (root : Node) : Option String := do
  let t ← lower syn root
  printTree ty t

namespace Spec

open Verif.Hir.Items.Spec Verif.Hir.Spec

/-! ## What is to be seen: rows, one per line -/

/-- What stands in a row: a comment that names a node of the tree, or a text. -/
inductive Cell where
  | node (at_ : Ptr)
  | text (s : String)

/-- A row with its indentation. -/
abbrev Row := Nat × Cell

/-- The line shows the row: it is as far in, and the id in the comment is that of the node. -/
def ShowsRow (m : AstIdMap) (line : Nat × String) (row : Row) : Prop :=
  line.1 = row.1 ∧
    match row.2 with
    | .text s => line.2 = s
    | .node at_ => ∃ id, m.get id = some at_ ∧ line.2 = "// AstId(" ++ toString id ++ ")"

/-- The words before the name of a function or variable. -/
def words (v : Vis) : String := (if v.pub then "public " else "") ++ (if v.stock then "stock " else "") ++ (if v.static then "static " else "")

def kindWord : FnKind → String
  | .forward => "forward "
  | .native => "native "
  | .definition => ""

def typeWord (ty : TypeRef → String) (r : Option TypeRef) : String := (r.map (fun r => ty r ++ " ")).getD ""

/-- Rows for a list of parameters: the first one begins with `before`, each parameter has two, one with its node and one with its type, the last one ends
with `after`. -/
def paramRows (ty : TypeRef → String) (l inner : Nat) (before after : String) : List DParam → List Row
  | [] => [(l, .text (before ++ after))]
  | p :: ps => (l, .text before) :: (inner, .node p.at_) :: paramRows ty inner inner ((p.type_.map ty).getD "" ++ ",") after ps

/-- Rows of a function. -/
def fnRows (ty : TypeRef → String) (first l : Nat) (f : DFn) : List Row :=
  (first, .node f.at_) ::
    paramRows ty l (l + 1) (words f.vis ++ kindWord f.kind ++ typeWord ty f.ret ++ f.name ++ "(") (if f.kind = .definition then ") {" else ");") f.params ++
    (if f.kind = .definition then [(l + 1, .text "/* body */"), (l, .text "}")] else [])

/-- Rows of a typedef or functag: `head` is what stands before the parameters. -/
def sigRows (ty : TypeRef → String) (first l : Nat) (head : String) (s : DSig) : List Row :=
  (first, .node s.at_) :: paramRows ty l (l + 1) (head ++ "(") ");" s.params

def typedefHead (ty : TypeRef → String) (s : DSig) : String :=
  (s.name.map (fun n => "typedef " ++ n ++ " = ")).getD "" ++ "function " ++ (s.type_.map ty).getD ""

def functagWords (ty : TypeRef → String) (s : DSig) : String :=
  match s.name with
  | some n => "functag public " ++ (s.type_.map ty).getD "" ++ ":" ++ n
  | none => (s.type_.map ty).getD "" ++ ":public"

/-- The members of a typeset or funcenum, one level in; only the first row of the first one is not. -/
def memberRows (ty : TypeRef → String) (head : DSig → String) : List DSig → List Row
  | [] => []
  | s :: ss => sigRows ty 0 1 (head s) s ++ ss.flatMap (fun s => sigRows ty 1 1 (head s) s)

def esRows (ty : TypeRef → String) : DEsMember → List Row
  | .field n r at_ => [(1, .node at_), (1, .text (ty r ++ " " ++ n ++ ";"))]
  | .method f => fnRows ty 1 1 f

def mmRows (ty : TypeRef → String) : DMmMember → List Row
  | .property n r fs at_ => [(1, .node at_), (1, .text ("property " ++ ty r ++ " " ++ n ++ " {"))] ++ fs.flatMap (fnRows ty 2 2) ++ [(2, .text "}")]
  | .method f => fnRows ty 1 1 f

/-- The rows of a declaration of a file. Variants are shown where their enum is. -/
def rows (ty : TypeRef → String) : Decl → List Row
  | .function f => fnRows ty 0 0 f
  | .global n v r at_ => [(0, .node at_), (0, .text (words v ++ typeWord ty r ++ n))]
  | .enum n vs at_ => [(0, .node at_), (0, .text ("enum " ++ n ++ " {"))] ++ vs.flatMap (fun v => [(1, .node v.at_), (1, .text (v.name ++ ","))]) ++ [(1, .text "};")]
  | .variant _ => []
  | .enumStruct n ms at_ => [(0, .node at_), (0, .text ("enum struct " ++ n ++ " {"))] ++ ms.flatMap (esRows ty) ++ [(1, .text ""), (0, .text "}")]
  | .methodmap n sup ms at_ =>
    [(0, .node at_), (0, .text ("methodmap " ++ n ++ (sup.map (fun s => " < " ++ s)).getD "" ++ " {"))] ++ ms.flatMap (mmRows ty) ++ [(1, .text ""), (0, .text "}")]
  | .typedef s => sigRows ty 0 0 (typedefHead ty s) s
  | .typeset n ss at_ => [(0, .node at_), (0, .text ("typeset " ++ n))] ++ memberRows ty (typedefHead ty) ss ++ [(if ss = [] then 0 else 1, .text "};")]
  | .functag s => sigRows ty 0 0 (functagWords ty s) s
  | .funcenum n ss at_ => [(0, .node at_), (0, .text ("funcenum " ++ n))] ++ memberRows ty (functagWords ty) ss ++ [(if ss = [] then 0 else 1, .text "};")]
  | .macroDef n at_ => [(0, .node at_), (0, .text ("#define " ++ n))]

/-- A line of text. -/
def lineText (line : Nat × String) : String := String.join (List.replicate line.1 "  ") ++ line.2

/-- The text is made of these lines. -/
def IsText (text : String) (lines : List (Nat × String)) : Prop := text = String.intercalate "\n" (lines.map lineText)

/-- The text shows these declarations: their rows, an empty one after each. -/
def ShowsAll (m : AstIdMap) (ty : TypeRef → String) (ds : List Decl) (text : String) : Prop :=
  ∃ lines, IsText text lines ∧ List.Forall₂ (ShowsRow m) lines (ds.flatMap (fun d => rows ty d ++ [(0, .text "")]) ++ [(0, .text "")])

/-! ## Parameters without a type -/

def typed (ps : List DParam) : List DParam := ps.filter (·.type_.isSome)

def dropFn (f : DFn) : DFn := { f with params := typed f.params }

def dropSig (s : DSig) : DSig := { s with params := typed s.params }

def dropEs : DEsMember → DEsMember
  | .field n r a => .field n r a
  | .method f => .method (dropFn f)

def dropMm : DMmMember → DMmMember
  | .property n r fs a => .property n r (fs.map dropFn) a
  | .method f => .method (dropFn f)

/-- The declaration without its parameters that have no type. -/
def dropUntyped : Decl → Decl
  | .function f => .function (dropFn f)
  | .global n v r a => .global n v r a
  | .enum n vs a => .enum n vs a
  | .variant v => .variant v
  | .enumStruct n ms a => .enumStruct n (ms.map dropEs) a
  | .methodmap n s ms a => .methodmap n s (ms.map dropMm) a
  | .typedef s => .typedef (dropSig s)
  | .typeset n ss a => .typeset n (ss.map dropSig) a
  | .functag s => .functag (dropSig s)
  | .funcenum n ss a => .funcenum n (ss.map dropSig) a
  | .macroDef n a => .macroDef n a

end Spec

end Verif.Hir.Pretty
