import Verif.Pre.Position
/-!
# Model of the diagnostics of a file

`crates/ide-diagnostics/src/lib.rs`, `crates/ide-diagnostics/src/handlers/*.rs`, `crates/hir/src/lib.rs:150-275`,
`crates/sourcepawn_lsp/src/diagnostics.rs:142-178`. What is found in a body is the subject of `Hir/Lower` and `Hir/Infer`; here it is a list of
texts and ranges of the tree, which is the tree of the preprocessed text.
-/

namespace Verif.Ide.FileDiag

open Verif.Pre

/-- A node of the syntax tree: its kind, whether it is missing, whether it is an `ERROR`, the expected tokens if it is one and has children, its range in the
preprocessed text. -/
inductive Node where
  | mk (kind : Str) (missing error : Bool) (expected : Str) (range : Rng) (children : List Node)

namespace Node
def kind : Node → Str | mk k _ _ _ _ _ => k
def missing : Node → Bool | mk _ m _ _ _ _ => m
def error : Node → Bool | mk _ _ e _ _ _ => e
def expected : Node → Str | mk _ _ _ x _ _ => x
def range : Node → Rng | mk _ _ _ _ r _ => r
def children : Node → List Node | mk _ _ _ _ _ cs => cs
end Node

/-- `Severity` after `diagnostic_severity` (to_proto.rs:125-131). -/
inductive Severity where
  | error | warning | hint
deriving DecidableEq

/-- `DiagnosticCode` (lib.rs:14-19). -/
inductive Code where
  | spCompError (s : String)
  | spCompWarning (s : String)
  | lint (s : String) (sev : Severity)
deriving DecidableEq

/-- The `lsp_types::Diagnostic` made of a `Diagnostic` (diagnostics.rs:153-174), without its source, which is the same for all. -/
structure Diagnostic where
  code : String
  message : Str
  range : Rng
  severity : Severity
  unnecessary : Bool := false
deriving DecidableEq

/-- `Diagnostic::new` (lib.rs:45-61) -/
def new (code : Code) (message : Str) (range : Rng) : Diagnostic :=
  match code with
  | .spCompError s => ⟨s, message, range, .error, false⟩
  | .spCompWarning s => ⟨s, message, range, .warning, false⟩
  | .lint s sev => ⟨s, message, range, sev, false⟩

mutual
/-- `cursor.captures(&ERROR_QUERY, ..)` with the query `(ERROR) @error` (queries.rs:5): the nodes that are errors, in the order of the text. -/
def errorNodes : Node → List Node
  | .mk k m e x r cs => (if e then [.mk k m e x r cs] else []) ++ errorNodesAll cs
def errorNodesAll : List Node → List Node
  | [] => []
  | n :: ns => errorNodes n ++ errorNodesAll ns
end

mutual
/-- `missing_nodes` (lib.rs:186-199): what it pushes. -/
def missingNodes : Node → List Diagnostic
  | .mk k m _ _ r cs => (if m then [new (.spCompError "missing-node") ("expected `".toList ++ k ++ "`".toList) r] else []) ++ missingNodesAll cs
def missingNodesAll : List Node → List Diagnostic
  | [] => []
  | n :: ns => missingNodes n ++ missingNodesAll ns
end

/-- The diagnostic of an `ERROR` node (lib.rs:163-172, 203-219); the two texts are one field of the node. -/
def errorDiagnostic (n : Node) : Diagnostic := new (.spCompError "syntax-error") n.expected n.range

/-- `syntax_error_diagnostics` (lib.rs:158-179) -/
def syntaxErrors (root : Node) : List Diagnostic := (errorNodes root).map errorDiagnostic ++ missingNodes root

/-- What was found somewhere: a text and a range. -/
structure Finding where
  text : Str
  range : Rng
deriving DecidableEq

/-- A declaration of a file with what is found in it (`FileDef`, hir/src/lib.rs:204-218): in a body, in the bodies of methods, or about the methodmap inherited
from, if the `inherits` field is there. -/
inductive Decl where
  | function (found : List Finding)
  | typedef (found : List Finding)
  | functag (found : List Finding)
  | methodmap (inherit : Option Finding) (methods : List (List Finding))
  | enumStruct (methods : List (List Finding))
  | other

/-- `FileDef::diagnostics` and `as_def_with_body` (hir/src/lib.rs:222-283) -/
def declFindings : Decl → List Finding
  | .function l | .typedef l | .functag l => l
  | .methodmap i _ => i.toList
  | .enumStruct _ => []
  | .other => []

/-- What is known of a file: the errors and inactive ranges of the preprocessor (ranges of the source), the tree and the declarations. -/
structure File where
  evaluation : List Finding
  includes : List Finding
  macros : List Finding
  inactive : List Rng
  tree : Node
  decls : List Decl

/-- `f` of most modules in `handlers`, with the text in place of its parts. -/
def report (f : Finding) : Diagnostic := new (.spCompError "E0000") f.text f.range

/-- `inactive_code` -/
def inactive (r : Rng) : Diagnostic :=
  { new (.lint "inactive-code" .hint) "code is inactive due to preprocessor directives".toList r with unnecessary := true }

/-- `diagnostics` (lib.rs:112-150) with `File::diagnostics` (hir/src/lib.rs:150-190) -/
def diagnostics (f : File) : List Diagnostic :=
  syntaxErrors f.tree ++
    (f.evaluation.map report ++
      f.includes.map (fun x => report ⟨"file `".toList ++ x.text ++ "` was not found".toList, x.range⟩) ++
      f.macros.map (fun x => report ⟨"no macro `".toList ++ x.text ++ "` found".toList, x.range⟩) ++
      f.inactive.map inactive ++
      (f.decls.flatMap declFindings).map report)

/-! ## Specification -/

namespace Spec

/-- `d` is `n` or stands somewhere below it. -/
inductive Below : Node → Node → Prop
  | self (n : Node) : Below n n
  | child {n c d : Node} : c ∈ n.children → Below c d → Below n d

mutual
/-- The nodes of a tree in the order of the text. -/
def nodes : Node → List Node
  | .mk k m e x r cs => .mk k m e x r cs :: nodesAll cs
def nodesAll : List Node → List Node
  | [] => []
  | n :: ns => nodes n ++ nodesAll ns
end

/-- Everything found in a declaration. -/
def found : Decl → List Finding
  | .function l | .typedef l | .functag l => l
  | .methodmap i ms => i.toList ++ ms.flatten
  | .enumStruct ms => ms.flatten
  | .other => []

/-- The methods of the declaration, if it has any, are all right. -/
def MethodsFine : Decl → Prop
  | .methodmap _ ms => ∀ m ∈ ms, m = []
  | .enumStruct ms => ∀ m ∈ ms, m = []
  | _ => True

/-- Where the user sees a range of the preprocessed text, both ends of which are outside of uses of macros, on a line that is made up as described. -/
def SourceRange (segs : List Verif.Pre.Spec.Seg) (line : Nat) (server user : Rng) : Prop :=
  server.s.line = line ∧ server.e.line = line ∧ user.s.line = line ∧ user.e.line = line ∧
    Verif.Pre.Spec.SamePlace segs user.s.char server.s.char ∧ Verif.Pre.Spec.SamePlace segs user.e.char server.e.char

end Spec

end Verif.Ide.FileDiag
