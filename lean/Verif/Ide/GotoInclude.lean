import Verif.Ide.Goto
import Verif.Hir.Outside
import Verif.Include.Resolve
/-!
# Model of go-to-definition on an include directive

`find_def` on the path or the keyword of a directive (`crates/hir/src/semantics.rs:214-217`), `include_node_to_def` (`semantics.rs:272-280`), `File` as a
definition (`crates/hir/src/lib.rs:101, 123, 192-200`): its source is the root of its tree. How the directive is resolved is `World.resolveNode` of
`Verif.Include.Resolve`, what is answered to the client is `goto` of `Verif.Ide.Goto`.
-/

namespace Verif.Ide.GotoInclude
open Verif.Ide.Goto

/-- The field `path` of a directive: a string in quotes or in angle brackets, with its text. -/
structure Path where
  quoted : Bool
  text   : List Char

/-- `include_node_to_def` (semantics.rs:272-280). The outer `none` is a panic. -/
def includeDef (w : Include.World) (file : Nat) : Option Path → Option (Option Nat)
  | none => some none
  | some p => (w.resolveNode file p.quoted p.text).map Option.join

/-- `find_def` (semantics.rs:182-243) for a node of the text `x` with these ancestors, the parent first; `path` is the field `path` of the parent, if any.
`mk` makes the definition of a file, `other` are the answers that are not about includes. -/
def findDef {Def : Type} (mk : Nat → Def) (w : Include.World) (names : Hir.Outside.World) (other : Hir.Outside.Result → Option Def) (file : Nat)
    (ancestors : List Hir.FindDef.Node) (path : Option Path) (x : List Char) : Option (Option Def) :=
  match names.findDef file ancestors x with
  | .included => (includeDef w file path).map fun f => f.map mk
  | .crash => none
  | r => some (other r)

/-- A file as a definition (lib.rs:101, 123, 192-200). -/
structure FileDefs {Def : Type} (S : Sema Def) (mk : Nat → Def) : Prop where
  fileOf : ∀ f, S.fileOf (mk f) = f
  source : ∀ f t, S.source (mk f) t = some t

namespace Spec
open Verif.Pre Verif.Ide.Goto.Spec

/-- `Sub n t`: `n` is a node of the tree `t`. -/
inductive Sub : Node → Node → Prop where
  | refl (n : Node) : Sub n n
  | child {n c : Node} {k : Hir.Kind} {r : Rng} {f : Bool} {cs : List Node} : c ∈ cs → Sub n c → Sub n (.mk k r f cs)

/-- A path in angle brackets is one token. -/
def ChevronNode (n : Node) : Prop := n.children = []

/-- A string in quotes: its children are the two quotes. -/
def QuotedNode (n : Node) (row a b : Nat) : Prop :=
  ∃ q q' : Node, n.children = [q, q'] ∧ q.range = wordRange row a (a + 1) ∧ q'.range = wordRange row (b - 1) b

end Spec
end Verif.Ide.GotoInclude
