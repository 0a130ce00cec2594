import Verif.Hir.Lower
/-!
# Model of what a body is made from

`crates/hir-def/src/body.rs:57-142` (`body_with_source_map_query`): which list of parameters and which block are lowered for a function, a typedef or a functag.
Its node is found by `source` (C43, C87). A node is a `Tree`; `low` is the same node as the lowering sees it.
-/

namespace Verif.Hir.BodyOf

open Lower (Lowered collectBody)

/-- Kinds of nodes, as far as body.rs tells them apart. -/
inductive Kind where
  /-- `methodmap_property_native`, `methodmap_property_method` -/
  | accessor
  | setter | typedef | typedefExpression | paramDecls
  /-- any other kind: functions, methods, functags, getters, blocks -/
  | other
deriving DecidableEq

/-- Fields asked for by name. -/
inductive Field where
  | body | parameters | parameter
deriving DecidableEq

inductive Tree where
  | mk (field : Option Field) (kind : Kind) (low : Lower.Node) (children : List Tree)

namespace Tree
def field : Tree → Option Field | .mk f _ _ _ => f
def kind : Tree → Kind | .mk _ k _ _ => k
def low : Tree → Lower.Node | .mk _ _ l _ => l
def children : Tree → List Tree | .mk _ _ _ cs => cs

/-- `child_by_field_name`: the first child under the field. -/
def child (t : Tree) (f : Field) : Option Tree := t.children.find? fun c => c.field == some f

/-- `children(..).find(|child| TSKind::from(child) == kind)`. -/
def first (t : Tree) (k : Kind) : Option Tree := t.children.find? fun c => c.kind == k
end Tree

/-- `DefWithBodyId`. -/
inductive Def where
  | function | typedef | functag
deriving DecidableEq

/-- `params_list` (body.rs:71-86, 104-111, 130). -/
def paramsOf (d : Def) (t : Tree) : Option Tree :=
  match d with
  | .function =>
    match t.kind with
    | .accessor => (t.first .setter).bind (·.child .parameter)
    | _ => t.first .paramDecls
  | .typedef =>
    match t.kind with
    | .typedef => (t.first .typedefExpression).bind (·.child .parameters)
    | .typedefExpression => t.child .parameters
    | _ => none
  | .functag => t.child .parameters

/-- `body_node` (body.rs:70, 118, 137). -/
def bodyOf (d : Def) (t : Tree) : Option Tree :=
  match d with
  | .function => t.child .body
  | _ => none

/-- `body_with_source_map_query` (body.rs:57-142); `none` is a panic. -/
def bodyWithSourceMap (d : Def) (t : Tree) : Option Lowered := collectBody ((paramsOf d t).map Tree.low) ((bodyOf d t).map Tree.low)

end Verif.Hir.BodyOf

/-! ## Specification: declarations as they are written -/
namespace Verif.Hir.BodyOf.Spec

/-- The only child with the property. -/
def Only (t : Tree) (p : Tree → Prop) (c : Tree) : Prop := c ∈ t.children ∧ p c ∧ ∀ c' ∈ t.children, p c' → c' = c

/-- The block of a function: its only child under `body`, or nothing if there is none. -/
def Block (t : Tree) : Option Tree → Prop
  | some b => Only t (fun c => c.field = some .body) b
  | none => ∀ c ∈ t.children, c.field ≠ some .body

/-- `Written d t ps b`: the node `t` of a definition is written with the parameters `ps` and the block `b`. -/
inductive Written : Def → Tree → Option Tree → Option Tree → Prop where
  /-- a function or method, with or without block: `f(ps) b` -/
  | function {t ps : Tree} {b : Option Tree} : t.kind = .other → Only t (fun c => c.kind = .paramDecls) ps → Block t b → Written .function t (some ps) b
  /-- a destructor of the old form, or another function without parentheses -/
  | bare {t : Tree} {b : Option Tree} : t.kind = .other → (∀ c ∈ t.children, c.kind ≠ .paramDecls) → Block t b → Written .function t none b
  /-- `public get() b` -/
  | getter {t : Tree} {b : Option Tree} : t.kind = .accessor → (∀ c ∈ t.children, c.kind ≠ .setter) → Block t b → Written .function t none b
  /-- `public set(p) b` -/
  | setter {t s p : Tree} {b : Option Tree} : t.kind = .accessor → Only t (fun c => c.kind = .setter) s → Only s (fun c => c.field = some .parameter) p →
      Block t b → Written .function t (some p) b
  /-- `typedef X = function int (ps);` -/
  | typedef {t e ps : Tree} : t.kind = .typedef → Only t (fun c => c.kind = .typedefExpression) e → Only e (fun c => c.field = some .parameters) ps →
      Written .typedef t (some ps) none
  /-- `function int (ps);` in a typeset -/
  | member {t ps : Tree} : t.kind = .typedefExpression → Only t (fun c => c.field = some .parameters) ps → Written .typedef t (some ps) none
  /-- `functag public int X(ps);` and the members of a funcenum -/
  | functag {t ps : Tree} : Only t (fun c => c.field = some .parameters) ps → Written .functag t (some ps) none

end Verif.Hir.BodyOf.Spec
