import Verif.Hir.Infer
import Verif.Hir.ItemTree

/-!
# Model of the words before a name

What the item tree and bodies keep of the type, the kind and the visibility that are written in a declaration: `crates/hir-def/src/hir/type_ref.rs` and
`crates/hir-def/src/item_tree.rs:29-44, 90-106`. A node is its kind and its text.
-/

namespace Verif.Hir.Written

/-- The kinds of nodes that matter (`TSKind`); `other` stands for all others. -/
inductive Kind where
  | int | bool | float | char | void | any | string_ | float_ | type | oldType | dimension | fixedDimension
  | forward | native | «public» | stock | static | other
deriving DecidableEq

structure Part where
  kind : Kind
  text : Infer.Name

/-- `trim_end_matches(':')` (type_ref.rs:58). -/
def trimColons (t : Infer.Name) : Infer.Name := (t.reverse.dropWhile (· == ':')).reverse

/-- `TypeRef::from_node` (type_ref.rs:43-63). -/
def fromNode (n : Part) : Infer.TypeRef :=
  match n.kind with
  | .int => .int
  | .bool => .bool
  | .float => .float
  | .char => .char
  | .void => .void
  | .any => .any
  | .string_ => .oldString
  | .float_ => .float
  | .type => .name n.text
  | .oldType => .oldName (trimColons n.text)
  | _ => .name n.text

/-- The loop of `from_returntype_node` (type_ref.rs:66-77) over the nodes under the field. -/
def typeLoop : List Part → Option Infer.TypeRef × Nat → Option Infer.TypeRef × Nat
  | [], r => r
  | n :: ns, (t, size) =>
    match n.kind with
    | .dimension | .fixedDimension => typeLoop ns (t, size + 1)
    | _ => typeLoop ns (some (fromNode n), size)

/-- `TypeRef::from_returntype_node` (type_ref.rs:65-88). -/
def fromReturnType (ns : List Part) : Option Infer.TypeRef :=
  match typeLoop ns (none, 0) with
  | (some t, size) => if size > 0 then some (.array t size) else some t
  | (none, _) => none

/-- `"[]".repeat(n)`. -/
def brackets : Nat → Infer.Name
  | 0 => []
  | n + 1 => '[' :: ']' :: brackets n

/-- `TypeRef::to_str` (type_ref.rs:102-120). -/
def toStr : Infer.TypeRef → Infer.Name
  | .name n => n
  | .oldName n => n ++ [':']
  | .int => "int".toList
  | .bool => "bool".toList
  | .float => "float".toList
  | .char => "char".toList
  | .void => "void".toList
  | .any => "any".toList
  | .oldString => "String".toList
  | .oldFloat => "Float".toList
  | .array t size => toStr t ++ brackets size

/-- The loop of `FunctionKind::from_node` (item_tree.rs:32-38). -/
def kindLoop : List Part → Items.FnKind
  | [] => .definition
  | n :: ns =>
    match n.kind with
    | .forward => .forward
    | .native => .native
    | _ => kindLoop ns

/-- `FunctionKind::from_node` (item_tree.rs:30-43); the argument are the children of the node under `kind`. -/
def fnKind : Option (List Part) → Items.FnKind
  | none => .definition
  | some ns => kindLoop ns

/-- The loop of `RawVisibilityId::from_node` (item_tree.rs:96-103). -/
def visLoop : List Part → Items.Vis → Items.Vis
  | [], v => v
  | n :: ns, v =>
    match n.kind with
    | .«public» => visLoop ns { v with pub := true }
    | .stock => visLoop ns { v with stock := true }
    | .static => visLoop ns { v with static := true }
    | _ => visLoop ns v

/-- `RawVisibilityId::from_node` (item_tree.rs:91-105); the argument are the children of the node under `visibility`. `NONE` is always set and never asked
for alone. -/
def visibility : Option (List Part) → Items.Vis
  | none => {}
  | some ns => visLoop ns {}

/-! ## Specification -/

namespace Spec

def isDimension (n : Part) : Prop := n.kind = .dimension ∨ n.kind = .fixedDimension

/-- Nodes that are a word of the language have it as text; an old tag is a name and a colon. -/
def Plain (n : Part) : Prop :=
  match n.kind with
  | .int => n.text = "int".toList
  | .bool => n.text = "bool".toList
  | .float => n.text = "float".toList
  | .char => n.text = "char".toList
  | .void => n.text = "void".toList
  | .any => n.text = "any".toList
  | .string_ => n.text = "String".toList
  | .float_ => n.text = "Float".toList
  | .oldType => ∃ x c, n.text = x ++ [c] ++ [':'] ∧ c ≠ ':'
  | _ => True

end Spec

end Verif.Hir.Written
