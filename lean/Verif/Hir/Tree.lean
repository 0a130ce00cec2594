/-!
# Model of syntax trees, node pointers and the table of item ids

`crates/hir-def/src/ast_id_map.rs`. A tree-sitter tree is a finite tree of nodes with kind and byte range. The parser itself is not
modelled.
-/

namespace Verif.Hir

/-- The kinds of nodes the id table treats specially (ast_id_map.rs:112-164) and those the item tree looks for
(item_tree/lower.rs:46-67); `other` is every other kind. -/
inductive Kind where
  | source_file
  | global_variable_declaration
  | old_global_variable_declaration
  | variable_declaration_statement
  | old_variable_declaration_statement
  | variable_declaration
  | old_variable_declaration
  | function_definition
  | methodmap
  | methodmap_property
  | methodmap_property_alias
  | methodmap_property_native
  | methodmap_property_method
  | methodmap_property_getter
  | methodmap_property_setter
  | methodmap_native
  | methodmap_native_constructor
  | methodmap_native_destructor
  | methodmap_method
  | methodmap_method_constructor
  | methodmap_method_destructor
  | function_declaration
  | enum_
  | enum_entries
  | parameter_declarations
  | block
  | for_statement
  | condition_statement
  | do_while_statement
  | switch_statement
  | switch_case
  | while_statement
  | enum_struct
  | enum_struct_method
  | typedef
  | typedef_expression
  | typeset
  | functag
  | funcenum
  | funcenum_member
  | enum_entry
  | enum_struct_field
  | parameter_declaration
  | rest_parameter
  | preproc_macro
  | preproc_define
  | other (n : Nat)
deriving DecidableEq

/-- `tree_sitter::Node`: kind, `start_byte`, `end_byte`, children. -/
inductive Node where
  | mk (kind : Kind) (s e : Nat) (children : List Node)

def Node.kind : Node → Kind
  | .mk k _ _ _ => k

def Node.s : Node → Nat
  | .mk _ s _ _ => s

def Node.e : Node → Nat
  | .mk _ _ e _ => e

def Node.children : Node → List Node
  | .mk _ _ _ c => c

/-- `NodePtr` (ast_id_map.rs:16-30). -/
structure Ptr where
  kind : Kind
  s : Nat
  e : Nat
deriving DecidableEq

/-- `From<&Node> for NodePtr` (ast_id_map.rs:32-40). -/
def Node.ptr (n : Node) : Ptr := ⟨n.kind, n.s, n.e⟩

mutual
/-- `NodePtr::to_node` (ast_id_map.rs:42-66): `none` is the panic. The loop goes down one level in every turn. -/
def Ptr.toNode (p : Ptr) : Node → Option Node
  | .mk k s e cs => if s = p.s ∧ e = p.e ∧ k = p.kind then some (.mk k s e cs) else p.toNodeIn cs

/-- The inner `for` loop (ast_id_map.rs:54-60): the first child that contains the range. -/
def Ptr.toNodeIn (p : Ptr) : List Node → Option Node
  | [] => none
  | c :: cs => if c.s ≤ p.s ∧ c.e ≥ p.e then p.toNode c else p.toNodeIn cs
end

/-- Declarations that hold one or more variables (ast_id_map.rs:114-117). -/
def Kind.isDeclList : Kind → Bool
  | .global_variable_declaration | .old_global_variable_declaration | .variable_declaration_statement | .old_variable_declaration_statement => true
  | _ => false

/-- ast_id_map.rs:119-122. -/
def Kind.isDecl : Kind → Bool
  | .variable_declaration | .old_variable_declaration => true
  | _ => false

/-- The kinds the walk goes into (ast_id_map.rs:135-170). -/
def Kind.expands : Kind → Bool
  | .function_definition | .methodmap | .methodmap_property | .methodmap_property_alias | .methodmap_property_native
  | .methodmap_property_method | .methodmap_property_getter | .methodmap_property_setter | .methodmap_native
  | .methodmap_native_constructor | .methodmap_native_destructor | .methodmap_method | .methodmap_method_constructor
  | .methodmap_method_destructor | .function_declaration | .enum_ | .enum_entries | .parameter_declarations | .block | .for_statement
  | .condition_statement | .do_while_statement | .switch_statement | .switch_case | .while_statement | .enum_struct
  | .enum_struct_method | .typedef | .typedef_expression | .typeset | .functag | .funcenum | .funcenum_member => true
  | _ => false

/-- `AstIdMap` (ast_id_map.rs:94-98). The hash map is a list of entries with the latest first. -/
structure AstIdMap where
  arena : List Ptr := []
  map : List (Ptr × Nat) := []

/-- `arena.alloc` and `map.insert` (ast_id_map.rs:123-125, 130-132). -/
def AstIdMap.alloc (m : AstIdMap) (p : Ptr) : AstIdMap := ⟨m.arena ++ [p], (p, m.arena.length) :: m.map⟩

/-- The visitor (ast_id_map.rs:111-134). -/
def AstIdMap.visit (m : AstIdMap) (n : Node) : AstIdMap :=
  if n.kind = .source_file then m
  else if n.kind.isDeclList then (n.children.filter (·.kind.isDecl)).foldl (fun m c => m.alloc c.ptr) m
  else m.alloc n.ptr

mutual
/-- `bdfs` (ast_id_map.rs:188-199): first all children, then below those for which the visitor said so. -/
def AstIdMap.bdfs (m : AstIdMap) : Node → AstIdMap
  | .mk _ _ _ cs => (cs.foldl AstIdMap.visit m).bdfsIn cs

def AstIdMap.bdfsIn (m : AstIdMap) : List Node → AstIdMap
  | [] => m
  | c :: cs => (if c.kind.expands then m.bdfs c else m).bdfsIn cs
end

/-- `from_source` (ast_id_map.rs:106-173). -/
def AstIdMap.ofTree (root : Node) : AstIdMap := AstIdMap.bdfs {} root

/-- `ast_id_of` (ast_id_map.rs:175-185); `none` is the panic. -/
def AstIdMap.idOf (m : AstIdMap) (n : Node) : Option Nat := m.map.lookup n.ptr

/-- `get_raw` and `index` (ast_id_map.rs:187-189, 203-208); `none` is the panic. -/
def AstIdMap.get (m : AstIdMap) (id : Nat) : Option Ptr := m.arena[id]?

namespace Spec

mutual
/-- What the parser promises: a range is not inverted, children are inside their parent, one after the other. -/
def Node.WF : Node → Prop
  | .mk _ s e cs => s ≤ e ∧ WFIn s e cs

def WFIn (s e : Nat) : List Node → Prop
  | [] => s ≤ e
  | c :: cs => s ≤ c.s ∧ Node.WF c ∧ WFIn c.e e cs
end

/-- `At root path n`: `n` is the node at `path` (numbers of children) below `root`. -/
inductive At : Node → List Nat → Node → Prop where
  | here {n : Node} : At n [] n
  | child {r c n : Node} {i : Nat} {path : List Nat} : r.children[i]? = some c → At c path n → At r (i :: path) n

/-- Declarations of one or more variables. -/
def declLists : List Kind :=
  [.global_variable_declaration, .old_global_variable_declaration, .variable_declaration_statement, .old_variable_declaration_statement]

/-- The variables in them. -/
def decls : List Kind := [.variable_declaration, .old_variable_declaration]

/-- Nodes that hold items: functions, methodmaps, enums, enum structs, type definitions, statements with statements inside, and their
parts. -/
def holders : List Kind :=
  [.function_definition, .function_declaration, .parameter_declarations, .block, .for_statement, .while_statement, .do_while_statement,
   .condition_statement, .switch_statement, .switch_case, .enum_, .enum_entries, .enum_struct, .enum_struct_method, .methodmap,
   .methodmap_native, .methodmap_native_constructor, .methodmap_native_destructor, .methodmap_method, .methodmap_method_constructor,
   .methodmap_method_destructor, .methodmap_property, .methodmap_property_alias, .methodmap_property_native, .methodmap_property_method,
   .methodmap_property_getter, .methodmap_property_setter, .typedef, .typedef_expression, .typeset, .functag, .funcenum, .funcenum_member]

/-- The node has an entry in the id table: it is below the root of the file through nodes that hold items, and is either neither the
root kind nor a declaration list, or a variable of a declaration list. -/
inductive Recorded : Node → List Nat → Node → Prop where
  | item {r n : Node} {i : Nat} : r.children[i]? = some n → n.kind ≠ .source_file → n.kind ∉ declLists → Recorded r [i] n
  | decl {r d n : Node} {i j : Nat} : r.children[i]? = some d → d.kind ∈ declLists → d.children[j]? = some n → n.kind ∈ decls →
      Recorded r [i, j] n
  | inside {r c n : Node} {i : Nat} {path : List Nat} : r.children[i]? = some c → c.kind ∈ holders → Recorded c path n → Recorded r (i :: path) n

end Spec

end Verif.Hir
