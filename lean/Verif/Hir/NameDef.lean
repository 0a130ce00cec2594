import Verif.Hir.ItemTree

/-!
# Model of the way from the name in a declaration to the declaration

`crates/hir/src/semantics.rs:67-163` (`find_name_def`), `crates/hir/src/source_to_def.rs`, `crates/hir-def/src/child_by_source.rs` and the
way back, `crates/hir/src/has_source.rs` with `crates/hir-def/src/src.rs`. The cache of `source_to_def.rs:90-95` is left out: its entries
are what the function that fills it returns. An interned id of a definition of the file stands for the index of its item: the index
determines the container as well. The members a methodmap inherits (`data.rs:158-187`, see `Verif.Hir.Methodmap`) are given by the index of their node
in the table of the file they come from.
-/

namespace Verif.Hir.NameDef

open Verif.Hir Verif.Hir.Items

/-- `keys` (hir-def/src/dyn_map.rs:18-34). -/
inductive Key where
  | function | macroDef | global | enumStruct | methodmap | property | enum | variant | typedef | typeset | functag | funcenum | field
deriving DecidableEq

/-- Ids of definitions: an item of this file, `FieldId` (the enum struct and the local id), a definition from elsewhere. -/
inductive Id where
  | item (k : Key) (i : Nat)
  | field (es i : Nat)
  | foreign (n : Nat)
deriving DecidableEq

/-- An inherited member of a methodmap: the map it goes to, its id and the index of its node in its own file. -/
structure Inherited where
  key : Key
  id : Nat
  ast : Nat

/-- What the queries say about the file: `file_item_tree`, `parse`, the inherited part of `methodmap_data`, and the map from nodes to
locals of `body_with_source_map`. -/
structure File where
  syn : Syn
  root : Node
  tree : Tree
  inherited : Nat → List Inherited
  locals_ : Id → Ptr → Option Nat

/-- The outcome of a function that may panic and returns an `Option`. -/
inductive Out (α : Type) where
  | crash
  | nothing
  | ok (a : α)
deriving DecidableEq

def Out.bind {α β : Type} (o : Out α) (f : α → Out β) : Out β :=
  match o with
  | .crash => .crash
  | .nothing => .nothing
  | .ok a => f a

/-- `None` is no answer. -/
def Out.ofOption {α : Type} : Option α → Out α
  | none => .nothing
  | some a => .ok a

/-- An index or unwrapping that panics. -/
def Out.expect {α : Type} : Option α → Out α
  | none => .crash
  | some a => .ok a

/-- `ast_id_map(file_id)` -/
def File.ids (f : File) : AstIdMap := AstIdMap.ofTree f.root

/-- `item.ast_id`; `none` is the panic of an index outside of the arena. -/
def astOf (t : Tree) (k : Key) (i : Nat) : Option Nat :=
  match k with
  | .function => t.functions[i]?.map (·.astId)
  | .macroDef => t.macros[i]?.map (·.astId)
  | .global => t.variables[i]?.map (·.astId)
  | .enumStruct => t.enumStructs[i]?.map (·.astId)
  | .methodmap => t.methodmaps[i]?.map (·.astId)
  | .property => t.properties[i]?.map (·.astId)
  | .enum => t.enums[i]?.map (·.astId)
  | .variant => t.variants[i]?.map (·.astId)
  | .typedef => t.typedefs[i]?.map (·.astId)
  | .typeset => t.typesets[i]?.map (·.astId)
  | .functag => t.functags[i]?.map (·.astId)
  | .funcenum => t.funcenums[i]?.map (·.astId)
  | .field => t.fields[i]?.map (·.astId)

/-- `ast_id_map.get_raw(item_tree[id].ast_id)` -/
def File.ptrOf (f : File) (k : Key) (i : Nat) : Option Ptr := (astOf f.tree k i).bind f.ids.get

/-- `DynMap` (dyn_map.rs:36-108): the maps of all keys, the latest insertion first. -/
abbrev Map := List ((Key × Ptr) × Id)

/-- `res[key].insert(node_ptr, id)` (child_by_source.rs:30-32 and the like). -/
def File.insert (f : File) (m : Map) (x : Key × Nat) : Option Map := (f.ptrOf x.1 x.2).map fun p => ((x.1, p), .item x.1 x.2) :: m

def keyOf : FileItem → Key × Nat
  | .function i => (.function, i)
  | .global i => (.global, i)
  | .enum i => (.enum, i)
  | .variant i => (.variant, i)
  | .enumStruct i => (.enumStruct, i)
  | .methodmap i => (.methodmap, i)
  | .typedef i => (.typedef, i)
  | .typeset i => (.typeset, i)
  | .functag i => (.functag, i)
  | .funcenum i => (.funcenum, i)
  | .macroDef i => (.macroDef, i)

/-- Type definitions without a name are not declared (db.rs:341-343, 371-373). -/
def declared (t : Tree) : FileItem → Bool
  | .typedef i => (t.typedefs[i]?.bind (·.name)).isSome
  | .functag i => (t.functags[i]?.bind (·.name)).isSome
  | _ => true

/-- `child_by_source_to` of a file (child_by_source.rs:21-86): the declarations of the def map (db.rs:240-390). -/
def File.fileMap (f : File) : Option Map := ((f.tree.top.filter (declared f.tree)).map keyOf).foldlM f.insert []

/-- `child_source` (data.rs:504-529): the nodes of the fields. -/
def File.childSource (f : File) : List EsItem → Option (List Ptr)
  | [] => some []
  | .method _ :: is => f.childSource is
  | .field i :: is => do
    let p ← f.ptrOf .field i
    let ps ← f.childSource is
    some (p :: ps)

/-- The first loop of `child_by_source_to` of an enum struct (child_by_source.rs:98-116). -/
def File.esFirst (f : File) (es : Nat) (src : List Ptr) : List EsItem → Nat → Nat → Map → Option Map
  | [], _, _, m => some m
  | .field _ :: is, idx, k, m => do
    let p ← src[k]?
    f.esFirst es src is (idx + 1) (k + 1) (((.field, p), .field es idx) :: m)
  | .method i :: is, idx, k, m => do
    let m ← f.insert m (.function, i)
    f.esFirst es src is (idx + 1) k m

/-- The second loop (child_by_source.rs:117-123). -/
def esSecond (es : Nat) : List Ptr → Nat → Map → Map
  | [], _, m => m
  | p :: ps, k, m => esSecond es ps (k + 1) (((.field, p), .field es k) :: m)

/-- `child_by_source_to` of an enum struct (child_by_source.rs:88-125). -/
def File.esMap (f : File) (es : Nat) : Option Map := do
  let e ← f.tree.enumStructs[es]?
  let src ← f.childSource e.items
  let m ← f.esFirst es src e.items 0 0 []
  some (esSecond es src 0 m)

/-- One inherited item: its index is looked up in the table of this file (child_by_source.rs:130, 139-156). -/
def File.inherit (f : File) (m : Map) (x : Inherited) : Option Map := (f.ids.get x.ast).map fun p => ((x.key, p), .foreign x.id) :: m

/-- What an item of a methodmap inserts: the accessors of a property and the property, or the method (child_by_source.rs:131-156). The
accessors are called `get` and `set` by construction (item_tree/lower.rs:469, 494), which data.rs:211-215 relies on. -/
def mmInserts (t : Tree) : MmItem → List (Key × Nat)
  | .method i => [(.function, i)]
  | .property i => ((t.properties[i]?.map (·.accessors.indices)).getD []).map (fun j => (Key.function, j)) ++ [(.property, i)]

/-- `child_by_source_to` of a methodmap (child_by_source.rs:127-158): the inherited items come first (data.rs:157-172). -/
def File.mmMap (f : File) (i : Nat) : Option Map := do
  let e ← f.tree.methodmaps[i]?
  let m ← (f.inherited i).foldlM f.inherit []
  (e.items.flatMap (mmInserts f.tree)).foldlM f.insert m

/-- `child_by_source_to` of a typeset (child_by_source.rs:160-171). -/
def File.typesetMap (f : File) (i : Nat) : Option Map := do
  let e ← f.tree.typesets[i]?
  (e.typedefs.indices.map fun j => (Key.typedef, j)).foldlM f.insert []

/-- `child_by_source_to` of a funcenum (child_by_source.rs:173-184). -/
def File.funcenumMap (f : File) (i : Nat) : Option Map := do
  let e ← f.tree.funcenums[i]?
  (e.functags.indices.map fun j => (Key.functag, j)).foldlM f.insert []

/-- `ChildContainer` (source_to_def.rs:180-191); `body` is `DefWithBodyId`. The other variants are never constructed. -/
inductive Container where
  | file
  | enumStruct (i : Nat)
  | methodmap (i : Nat)
  | typeset (i : Nat)
  | funcenum (i : Nat)
  | body (owner : Id)
deriving DecidableEq

/-- `ChildContainer::child_by_source` (source_to_def.rs:205-218): a body is `unreachable!()`. `none` is a panic. -/
def File.mapOf (f : File) : Container → Option Map
  | .file => f.fileMap
  | .enumStruct i => f.esMap i
  | .methodmap i => f.mmMap i
  | .typeset i => f.typesetMap i
  | .funcenum i => f.funcenumMap i
  | .body _ => none

mutual
/-- `NodePtr::to_node` (ast_id_map.rs:42-66) with the ancestors of the node it returns, the parent first: these are what `parent()`
yields. -/
def locate (p : Ptr) (anc : List Node) : Node → Option (Node × List Node)
  | .mk k s e cs => if s = p.s ∧ e = p.e ∧ k = p.kind then some (.mk k s e cs, anc) else locateIn p (.mk k s e cs :: anc) cs

def locateIn (p : Ptr) (anc : List Node) : List Node → Option (Node × List Node)
  | [] => none
  | c :: cs => if c.s ≤ p.s ∧ c.e ≥ p.e then locate p anc c else locateIn p anc cs
end

/-- The arms of the match in `find_container` (source_to_def.rs:103-171). -/
inductive Role where
  | file | function | enumStruct | methodmap | typedef | typeset | expression | functag | funcenum | other
deriving DecidableEq

def roleOf : Kind → Role
  | .source_file => .file
  | .function_definition | .function_declaration | .enum_struct_method | .methodmap_native | .methodmap_native_constructor
  | .methodmap_native_destructor | .methodmap_method | .methodmap_method_constructor | .methodmap_method_destructor
  | .methodmap_property_native | .methodmap_property_method => .function
  | .enum_struct => .enumStruct
  | .methodmap => .methodmap
  | .typedef => .typedef
  | .typeset => .typeset
  | .typedef_expression => .expression
  | .functag | .funcenum_member => .functag
  | .funcenum => .funcenum
  | _ => .other

/-- `ChildContainer::EnumStructId(id)` and the like. The types of the keys make the last line impossible. -/
def container : Id → Out Container
  | .item .enumStruct i => .ok (.enumStruct i)
  | .item .methodmap i => .ok (.methodmap i)
  | .item .typeset i => .ok (.typeset i)
  | .item .funcenum i => .ok (.funcenum i)
  | _ => .crash

def body (id : Id) : Out Container := .ok (.body id)

/-- The loop of `find_container` (source_to_def.rs:102-172) from the parent upwards. `todef` are the calls of `fn_to_def` and the like. -/
def climb (todef : Key → Ptr → Out Id) : List Node → Out Container
  | [] => .nothing
  | c :: rest =>
    match roleOf c.kind with
    | .file => .ok .file
    | .function => (todef .function c.ptr).bind body
    | .enumStruct => (todef .enumStruct c.ptr).bind container
    | .methodmap => (todef .methodmap c.ptr).bind container
    | .typedef => (todef .typedef c.ptr).bind body
    | .typeset => (todef .typeset c.ptr).bind container
    | .functag => (todef .functag c.ptr).bind body
    | .funcenum => (todef .funcenum c.ptr).bind container
    | .expression =>
      match rest with
      | [] => .nothing
      | d :: _ => if d.kind = .typedef then climb todef rest else if d.kind = .typeset then (todef .typedef c.ptr).bind body else .nothing
    | .other => climb todef rest

/-- `to_def` and `dyn_map` (source_to_def.rs:76-88), given `find_container`. -/
def File.toDefWith (f : File) (find : Ptr → Out Container) (k : Key) (p : Ptr) : Out Id :=
  (find p).bind fun c => (Out.expect (f.mapOf c)).bind fun m => Out.ofOption (m.lookup (k, p))

/-- `find_container` (source_to_def.rs:97-173). It calls itself for a node above: `fuel` bounds the depth. -/
def File.findContainer (f : File) : Nat → Ptr → Out Container
  | 0, _ => .crash
  | fuel + 1, p =>
    match locate p [] f.root with
    | none => .crash
    | some (_, anc) => climb (f.toDefWith (f.findContainer fuel)) anc

/-- `to_def` (source_to_def.rs:76-83). -/
def File.toDef (f : File) (fuel : Nat) (k : Key) (p : Ptr) : Out Id := f.toDefWith (f.findContainer fuel) k p

/-- `DefResolution` as far as names in declarations lead to it: an item, or a local of a body with its index. -/
inductive Def where
  | item (id : Id)
  | local_ (owner : Id) (i : Nat)
deriving DecidableEq

/-- `local_to_def` (source_to_def.rs:64-74). -/
def File.localToDef (f : File) (fuel : Nat) (p : Ptr) : Out Def :=
  (f.findContainer fuel p).bind fun c =>
    match c with
    | .body owner => Out.ofOption ((f.locals_ owner p).map (.local_ owner))
    | _ => .crash

/-- `is_name_node` (base-db/src/lib.rs:47-52). Nodes are compared by kind and range; tree-sitter compares identities. -/
def isName (syn : Syn) (node parent : Node) : Bool := decide ((syn.field .name parent).map (·.ptr) = some node.ptr)

/-- The arms of the match of `find_name_def` (semantics.rs:83-161). -/
inductive NameRole where
  | def_ (k : Key)
  | parameter
  | variable
  | unreachable

def nameRole : Kind → NameRole
  | .function_definition | .function_declaration | .enum_struct_method | .methodmap_native | .methodmap_native_constructor
  | .methodmap_native_destructor | .methodmap_method | .methodmap_method_constructor | .methodmap_method_destructor
  | .methodmap_property_native | .methodmap_property_method => .def_ .function
  | .enum_struct => .def_ .enumStruct
  | .enum_struct_field => .def_ .field
  | .parameter_declaration => .parameter
  | .variable_declaration | .old_variable_declaration => .variable
  | .preproc_macro | .preproc_define => .def_ .macroDef
  | .enum_ => .def_ .enum
  | .enum_entry => .def_ .variant
  | .methodmap => .def_ .methodmap
  | .methodmap_property => .def_ .property
  | .typedef => .def_ .typedef
  | .typeset => .def_ .typeset
  | .functag => .def_ .functag
  | .funcenum => .def_ .funcenum
  | _ => .unreachable

/-- The match of `find_name_def` (semantics.rs:82-162) for the node and its ancestors. -/
def File.nameDef (f : File) (fuel : Nat) (n : Node) (anc : List Node) : Out Def :=
  match nameRole n.kind with
  | .def_ k => (f.toDef fuel k n.ptr).bind fun id => .ok (.item id)
  | .parameter => f.localToDef fuel n.ptr
  | .variable =>
    match anc with
    | [] => .nothing
    | g :: _ =>
      if g.kind = .global_variable_declaration ∨ g.kind = .old_global_variable_declaration then
        (f.toDef fuel .global n.ptr).bind fun id => .ok (.item id)
      else if g.kind = .variable_declaration_statement ∨ g.kind = .old_variable_declaration_statement then f.localToDef fuel n.ptr
      else .crash
  | .unreachable => .crash

/-- `find_name_def` (semantics.rs:67-163) for a node with these ancestors, the parent first. -/
def File.findNameDef (f : File) (fuel : Nat) (node : Node) : List Node → Out Def
  | [] => .nothing
  | p :: anc =>
    if isName f.syn node p then
      if p.kind = .methodmap_property_setter ∨ p.kind = .methodmap_property_getter then
        match anc with
        | [] => .nothing
        | q :: anc => f.nameDef fuel q anc
      else f.nameDef fuel p anc
    else .nothing

/-- `source` (has_source.rs:22-64, hir-def/src/src.rs:12-34): the node of a definition of this file. -/
def File.source (f : File) : Id → Out Node
  | .item k i => Out.expect ((f.ptrOf k i).bind fun p => p.toNode f.root)
  | .field es i => Out.expect (((f.tree.enumStructs[es]?).bind fun e => f.childSource e.items).bind fun src => (src[i]?).bind fun p => p.toNode f.root)
  | .foreign _ => .nothing

namespace Spec

/-- `Below root anc n`: `n` is a node of the tree and `anc` are the nodes around it, the innermost first. -/
inductive Below (root : Node) : List Node → Node → Prop where
  | root : Below root [] root
  | child {anc : List Node} {n c : Node} : Below root anc n → c ∈ n.children → Below root (n :: anc) c

/-- Declarations with a name that stand directly in the file. -/
def topKinds : List Kind := [.function_definition, .function_declaration, .enum_, .enum_struct, .methodmap, .typeset, .functag, .funcenum]

/-- Methods of methodmaps. -/
def methodKinds : List Kind :=
  [.methodmap_method, .methodmap_method_constructor, .methodmap_method_destructor, .methodmap_native, .methodmap_native_constructor,
   .methodmap_native_destructor]

/-- Nodes that are the body of a definition, hold members, or are definitions of macros themselves. -/
def walls : List Kind :=
  [.function_definition, .function_declaration, .enum_struct, .enum_struct_method, .methodmap, .methodmap_property_native,
   .methodmap_property_method, .typedef, .typeset, .typedef_expression, .functag, .funcenum, .funcenum_member, .preproc_macro,
   .preproc_define] ++ methodKinds

/-- `Declares syn root n anc name`: `n` is a declaration of the file, `anc` are the nodes around it, and `name` is the node with its
name. -/
inductive Declares (syn : Syn) (root : Node) : Node → List Node → Node → Prop where
  /-- a function, enum, enum struct, methodmap, typeset, functag, funcenum -/
  | item {n nm : Node} : n ∈ root.children → n.kind ∈ topKinds → syn.field .name n = some nm → Declares syn root n [root] nm
  /-- a typedef with a return type -/
  | typedef {n ex nm : Node} : n ∈ root.children → n.kind = .typedef → n.children.find? (·.kind = .typedef_expression) = some ex →
      (syn.returnType ex).isSome → syn.field .name n = some nm → Declares syn root n [root] nm
  /-- a global variable -/
  | global {d n nm : Node} : d ∈ root.children → n ∈ d.children →
      (d.kind = .global_variable_declaration ∧ n.kind = .variable_declaration) ∨
      (d.kind = .old_global_variable_declaration ∧ n.kind = .old_variable_declaration) →
      syn.field .name n = some nm → Declares syn root n [d, root] nm
  /-- an entry of an enum -/
  | entry {e en n nm : Node} : e ∈ root.children → e.kind = .enum_ → syn.field .entries e = some en → n ∈ en.children →
      n.kind = .enum_entry → syn.field .name n = some nm → Declares syn root n [en, e, root] nm
  /-- a field of an enum struct -/
  | field {e en n nm : Node} : e ∈ root.children → e.kind = .enum_struct → syn.field .name e = some en → n ∈ e.children →
      n.kind = .enum_struct_field → (syn.type_ n).isSome → syn.field .name n = some nm → Declares syn root n [e, root] nm
  /-- a method of an enum struct -/
  | esMethod {e en n nm : Node} : e ∈ root.children → e.kind = .enum_struct → syn.field .name e = some en → n ∈ e.children →
      n.kind = .enum_struct_method → syn.field .name n = some nm → Declares syn root n [e, root] nm
  /-- a method of a methodmap -/
  | method {e en n nm : Node} : e ∈ root.children → e.kind = .methodmap → syn.field .name e = some en → n ∈ e.children →
      n.kind ∈ methodKinds → syn.field .name n = some nm → Declares syn root n [e, root] nm
  /-- a property of a methodmap -/
  | property {e en n nm : Node} : e ∈ root.children → e.kind = .methodmap → syn.field .name e = some en → n ∈ e.children →
      n.kind = .methodmap_property → (syn.type_ n).isSome → syn.field .name n = some nm → Declares syn root n [e, root] nm
  /-- a macro outside of bodies and of the lists of members -/
  | macroDef {anc : List Node} {n nm : Node} : Below root anc n → n.kind = .preproc_macro ∨ n.kind = .preproc_define →
      (∀ a ∈ anc, a.kind ∉ walls) → (∀ a ∈ anc.dropLast, a.kind ≠ .source_file) → syn.field .name n = some nm → Declares syn root n anc nm

/-- `Accessor syn root n anc g name`: `n` is a getter or setter of a property, `anc` are the nodes around it; the name is in the node `g`
inside. -/
inductive Accessor (syn : Syn) (root : Node) : Node → List Node → Node → Node → Prop where
  | mk {e en p pn n g nm : Node} : e ∈ root.children → e.kind = .methodmap → syn.field .name e = some en → p ∈ e.children →
      p.kind = .methodmap_property → (syn.type_ p).isSome → syn.field .name p = some pn → n ∈ p.children →
      n.kind = .methodmap_property_method ∨ n.kind = .methodmap_property_native → g ∈ n.children →
      g.kind = .methodmap_property_getter ∨ (g.kind = .methodmap_property_setter ∧ (syn.field .parameter g).isSome) →
      syn.field .name g = some nm → Accessor syn root n [p, e, root] g nm

/-- Functions with a body: what parameters and local variables can belong to. -/
def callables : List Kind := [.function_definition, .function_declaration, .enum_struct_method] ++ methodKinds

/-- `Callable syn root n anc`: `n` is a function, a method or an accessor. -/
inductive Callable (syn : Syn) (root : Node) : Node → List Node → Prop where
  | named {n nm : Node} {anc : List Node} : Declares syn root n anc nm → n.kind ∈ callables → Callable syn root n anc
  | accessor {n g nm : Node} {anc : List Node} : Accessor syn root n anc g nm → Callable syn root n anc

/-- `Inside n inner c`: `c` is a node inside `n`, `inner` are the nodes between the two, the innermost first. -/
inductive Inside (n : Node) : List Node → Node → Prop where
  | child {c : Node} : c ∈ n.children → Inside n [] c
  | step {inner : List Node} {b c : Node} : Inside n inner b → c ∈ b.children → Inside n (b :: inner) c

/-- A parameter, or a variable of a declaration in a body. -/
def LocalDecl (n : Node) (inner : List Node) : Prop :=
  n.kind = .parameter_declaration ∨
  (n.kind = .variable_declaration ∨ n.kind = .old_variable_declaration) ∧
    ∃ d, inner.head? = some d ∧ (d.kind = .variable_declaration_statement ∨ d.kind = .old_variable_declaration_statement)

/-- `Signature syn root n via anc`: `n` is a typedef, a functag, or a member of a typeset or funcenum; `anc` are the nodes around it, and its parameters are
inside of `via`, the innermost first. -/
inductive Signature (syn : Syn) (root : Node) : Node → List Node → List Node → Prop where
  /-- a typedef with a return type -/
  | typedef {n ex nm : Node} : n ∈ root.children → n.kind = .typedef → n.children.find? (·.kind = .typedef_expression) = some ex →
      (syn.returnType ex).isSome → syn.field .name n = some nm → Signature syn root n [ex] [root]
  | functag {n nm : Node} : n ∈ root.children → n.kind = .functag → syn.field .name n = some nm → Signature syn root n [] [root]
  /-- a signature with a return type in a typeset -/
  | typeset {e en n : Node} : e ∈ root.children → e.kind = .typeset → syn.field .name e = some en → n ∈ e.children → n.kind = .typedef_expression →
      (syn.returnType n).isSome → Signature syn root n [] [e, root]
  | funcenum {e en n : Node} : e ∈ root.children → e.kind = .funcenum → syn.field .name e = some en → n ∈ e.children → n.kind = .funcenum_member →
      Signature syn root n [] [e, root]

/-- What is inherited refers to indices that exist in this file. -/
def Fits (f : File) : Prop := ∀ i, ∀ x ∈ f.inherited i, x.ast < f.ids.arena.length

/-- What the theorems assume about a file: it was lowered, its tree is one of the parser's, macros stand where items stand (C61), and what
methodmaps inherit does not point outside of the table of the file (C59). -/
structure Ready (f : File) : Prop where
  grammar : Items.Spec.Grammar f.syn
  wf : Verif.Hir.Spec.Node.WF f.root
  root : f.root.kind = .source_file
  placed : Items.Spec.MacrosPlaced f.syn f.root
  lowered : lower f.syn f.root = some f.tree
  fits : Fits f

end Spec

end Verif.Hir.NameDef
