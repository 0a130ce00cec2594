import Verif.Hir.Tree

/-!
# Model of the item tree

`crates/hir-def/src/item_tree/lower.rs`, `crates/hir-def/src/item_tree.rs`. The tree-sitter tree is a `Node`; what the grammar attaches to
a node (named children, text, type) is given by `Syn`. The lazily created box of arenas is always there.
-/

namespace Verif.Hir.Items

open Verif.Hir

/-- Fields asked for by name (lower.rs:78, 96, 136, 141, 235, 246, 248, 451, 485). -/
inductive Field where
  | name
  | entries
  | parameters
  | parameter
  | defaultValue
  | storageClass
  | inherits
deriving DecidableEq

/-- `TypeRef` (hir/type_ref.rs:6-38); only compared for equality here. -/
abbrev TypeRef := Nat

/-- `FunctionKind` (item_tree.rs:17-25). -/
inductive FnKind where
  | definition
  | forward
  | native
deriving DecidableEq

/-- `RawVisibilityId` (item_tree.rs:40-58). -/
structure Vis where
  pub : Bool := false
  stock : Bool := false
  static : Bool := false
deriving DecidableEq

/-- `SpecialMethod` (item_tree.rs). -/
inductive Special where
  | constructor
  | destructor
deriving DecidableEq

/-- What tree-sitter answers about a node and what is read off it without touching the item tree. -/
structure Syn where
  /-- `child_by_field_name` -/
  field : Field → Node → Option Node
  /-- `utf8_text` of the node in the preprocessed text -/
  text : Node → String
  /-- `TypeRef::from_returntype_node(node, "type", source)` -/
  type_ : Node → Option TypeRef
  /-- `TypeRef::from_returntype_node(node, "returnType", source)` -/
  returnType : Node → Option TypeRef
  /-- `FunctionKind::from_node` -/
  fnKind : Node → FnKind
  /-- `RawVisibilityId::from_node` -/
  vis : Node → Vis
  /-- some child is the word `static` (lower.rs:189-192) -/
  hasStatic : Node → Bool

/-- `IdxRange` -/
structure Range where
  start : Nat
  stop : Nat
deriving DecidableEq

structure Param where
  hasDefault : Bool
  isRest : Bool
  isConst : Bool
  type_ : Option TypeRef
  astId : Nat

structure Function where
  name : String
  kind : FnKind
  vis : Vis
  params : Range
  special : Option Special
  ret : Option TypeRef
  astId : Nat

structure Variable where
  name : String
  vis : Vis
  type_ : Option TypeRef
  astId : Nat

structure Variant where
  name : String
  astId : Nat

structure Enum where
  name : String
  variants : Range
  astId : Nat

structure EsField where
  name : String
  type_ : TypeRef
  astId : Nat

inductive EsItem where
  | method (i : Nat)
  | field (i : Nat)

structure EnumStruct where
  name : String
  items : List EsItem
  astId : Nat

structure Property where
  name : String
  accessors : Range
  type_ : TypeRef
  astId : Nat

inductive MmItem where
  | method (i : Nat)
  | property (i : Nat)

structure Methodmap where
  name : String
  items : List MmItem
  inherits : Option String
  astId : Nat

structure Typedef where
  name : Option String
  params : Range
  type_ : TypeRef
  astId : Nat

structure Typeset where
  name : String
  typedefs : Range
  astId : Nat

structure Functag where
  name : Option String
  params : Range
  type_ : Option TypeRef
  astId : Nat

structure Funcenum where
  name : String
  functags : Range
  astId : Nat

structure Macro where
  name : String
  astId : Nat

/-- `FileItem` (item_tree.rs `mod_items!`); properties are never pushed to the top level. -/
inductive FileItem where
  | function (i : Nat)
  | global (i : Nat)
  | enum (i : Nat)
  | variant (i : Nat)
  | enumStruct (i : Nat)
  | methodmap (i : Nat)
  | typedef (i : Nat)
  | typeset (i : Nat)
  | functag (i : Nat)
  | funcenum (i : Nat)
  | macroDef (i : Nat)
deriving DecidableEq

/-- `ItemTree` and `ItemTreeData`. -/
structure Tree where
  top : List FileItem := []
  functions : List Function := []
  variables : List Variable := []
  macros : List Macro := []
  enumStructs : List EnumStruct := []
  fields : List EsField := []
  methodmaps : List Methodmap := []
  properties : List Property := []
  params : List Param := []
  enums : List Enum := []
  typedefs : List Typedef := []
  typesets : List Typeset := []
  functags : List Functag := []
  funcenums : List Funcenum := []
  variants : List Variant := []

/-- One turn of the loop of `lower_parameters` (lower.rs:241-253). -/
def lowerParam (syn : Syn) (m : AstIdMap) (t : Tree) (n : Node) : Option Tree :=
  if n.kind = .parameter_declaration ∨ n.kind = .rest_parameter then do
    let id ← m.idOf n
    some { t with params := t.params ++ [{ hasDefault := (syn.field .defaultValue n).isSome, isRest := n.kind == .rest_parameter,
                                           isConst := (syn.field .storageClass n).isSome, type_ := syn.type_ n, astId := id }] }
  else some t

/-- `lower_parameters` (lower.rs:233-256). -/
def lowerParams (syn : Syn) (m : AstIdMap) (t : Tree) (n : Node) : Option (Tree × Range) :=
  match syn.field .parameters n with
  | none => some (t, ⟨t.params.length, t.params.length⟩)
  | some p =>
    if p.kind = .parameter_declarations then do
      let t' ← p.children.foldlM (lowerParam syn m) t
      some (t', ⟨t.params.length, t'.params.length⟩)
    else none

/-- `lower_function_` (lower.rs:206-231). The parameters are allocated before the name is looked for. -/
def lowerFn (syn : Syn) (m : AstIdMap) (vis : Option Vis) (kind : Option FnKind) (special : Option Special) (t : Tree) (n : Node) :
    Option (Tree × Option Nat) := do
  let (t, ps) ← lowerParams syn m t n
  match syn.field .name n with
  | none => some (t, none)
  | some nm => do
    let id ← m.idOf n
    some ({ t with functions := t.functions ++ [{ name := syn.text nm, kind := kind.getD (syn.fnKind n), vis := vis.getD (syn.vis n),
                                                  params := ps, special := special, ret := syn.returnType n, astId := id }] },
          some t.functions.length)

/-- `lower_function` (lower.rs:200-204). -/
def lowerFunction (syn : Syn) (m : AstIdMap) (t : Tree) (n : Node) : Option Tree := do
  let (t, i) ← lowerFn syn m none none none t n
  match i with
  | none => some t
  | some i => some { t with top := t.top ++ [.function i] }

/-- A declared variable (lower.rs:96-105, 117-126). -/
def lowerVariable (syn : Syn) (m : AstIdMap) (vis : Vis) (type_ : Option TypeRef) (t : Tree) (n : Node) : Option Tree :=
  match syn.field .name n with
  | none => some t
  | some nm => do
    let id ← m.idOf n
    some { t with variables := t.variables ++ [{ name := syn.text nm, vis := vis, type_ := type_, astId := id }]
                  top := t.top ++ [.global t.variables.length] }

/-- One turn of `lower_global_variable` (lower.rs:94-106). -/
def lowerNewVar (syn : Syn) (m : AstIdMap) (d : Node) (t : Tree) (n : Node) : Option Tree :=
  if n.kind = .variable_declaration then lowerVariable syn m (syn.vis d) (syn.type_ d) t n else some t

/-- One turn of `lower_old_global_variable` (lower.rs:112-127). -/
def lowerOldVar (syn : Syn) (m : AstIdMap) (d : Node) (t : Tree) (n : Node) : Option Tree :=
  if n.kind = .old_variable_declaration then lowerVariable syn m (syn.vis d) (syn.type_ n) t n else some t

/-- One turn of the loop of `lower_enum` (lower.rs:138-152). -/
def lowerVariant (syn : Syn) (m : AstIdMap) (t : Tree) (n : Node) : Option Tree :=
  if n.kind = .enum_entry then
    match syn.field .name n with
    | none => some t
    | some nm => do
      let id ← m.idOf n
      some { t with variants := t.variants ++ [{ name := syn.text nm, astId := id }], top := t.top ++ [.variant t.variants.length] }
  else some t

/-- lower.rs:160. -/
def unnamed (id : Nat) : String := "unnamed_enum_" ++ toString id

/-- The loop over the entries, if there are any (lower.rs:136-153). -/
def lowerVariants (syn : Syn) (m : AstIdMap) (t : Tree) (n : Node) : Option Tree :=
  match syn.field .entries n with
  | none => some t
  | some en => en.children.foldlM (lowerVariant syn m) t

/-- `lower_enum` (lower.rs:134-169). -/
def lowerEnum (syn : Syn) (m : AstIdMap) (t : Tree) (n : Node) : Option Tree := do
  let start := t.variants.length
  let t ← lowerVariants syn m t n
  let id ← m.idOf n
  let name := match syn.field .name n with
    | some nm => syn.text nm
    | none => unnamed id
  some { t with enums := t.enums ++ [{ name := name, variants := ⟨start, t.variants.length⟩, astId := id }]
                top := t.top ++ [.enum t.enums.length] }

/-- `lower_typedef` (lower.rs:258-281). -/
def lowerTypedef (syn : Syn) (m : AstIdMap) (t : Tree) (n : Node) : Option Tree :=
  match syn.field .name n with
  | none => some t
  | some nm =>
    match n.children.find? (·.kind = .typedef_expression) with
    | none => some t
    | some ex =>
      match syn.returnType ex with
      | none => some t
      | some ty => do
        let (t, ps) ← lowerParams syn m t ex
        let id ← m.idOf n
        some { t with typedefs := t.typedefs ++ [{ name := some (syn.text nm), params := ps, type_ := ty, astId := id }]
                      top := t.top ++ [.typedef t.typedefs.length] }

/-- One turn of the loop of `lower_typeset` (lower.rs:290-304). -/
def lowerTypesetMember (syn : Syn) (m : AstIdMap) (t : Tree) (ex : Node) : Option Tree :=
  if ex.kind = .typedef_expression then
    match syn.returnType ex with
    | none => some t
    | some ty => do
      let (t, ps) ← lowerParams syn m t ex
      let id ← m.idOf ex
      some { t with typedefs := t.typedefs ++ [{ name := none, params := ps, type_ := ty, astId := id }] }
  else some t

/-- `lower_typeset` (lower.rs:283-314). -/
def lowerTypeset (syn : Syn) (m : AstIdMap) (t : Tree) (n : Node) : Option Tree :=
  match syn.field .name n with
  | none => some t
  | some nm => do
    let start := t.typedefs.length
    let t ← n.children.foldlM (lowerTypesetMember syn m) t
    let id ← m.idOf n
    some { t with typesets := t.typesets ++ [{ name := syn.text nm, typedefs := ⟨start, t.typedefs.length⟩, astId := id }]
                  top := t.top ++ [.typeset t.typesets.length] }

/-- `lower_functag` (lower.rs:316-331). -/
def lowerFunctag (syn : Syn) (m : AstIdMap) (t : Tree) (n : Node) : Option Tree :=
  match syn.field .name n with
  | none => some t
  | some nm => do
    let (t, ps) ← lowerParams syn m t n
    let id ← m.idOf n
    some { t with functags := t.functags ++ [{ name := some (syn.text nm), params := ps, type_ := syn.returnType n, astId := id }]
                  top := t.top ++ [.functag t.functags.length] }

/-- One turn of the loop of `lower_funcenum` (lower.rs:340-352). -/
def lowerFuncenumMember (syn : Syn) (m : AstIdMap) (t : Tree) (n : Node) : Option Tree :=
  if n.kind = .funcenum_member then do
    let (t, ps) ← lowerParams syn m t n
    let id ← m.idOf n
    some { t with functags := t.functags ++ [{ name := none, params := ps, type_ := syn.returnType n, astId := id }] }
  else some t

/-- `lower_funcenum` (lower.rs:333-361). -/
def lowerFuncenum (syn : Syn) (m : AstIdMap) (t : Tree) (n : Node) : Option Tree :=
  match syn.field .name n with
  | none => some t
  | some nm => do
    let start := t.functags.length
    let t ← n.children.foldlM (lowerFuncenumMember syn m) t
    let id ← m.idOf n
    some { t with funcenums := t.funcenums ++ [{ name := syn.text nm, functags := ⟨start, t.functags.length⟩, astId := id }]
                  top := t.top ++ [.funcenum t.funcenums.length] }

/-- `lower_property_method` (lower.rs:463-512); `parent` is the node around the getter or setter. -/
def lowerAccessor (syn : Syn) (m : AstIdMap) (parent : Node) (type_ : TypeRef) (kind : FnKind) (t : Tree) (n : Node) : Option Tree :=
  if n.kind = .methodmap_property_getter then do
    let id ← m.idOf parent
    some { t with functions := t.functions ++ [{ name := "get", kind := kind, vis := { pub := true },
                                                 params := ⟨t.params.length, t.params.length⟩, special := none, ret := some type_,
                                                 astId := id }] }
  else if n.kind = .methodmap_property_setter then
    match syn.field .parameter n with
    | none => some t
    | some p => do
      let pid ← m.idOf p
      let id ← m.idOf parent
      some { t with params := t.params ++ [{ hasDefault := false, isRest := false, isConst := (syn.field .storageClass p).isSome,
                                             type_ := syn.type_ p, astId := pid }]
                    functions := t.functions ++ [{ name := "set", kind := kind, vis := {},
                                                   params := ⟨t.params.length, t.params.length + 1⟩, special := none, ret := none,
                                                   astId := id }] }
  else some t

/-- One child of a property (lower.rs:381-404). -/
def lowerAccessors (syn : Syn) (m : AstIdMap) (type_ : TypeRef) (t : Tree) (n : Node) : Option Tree :=
  if n.kind = .methodmap_property_method then n.children.foldlM (lowerAccessor syn m n type_ .definition) t
  else if n.kind = .methodmap_property_native then n.children.foldlM (lowerAccessor syn m n type_ .native) t
  else some t

/-- A property (lower.rs:370-419). -/
def lowerProperty (syn : Syn) (m : AstIdMap) (t : Tree) (n : Node) : Option (Tree × List MmItem) :=
  match syn.field .name n with
  | none => some (t, [])
  | some nm =>
    match syn.type_ n with
    | none => some (t, [])
    | some ty => do
      let start := t.functions.length
      let t ← n.children.foldlM (lowerAccessors syn m ty) t
      let id ← m.idOf n
      some ({ t with properties := t.properties ++ [{ name := syn.text nm, accessors := ⟨start, t.functions.length⟩, type_ := ty,
                                                      astId := id }] },
            [.property t.properties.length])

/-- What the kinds of method nodes say (lower.rs:420-447). -/
def methodKind : Kind → Option (Option FnKind × Option Special)
  | .methodmap_method => some (none, none)
  | .methodmap_method_constructor => some (none, some .constructor)
  | .methodmap_method_destructor => some (none, some .destructor)
  | .methodmap_native => some (some .native, none)
  | .methodmap_native_constructor => some (some .native, some .constructor)
  | .methodmap_native_destructor => some (some .native, some .destructor)
  | _ => none

/-- One child of a methodmap (lower.rs:368-449), with `lower_methodmap_method` (lower.rs:181-198). -/
def lowerMember (syn : Syn) (m : AstIdMap) (t : Tree) (n : Node) : Option (Tree × List MmItem) :=
  if n.kind = .methodmap_property then lowerProperty syn m t n
  else
    match methodKind n.kind with
    | none => some (t, [])
    | some (kind, special) => do
      let (t, i) ← lowerFn syn m (some { pub := true, static := syn.hasStatic n }) kind special t n
      match i with
      | none => some (t, [])
      | some i => some (t, [.method i])

/-- The loop over the children of a methodmap with the vector of its items. -/
def lowerMembers (syn : Syn) (m : AstIdMap) : List Node → Tree → List MmItem → Option (Tree × List MmItem)
  | [], t, items => some (t, items)
  | n :: ns, t, items => do
    let (t, new) ← lowerMember syn m t n
    lowerMembers syn m ns t (items ++ new)

/-- `lower_methodmap` (lower.rs:363-461). -/
def lowerMethodmap (syn : Syn) (m : AstIdMap) (t : Tree) (n : Node) : Option Tree :=
  match syn.field .name n with
  | none => some t
  | some nm => do
    let (t, items) ← lowerMembers syn m n.children t []
    let id ← m.idOf n
    some { t with methodmaps := t.methodmaps ++ [{ name := syn.text nm, items := items, inherits := (syn.field .inherits n).map syn.text,
                                                   astId := id }]
                  top := t.top ++ [.methodmap t.methodmaps.length] }

/-- One child of an enum struct (lower.rs:519-541), with `lower_enum_struct_method` (lower.rs:171-179). -/
def lowerEsMember (syn : Syn) (m : AstIdMap) (t : Tree) (n : Node) : Option (Tree × List EsItem) :=
  if n.kind = .enum_struct_field then
    match syn.field .name n with
    | none => some (t, [])
    | some nm =>
      match syn.type_ n with
      | none => some (t, [])
      | some ty => do
        let id ← m.idOf n
        some ({ t with fields := t.fields ++ [{ name := syn.text nm, type_ := ty, astId := id }] }, [.field t.fields.length])
  else if n.kind = .enum_struct_method then do
    let (t, i) ← lowerFn syn m none none none t n
    match i with
    | none => some (t, [])
    | some i => some (t, [.method i])
  else some (t, [])

/-- The loop over the children of an enum struct with the vector of its items. -/
def lowerEsMembers (syn : Syn) (m : AstIdMap) : List Node → Tree → List EsItem → Option (Tree × List EsItem)
  | [], t, items => some (t, items)
  | n :: ns, t, items => do
    let (t, new) ← lowerEsMember syn m t n
    lowerEsMembers syn m ns t (items ++ new)

/-- `lower_enum_struct` (lower.rs:514-549). -/
def lowerEnumStruct (syn : Syn) (m : AstIdMap) (t : Tree) (n : Node) : Option Tree :=
  match syn.field .name n with
  | none => some t
  | some nm => do
    let (t, items) ← lowerEsMembers syn m n.children t []
    let id ← m.idOf n
    some { t with enumStructs := t.enumStructs ++ [{ name := syn.text nm, items := items, astId := id }]
                  top := t.top ++ [.enumStruct t.enumStructs.length] }

/-- One child of the root (lower.rs:46-60). -/
def lowerTop (syn : Syn) (m : AstIdMap) (t : Tree) (n : Node) : Option Tree :=
  match n.kind with
  | .function_definition | .function_declaration => lowerFunction syn m t n
  | .enum_ => lowerEnum syn m t n
  | .global_variable_declaration => n.children.foldlM (lowerNewVar syn m n) t
  | .old_global_variable_declaration => n.children.foldlM (lowerOldVar syn m n) t
  | .enum_struct => lowerEnumStruct syn m t n
  | .methodmap => lowerMethodmap syn m t n
  | .typedef => lowerTypedef syn m t n
  | .typeset => lowerTypeset syn m t n
  | .functag => lowerFunctag syn m t n
  | .funcenum => lowerFuncenum syn m t n
  | _ => some t

mutual
/-- The matches of the macro query (lower.rs:63-75): every node of the two kinds in the tree, in document order. -/
def macroNodes : Node → List Node
  | .mk k s e cs => (if k = .preproc_macro ∨ k = .preproc_define then [.mk k s e cs] else []) ++ macroNodesIn cs

def macroNodesIn : List Node → List Node
  | [] => []
  | c :: cs => macroNodes c ++ macroNodesIn cs
end

/-- One match of the macro query (lower.rs:77-86). -/
def lowerMacro (syn : Syn) (m : AstIdMap) (t : Tree) (n : Node) : Option Tree :=
  match syn.field .name n with
  | none => some t
  | some nm => do
    let id ← m.idOf n
    some { t with macros := t.macros ++ [{ name := syn.text nm, astId := id }], top := t.top ++ [.macroDef t.macros.length] }

/-- `Ctx::lower` (lower.rs:42-89) with `Ctx::new` (lower.rs:28-36); `none` is a panic. -/
def lower (syn : Syn) (root : Node) : Option Tree := do
  let m := AstIdMap.ofTree root
  let t ← root.children.foldlM (lowerTop syn m) {}
  (macroNodes root).foldlM (lowerMacro syn m) t

/-! ## Reading the item tree -/

/-- Iteration over an `IdxRange`. -/
def Range.indices (r : Range) : List Nat := List.range' r.start (r.stop - r.start)

/-- All answers, or nothing if one is missing (a panic of an arena index). -/
def all {α β : Type} (f : α → Option β) : List α → Option (List β)
  | [] => some []
  | a :: as => do
    let b ← f a
    let bs ← all f as
    some (b :: bs)

namespace Spec

open Verif.Hir.Spec

/-! ## What a file declares: nested descriptions, without arenas and ids -/

structure DParam where
  hasDefault : Bool
  isRest : Bool
  isConst : Bool
  type_ : Option TypeRef
  at_ : Ptr
deriving DecidableEq

structure DFn where
  name : String
  kind : FnKind
  vis : Vis
  params : List DParam
  special : Option Special
  ret : Option TypeRef
  at_ : Ptr
deriving DecidableEq

structure DVariant where
  name : String
  at_ : Ptr
deriving DecidableEq

/-- A member of a typeset (its type is there) or of a funcenum (its type may be missing), or a typedef or functag. -/
structure DSig where
  name : Option String
  params : List DParam
  type_ : Option TypeRef
  at_ : Ptr
deriving DecidableEq

inductive DEsMember where
  | field (name : String) (type_ : TypeRef) (at_ : Ptr)
  | method (f : DFn)
deriving DecidableEq

inductive DMmMember where
  | property (name : String) (type_ : TypeRef) (accessors : List DFn) (at_ : Ptr)
  | method (f : DFn)
deriving DecidableEq

/-- An item of a file as a user sees it in the outline. -/
inductive Decl where
  | function (f : DFn)
  | global (name : String) (vis : Vis) (type_ : Option TypeRef) (at_ : Ptr)
  | enum (name : String) (variants : List DVariant) (at_ : Ptr)
  | variant (v : DVariant)
  | enumStruct (name : String) (members : List DEsMember) (at_ : Ptr)
  | methodmap (name : String) (inherits : Option String) (members : List DMmMember) (at_ : Ptr)
  | typedef (s : DSig)
  | typeset (name : String) (members : List DSig) (at_ : Ptr)
  | functag (s : DSig)
  | funcenum (name : String) (members : List DSig) (at_ : Ptr)
  | macroDef (name : String) (at_ : Ptr)
deriving DecidableEq

/-! ## What the source declares -/

def paramOf (syn : Syn) (n : Node) : Option DParam :=
  if n.kind = .parameter_declaration then
    some ⟨(syn.field .defaultValue n).isSome, false, (syn.field .storageClass n).isSome, syn.type_ n, n.ptr⟩
  else if n.kind = .rest_parameter then
    some ⟨(syn.field .defaultValue n).isSome, true, (syn.field .storageClass n).isSome, syn.type_ n, n.ptr⟩
  else none

/-- The parameters in the parameter list of `n`. -/
def paramsOf (syn : Syn) (n : Node) : List DParam :=
  ((syn.field .parameters n).map (fun p => p.children.filterMap (paramOf syn))).getD []

/-- A function: one with a name. -/
def fnOf (syn : Syn) (vis : Vis) (kind : FnKind) (special : Option Special) (n : Node) : Option DFn :=
  (syn.field .name n).map (fun nm => ⟨syn.text nm, kind, vis, paramsOf syn n, special, syn.returnType n, n.ptr⟩)

def varOf (syn : Syn) (vis : Vis) (type_ : Option TypeRef) (n : Node) : Option Decl :=
  (syn.field .name n).map (fun nm => .global (syn.text nm) vis type_ n.ptr)

def variantOf (syn : Syn) (n : Node) : Option DVariant := (syn.field .name n).map (fun nm => ⟨syn.text nm, n.ptr⟩)

def variantsOf (syn : Syn) (n : Node) : List DVariant :=
  ((syn.field .entries n).map (fun en => (en.children.filter (·.kind = .enum_entry)).filterMap (variantOf syn))).getD []

/-- A signature of a typeset: one with a return type. -/
def typesetSigOf (syn : Syn) (n : Node) : Option DSig :=
  (syn.returnType n).map (fun ty => ⟨none, paramsOf syn n, some ty, n.ptr⟩)

def funcenumSigOf (syn : Syn) (n : Node) : DSig := ⟨none, paramsOf syn n, syn.returnType n, n.ptr⟩

/-- The getter or setter in a `get`/`set` node `g` of a method `n` of a property of type `type_`. -/
def accessorOf (syn : Syn) (type_ : TypeRef) (kind : FnKind) (n g : Node) : Option DFn :=
  if g.kind = .methodmap_property_getter then some ⟨"get", kind, { pub := true }, [], none, some type_, n.ptr⟩
  else if g.kind = .methodmap_property_setter then
    (syn.field .parameter g).map (fun p =>
      ⟨"set", kind, {}, [⟨false, false, (syn.field .storageClass p).isSome, syn.type_ p, p.ptr⟩], none, none, n.ptr⟩)
  else none

def accessorsOf (syn : Syn) (type_ : TypeRef) (n : Node) : List DFn :=
  if n.kind = .methodmap_property_method then n.children.filterMap (accessorOf syn type_ .definition n)
  else if n.kind = .methodmap_property_native then n.children.filterMap (accessorOf syn type_ .native n)
  else []

def propertyOf (syn : Syn) (n : Node) : Option DMmMember :=
  (syn.field .name n).bind (fun nm => (syn.type_ n).map (fun ty => .property (syn.text nm) ty (n.children.flatMap (accessorsOf syn ty)) n.ptr))

def methodOf (syn : Syn) (kind : FnKind) (special : Option Special) (n : Node) : Option DMmMember :=
  (fnOf syn { pub := true, static := syn.hasStatic n } kind special n).map .method

/-- A member of a methodmap. -/
def mmMemberOf (syn : Syn) (n : Node) : Option DMmMember :=
  match n.kind with
  | .methodmap_property => propertyOf syn n
  | .methodmap_method => methodOf syn (syn.fnKind n) none n
  | .methodmap_method_constructor => methodOf syn (syn.fnKind n) (some .constructor) n
  | .methodmap_method_destructor => methodOf syn (syn.fnKind n) (some .destructor) n
  | .methodmap_native => methodOf syn .native none n
  | .methodmap_native_constructor => methodOf syn .native (some .constructor) n
  | .methodmap_native_destructor => methodOf syn .native (some .destructor) n
  | _ => none

/-- A member of an enum struct. -/
def esMemberOf (syn : Syn) (n : Node) : Option DEsMember :=
  match n.kind with
  | .enum_struct_field => (syn.field .name n).bind (fun nm => (syn.type_ n).map (fun ty => .field (syn.text nm) ty n.ptr))
  | .enum_struct_method => (fnOf syn (syn.vis n) (syn.fnKind n) none n).map .method
  | _ => none

/-- What a child of the root declares. `anon` gives the name of an enum without a name. -/
def declsOf (syn : Syn) (anon : Node → String) (n : Node) : List Decl :=
  match n.kind with
  | .function_definition => ((fnOf syn (syn.vis n) (syn.fnKind n) none n).map Decl.function).toList
  | .function_declaration => ((fnOf syn (syn.vis n) (syn.fnKind n) none n).map Decl.function).toList
  | .enum_ => (variantsOf syn n).map .variant ++ [.enum (((syn.field .name n).map syn.text).getD (anon n)) (variantsOf syn n) n.ptr]
  | .global_variable_declaration => (n.children.filter (·.kind = .variable_declaration)).filterMap (varOf syn (syn.vis n) (syn.type_ n))
  | .old_global_variable_declaration =>
    (n.children.filter (·.kind = .old_variable_declaration)).filterMap (fun d => varOf syn (syn.vis n) (syn.type_ d) d)
  | .enum_struct => ((syn.field .name n).map (fun nm => .enumStruct (syn.text nm) (n.children.filterMap (esMemberOf syn)) n.ptr)).toList
  | .methodmap =>
    ((syn.field .name n).map (fun nm =>
      .methodmap (syn.text nm) ((syn.field .inherits n).map syn.text) (n.children.filterMap (mmMemberOf syn)) n.ptr)).toList
  | .typedef =>
    ((syn.field .name n).bind (fun nm => (n.children.find? (·.kind = .typedef_expression)).bind (fun ex =>
      (syn.returnType ex).map (fun ty => .typedef ⟨some (syn.text nm), paramsOf syn ex, some ty, n.ptr⟩)))).toList
  | .typeset =>
    ((syn.field .name n).map (fun nm =>
      .typeset (syn.text nm) ((n.children.filter (·.kind = .typedef_expression)).filterMap (typesetSigOf syn)) n.ptr)).toList
  | .functag =>
    ((syn.field .name n).map (fun nm => .functag ⟨some (syn.text nm), paramsOf syn n, syn.returnType n, n.ptr⟩)).toList
  | .funcenum =>
    ((syn.field .name n).map (fun nm =>
      .funcenum (syn.text nm) ((n.children.filter (·.kind = .funcenum_member)).map (funcenumSigOf syn)) n.ptr)).toList
  | _ => []

mutual
/-- The nodes of a tree in the order of the text. -/
def nodes : Node → List Node
  | .mk k s e cs => .mk k s e cs :: nodesIn cs

def nodesIn : List Node → List Node
  | [] => []
  | c :: cs => nodes c ++ nodesIn cs
end

/-- The definitions of macros, with and without parameters. -/
def macroDefs (root : Node) : List Node := (nodes root).filter fun n => n.kind ∈ [.preproc_macro, .preproc_define]

def macroOf (syn : Syn) (n : Node) : Option Decl := (syn.field .name n).map (fun nm => .macroDef (syn.text nm) n.ptr)

/-- Everything the file declares: the items below the root in order, then its macros in order. -/
def decls (syn : Syn) (anon : Node → String) (root : Node) : List Decl :=
  root.children.flatMap (declsOf syn anon) ++ (macroDefs root).filterMap (macroOf syn)

/-! ## What a reader of the item tree sees -/

def seeParam (m : AstIdMap) (t : Tree) (i : Nat) : Option DParam := do
  let p ← t.params[i]?
  let at_ ← m.get p.astId
  some ⟨p.hasDefault, p.isRest, p.isConst, p.type_, at_⟩

def seeFn (m : AstIdMap) (t : Tree) (i : Nat) : Option DFn := do
  let f ← t.functions[i]?
  let ps ← all (seeParam m t) f.params.indices
  let at_ ← m.get f.astId
  some ⟨f.name, f.kind, f.vis, ps, f.special, f.ret, at_⟩

def seeVariant (m : AstIdMap) (t : Tree) (i : Nat) : Option DVariant := do
  let v ← t.variants[i]?
  let at_ ← m.get v.astId
  some ⟨v.name, at_⟩

def seeTypedef (m : AstIdMap) (t : Tree) (i : Nat) : Option DSig := do
  let d ← t.typedefs[i]?
  let ps ← all (seeParam m t) d.params.indices
  let at_ ← m.get d.astId
  some ⟨d.name, ps, some d.type_, at_⟩

def seeFunctag (m : AstIdMap) (t : Tree) (i : Nat) : Option DSig := do
  let d ← t.functags[i]?
  let ps ← all (seeParam m t) d.params.indices
  let at_ ← m.get d.astId
  some ⟨d.name, ps, d.type_, at_⟩

def seeEsItem (m : AstIdMap) (t : Tree) : EsItem → Option DEsMember
  | .method i => (seeFn m t i).map .method
  | .field i => do
    let f ← t.fields[i]?
    let at_ ← m.get f.astId
    some (.field f.name f.type_ at_)

def seeMmItem (m : AstIdMap) (t : Tree) : MmItem → Option DMmMember
  | .method i => (seeFn m t i).map .method
  | .property i => do
    let p ← t.properties[i]?
    let fs ← all (seeFn m t) p.accessors.indices
    let at_ ← m.get p.astId
    some (.property p.name p.type_ fs at_)

/-- Follows the indices of a top level item and the ids of nodes. -/
def see (m : AstIdMap) (t : Tree) : FileItem → Option Decl
  | .function i => (seeFn m t i).map .function
  | .global i => do
    let v ← t.variables[i]?
    let at_ ← m.get v.astId
    some (.global v.name v.vis v.type_ at_)
  | .enum i => do
    let e ← t.enums[i]?
    let vs ← all (seeVariant m t) e.variants.indices
    let at_ ← m.get e.astId
    some (.enum e.name vs at_)
  | .variant i => (seeVariant m t i).map .variant
  | .enumStruct i => do
    let e ← t.enumStructs[i]?
    let ms ← all (seeEsItem m t) e.items
    let at_ ← m.get e.astId
    some (.enumStruct e.name ms at_)
  | .methodmap i => do
    let e ← t.methodmaps[i]?
    let ms ← all (seeMmItem m t) e.items
    let at_ ← m.get e.astId
    some (.methodmap e.name e.inherits ms at_)
  | .typedef i => (seeTypedef m t i).map .typedef
  | .typeset i => do
    let e ← t.typesets[i]?
    let ms ← all (seeTypedef m t) e.typedefs.indices
    let at_ ← m.get e.astId
    some (.typeset e.name ms at_)
  | .functag i => (seeFunctag m t i).map .functag
  | .funcenum i => do
    let e ← t.funcenums[i]?
    let ms ← all (seeFunctag m t) e.functags.indices
    let at_ ← m.get e.astId
    some (.funcenum e.name ms at_)
  | .macroDef i => do
    let v ← t.macros[i]?
    let at_ ← m.get v.astId
    some (.macroDef v.name at_)

/-- What the grammar promises about named children. -/
structure Grammar (syn : Syn) : Prop where
  child : ∀ f n c, syn.field f n = some c → c ∈ n.children
  entries : ∀ n c, syn.field .entries n = some c → c.kind = .enum_entries
  parameters : ∀ n c, syn.field .parameters n = some c → c.kind = .parameter_declarations
  parameter : ∀ n c, syn.field .parameter n = some c → c.kind = .parameter_declaration

/-- Every named macro definition of the tree is in the id table: it stands where items stand. -/
def MacrosPlaced (syn : Syn) (root : Node) : Prop :=
  ∀ n ∈ macroDefs root, (syn.field .name n).isSome → ∃ path, Recorded root path n

end Spec

end Verif.Hir.Items
