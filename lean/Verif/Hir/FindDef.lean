import Verif.Hir.Scope
import Verif.Hir.Globals
import Verif.Hir.EnumStruct
import Verif.Hir.Methodmap
/-!
# Model of the way from a use to the function around it

`crates/hir/src/semantics.rs:182-243` (`find_def`) with `function_node_to_def` (455-479), `method_node_to_def` (344-379),
`property_method_node_to_def` (292-342), `property_getter_setter_node_to_def` (282-290) and the common end `function_node_to_def_` (381-453),
for nodes that are not the name of a declaration (`find_name_def` answers `None` for those).
-/

namespace Verif.Hir.FindDef

abbrev Name := List Char
abbrev FileId := Nat

/-- The field `body` of a node. -/
inductive Body where
  | none | block | other
deriving DecidableEq

/-- An ancestor of the node. Names are the fields `name`; `none` if a node has none. -/
inductive Node where
  /-- `function_definition` -/
  | function (name : Option Name) (body : Body)
  /-- `enum_struct_method`, `methodmap_native`, `methodmap_method` and their constructors and destructors -/
  | member (name : Option Name) (body : Body)
  /-- `methodmap_property_method` and `methodmap_property_native`; `getter` tells whether the first child of these kinds is a getter or a
  setter (semantics.rs:302-308) -/
  | propertyMethod (getter : Option Bool) (body : Body)
  /-- `methodmap_property_getter` and `methodmap_property_setter` -/
  | getterSetter
  /-- `methodmap_property` -/
  | property (name : Option Name)
  /-- `enum_struct` and `methodmap` -/
  | container (name : Option Name)
  | enum_
  | typedef (name : Option Name)
  /-- `preproc_include` and `preproc_tryinclude` -/
  | include
  | sourceFile
  /-- Any other node; the root is one of these when the file cannot be parsed at all (`ERROR`). -/
  | other
deriving DecidableEq

/-- The condition of the loop in lines 190-206. -/
def Node.stops : Node → Bool
  | .function _ _ | .member _ _ | .propertyMethod _ _ | .getterSetter | .enum_ | .typedef _ => true
  | _ => false

/-- Lines 188-212: from the parent upwards to the first node of these kinds, or to the root. The second component are the ancestors of the
node found. -/
def climb : List Node → Option (Node × List Node)
  | [] => none
  | [n] => some (n, [])
  | n :: m :: rest => if n.stops then some (n, m :: rest) else climb (m :: rest)

/-- The function that was chosen: a top level function by its id, a method of an enum struct by the id of the enum struct and its position
in it, a function of a methodmap by its id. -/
inductive Fn where
  | top (id : Nat)
  | es (id idx : Nat)
  | mm (fn : Nat)
deriving DecidableEq

inductive Answer where
  | crash
  | nothing
  /-- `source_node_to_def`: the global names. -/
  | global
  /-- `include_node_to_def` -/
  | file
  /-- `typedef_node_to_def` for a typedef of that name -/
  | typedef (name : Option Name)
  /-- `function_node_to_def_` with this function; `body` is false if the node has no body. -/
  | inside (f : Fn) (body : Bool)
deriving DecidableEq

/-- What the queries know of a file: its top level items, the members of enum structs, the methodmaps, the iteration order of hash maps,
which functions are getters. `fuel` bounds the depth of methodmaps (see `Verif.Hir.Methodmap`). -/
structure Env where
  items : List Globals.Item
  ess : Nat → List EnumStruct.Member
  mms : Nat → Methodmap.Methodmap
  order : Nat → List (Name × Nat) → List (Name × Nat)
  isGetter : Nat → Bool
  fuel : Nat

/-- `file_def_map(file_id).get_first_from_str(name)` (db.rs:400-402). -/
def Env.first (env : Env) (n : Name) : Option Globals.Def :=
  ((env.items.foldl Globals.DefMap.add { file := 0 }).get n).bind List.head?

/-- `function_node_to_def_` up to the analyzer (lines 390-398): the assertion of line 397. -/
def finish (f : Fn) : Body → Answer
  | .none => .inside f false
  | .block => .inside f true
  | .other => .crash

/-- `function_node_to_def` (lines 455-479). -/
def Env.functionNode (env : Env) : Option Name → Body → Answer
  | none, _ => .nothing
  | some _, .none => .nothing
  | some _, .other => .crash
  | some n, .block => match env.first n with
    | none => .nothing
    | some d => if d.kind = .function then finish (.top d.id) .block else .crash

/-- `data.items(name)` and `data.method(idx)` for an enum struct (lines 365-369; data.rs:482-491). -/
def Env.esMethod (env : Env) (id : Nat) (m : Name) : Option Fn :=
  ((EnumStruct.data (env.ess id)).itemsMap.lookup m).bind fun idx => match (EnumStruct.data (env.ess id)).items[idx]? with
    | some (.method _ _) => some (.es id idx)
    | _ => none

/-- `data.method` for an item of a methodmap (data.rs:271-278). -/
def itemMethod (it : Methodmap.Item) : Option Fn := if it.kind = .property then none else (it.fns.head?).map fun f => .mm f.1

/-- `method_node_to_def` (lines 344-379); `rest` are the ancestors of the method. -/
def Env.methodNode (env : Env) (name : Option Name) (body : Body) (rest : List Node) : Answer :=
  match name, rest.head? with
  | some m, some (.container (some c)) => match env.first c with
    | none => .nothing
    | some d =>
      if d.kind = .enumStruct then match env.esMethod d.id m with
        | none => .nothing
        | some f => finish f body
      else if d.kind = .methodmap then match Methodmap.data env.mms env.order env.fuel d.id with
        | none => .crash
        | some data => match (data.lookup m).bind itemMethod with
          | none => .nothing
          | some f => finish f body
      else .nothing
  | _, _ => .nothing

/-- The accessor of that kind among those of a property (lines 327-339). -/
def Env.accessor (env : Env) (getter : Bool) (it : Methodmap.Item) : Option Fn :=
  if it.kind = .property then (it.fns.find? fun f => env.isGetter f.1 == getter).map fun f => .mm f.1 else none

/-- `property_method_node_to_def` (lines 292-342); `rest` are the ancestors of the accessor. -/
def Env.accessorNode (env : Env) (getter : Option Bool) (body : Body) (rest : List Node) : Answer :=
  match getter, rest with
  | some g, .property (some p) :: .container (some c) :: _ => match body with
    | .none => .nothing
    | .other => .crash
    | .block => match env.first c with
      | some ⟨.methodmap, id⟩ => match Methodmap.data env.mms env.order env.fuel id with
        | none => .crash
        | some data => match (data.lookup p).bind (env.accessor g) with
          | none => .nothing
          | some f => finish f body
      | _ => .nothing
  | _, _ => .nothing

/-- The dispatch of lines 218-242. -/
def Env.dispatch (env : Env) (n : Node) (rest : List Node) : Answer :=
  match n with
  | .function name body => env.functionNode name body
  | .getterSetter => match rest with
    | .propertyMethod g b :: rest' => env.accessorNode g b rest'
    | _ => .nothing
  | .propertyMethod g b => env.accessorNode g b rest
  | .member name body => env.methodNode name body rest
  | .typedef name => .typedef name
  | .enum_ | .sourceFile => .global
  | .property _ | .container _ | .include | .other => .crash

/-- `find_def` (lines 182-243) for a node with these ancestors, the parent first. -/
def Env.findDef (env : Env) (ancestors : List Node) : Answer :=
  match ancestors, climb ancestors with
  | parent :: _, some (n, rest) => if parent = .include then .file else env.dispatch n rest
  | _, _ => .nothing

/-- What an identifier that starts at `p` resolves to (lines 446-452 with `SourceAnalyzer::new_for_body_no_infer`): in the scopes of the
chosen function. `order` is the order of `scope_by_expr` (see `Verif.Hir.Scope`). `none` is a panic. -/
def Env.resolve {G : Type} (env : Env) (funcs : Fn → Scope.Func) (order : Fn → List (Scope.Range × Nat)) (method : Bool) (global : Name → Option G)
    (ancestors : List Node) (p : Nat) (x : Name) : Option (Option (Scope.Target G)) :=
  match env.findDef ancestors with
  | .crash => none
  | .inside f true => some ((funcs f).resolve (order f) method global p x)
  | .global => some ((global x).map .global)
  | _ => some none

/-! ## Specification -/

namespace Spec

/-- A use in a body: the nodes between it and the declaration of the function, none of which is a declaration. -/
def Plain (inner : List Node) : Prop := ∀ n ∈ inner, n = .other

/-- `Around env ancestors f`: a node with these ancestors is in the body of `f`. -/
inductive Around (env : Env) : List Node → Fn → Prop where
  /-- In a top level function. -/
  | function (inner : List Node) (n : Name) (id : Nat) : Plain inner → ⟨.function, some n, id⟩ ∈ env.items →
      Around env (inner ++ [.function (some n) .block, .sourceFile]) (.top id)
  /-- In a method of an enum struct. -/
  | es (inner : List Node) (c m : Name) (id idx ptr : Nat) : Plain inner → ⟨.enumStruct, some c, id⟩ ∈ env.items → (env.ess id)[idx]? = some (.method m ptr) →
      Around env (inner ++ [.member (some m) .block, .container (some c), .sourceFile]) (.es id idx)
  /-- In a method of a methodmap. -/
  | mm (inner : List Node) (c m : Name) (id fn ast : Nat) (it : Methodmap.Item) : Plain inner → ⟨.methodmap, some c, id⟩ ∈ env.items → (m, it) ∈ (env.mms id).items →
      it.kind ≠ .property → it.fns = [(fn, ast)] → Around env (inner ++ [.member (some m) .block, .container (some c), .sourceFile]) (.mm fn)
  /-- In an accessor of a property. -/
  | accessor (inner : List Node) (c p : Name) (id fn ast : Nat) (it : Methodmap.Item) : Plain inner → ⟨.methodmap, some c, id⟩ ∈ env.items → (p, it) ∈ (env.mms id).items →
      it.kind = .property → (fn, ast) ∈ it.fns →
      Around env (inner ++ [.propertyMethod (some (env.isGetter fn)) .block, .property (some p), .container (some c), .sourceFile]) (.mm fn)

/-- No top level definition of the file has the same name as another. -/
def SoleNames (env : Env) : Prop := (env.items.filterMap fun it => if it.kind = .property then none else it.name).Nodup

instance (env : Env) : Decidable (SoleNames env) := inferInstanceAs (Decidable (List.Nodup _))

/-- No member of an enum struct or methodmap has the same name as another of the same container. -/
def SoleMembers (env : Env) : Prop := (∀ id, EnumStruct.Spec.Unique (env.ess id)) ∧ ∀ id, ((env.mms id).items.map (·.1)).Nodup

/-- A property has at most one getter and one setter. -/
def SoleAccessors (env : Env) : Prop := ∀ id p it, (p, it) ∈ (env.mms id).items → ∀ f ∈ it.fns, ∀ f' ∈ it.fns, env.isGetter f.1 = env.isGetter f'.1 → f = f'

/-- No methodmap inherits from itself, and `fuel` is enough for all of them. -/
def Acyclic (env : Env) : Prop := ∀ id, ∃ chain, Methodmap.Spec.Chain env.mms id chain ∧ chain.length ≤ env.fuel

/-- The first declaration of `n` at the top level of the file is this one. -/
def First (env : Env) (n : Name) (k : Globals.Kind) (id : Nat) : Prop :=
  k ≠ .property ∧ ∃ before after, env.items = before ++ ⟨k, some n, id⟩ :: after ∧ ∀ it ∈ before, it.name = some n → it.kind = .property

/-- The last member of that name is the one at `idx`, a method. -/
def LastMethod (ms : List EnumStruct.Member) (m : Name) (idx : Nat) : Prop :=
  (∃ ptr, ms[idx]? = some (.method m ptr)) ∧ ∀ j mem, idx < j → ms[j]? = some mem → mem.name ≠ m

/-- The member `m` of a methodmap, its own (the last one of that name) or else that of the nearest ancestor that has one. -/
def MemberOf (env : Env) (id : Nat) (m : Name) (it : Methodmap.Item) : Prop :=
  ∃ chain, Methodmap.Spec.Chain env.mms id chain ∧ Methodmap.Spec.member env.mms chain m = some it

/-- `Picked env ancestors f`: the names around the use lead to `f` when of several declarations of the same name the first one counts at the top level, and the last one in an
enum struct or methodmap. -/
inductive Picked (env : Env) : List Node → Fn → Prop where
  | function (inner : List Node) (n : Name) (id : Nat) : Plain inner → First env n .function id → Picked env (inner ++ [.function (some n) .block, .sourceFile]) (.top id)
  | es (inner : List Node) (c m : Name) (id idx : Nat) : Plain inner → First env c .enumStruct id → LastMethod (env.ess id) m idx →
      Picked env (inner ++ [.member (some m) .block, .container (some c), .sourceFile]) (.es id idx)
  | mm (inner : List Node) (c m : Name) (id fn ast : Nat) (it : Methodmap.Item) (more : List (Nat × Nat)) : Plain inner → First env c .methodmap id → MemberOf env id m it →
      it.kind ≠ .property → it.fns = (fn, ast) :: more → Picked env (inner ++ [.member (some m) .block, .container (some c), .sourceFile]) (.mm fn)
  | accessor (inner : List Node) (c p : Name) (g : Bool) (id fn ast : Nat) (it : Methodmap.Item) (before after : List (Nat × Nat)) : Plain inner →
      First env c .methodmap id → MemberOf env id p it → it.kind = .property → it.fns = before ++ (fn, ast) :: after → env.isGetter fn = g → (∀ f ∈ before, env.isGetter f.1 ≠ g) →
      Picked env (inner ++ [.propertyMethod (some g) .block, .property (some p), .container (some c), .sourceFile]) (.mm fn)

/-- The nodes around a use in the body of a function, method or accessor. -/
inductive InBody : List Node → Prop where
  | function (inner : List Node) (n : Name) : Plain inner → InBody (inner ++ [.function (some n) .block, .sourceFile])
  | member (inner : List Node) (c m : Name) : Plain inner → InBody (inner ++ [.member (some m) .block, .container (some c), .sourceFile])
  | accessor (inner : List Node) (c p : Name) (g : Bool) : Plain inner →
      InBody (inner ++ [.propertyMethod (some g) .block, .property (some p), .container (some c), .sourceFile])

end Spec

end Verif.Hir.FindDef
