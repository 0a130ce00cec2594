/-!
# Model of global names

`crates/hir-def/src/db.rs:214-443` (`DefMap`), `crates/hir-def/src/resolver.rs:94-187` (the global part of `resolve_ident`) and
`resolver.rs:389-396` (`file_def_maps`).
-/

namespace Verif.Hir.Globals

abbrev Name := List Char
abbrev FileId := Nat

/-- The variants of `FileItem` (item_tree.rs), which are those of `FileDefId` together with `property`. -/
inductive Kind where
  | function | macro_ | global | enumStruct | methodmap | enum_ | variant | typedef | typeset | functag | funcenum | property
deriving DecidableEq

/-- A top level item of an item tree. `id` stands for the interned id of its definition (`intern` of db.rs:249-383). `name` is `none`
for a typedef or functag without name. -/
structure Item where
  kind : Kind
  name : Option Name
  id : Nat
deriving DecidableEq

/-- `FileDefId`. -/
structure Def where
  kind : Kind
  id : Nat
deriving DecidableEq

/-- `DefMap` (db.rs:215-223) without the block and the index of macros. -/
structure DefMap where
  file : FileId
  values : List (Name × List Def) := []
  declarations : List Def := []

/-- `self.values.entry(name).or_default().push(def)` (db.rs:431). -/
def push (name : Name) (d : Def) : List (Name × List Def) → List (Name × List Def)
  | [] => [(name, [d])]
  | (n, ds) :: rest => if n = name then (n, ds ++ [d]) :: rest else (n, ds) :: push name d rest

/-- `declare` (db.rs:430-433). -/
def DefMap.declare (m : DefMap) (name : Name) (d : Def) : DefMap :=
  { m with values := push name d m.values, declarations := m.declarations ++ [d] }

/-- `get` (db.rs:392-394). -/
def DefMap.get (m : DefMap) (name : Name) : Option (List Def) := m.values.lookup name

/-- One turn of the loop of `file_def_map_query` (db.rs:245-387). -/
def DefMap.add (m : DefMap) (it : Item) : DefMap :=
  match it.kind, it.name with
  | .property, _ => m
  | _, none => m
  | k, some n => m.declare n ⟨k, it.id⟩

/-- `file_def_map_query` (db.rs:240-390). -/
def fileDefMap (items : FileId → List Item) (file : FileId) : DefMap := (items file).foldl DefMap.add { file }

/-- `file_def_maps` (resolver.rs:389-396). `nodes` are the files of the project in the order of the hash set, `none` if the file has no
project. -/
def fileDefMaps (items : FileId → List Item) (file : FileId) (nodes : Option (List FileId)) : List DefMap :=
  fileDefMap items file :: (match nodes with
    | none => []
    | some fs => fs.map (fileDefMap items))

/-- `Vec::dedup`: drops elements that equal their predecessor. -/
def dedup {α : Type} [DecidableEq α] : List α → List α
  | [] => []
  | [a] => [a]
  | a :: b :: l => if a = b then dedup (b :: l) else a :: dedup (b :: l)

/-- `ValueNs` without locals: the list of functions, or a definition of another kind. -/
inductive Value where
  | functions (fs : List (FileId × Def))
  | one (file : FileId) (d : Def)
deriving DecidableEq

/-- Lines 118-124: the entries of all def maps. -/
def entries (maps : List DefMap) (name : Name) : List (Def × FileId) :=
  maps.flatMap fun m => ((m.get name).getD []).map fun d => (d, m.file)

def isMethodmap (e : Def × FileId) : Bool := e.1.kind == .methodmap
def isFunction (e : Def × FileId) : Bool := e.1.kind == .function
def swap (e : Def × FileId) : FileId × Def := (e.2, e.1)

/-- Lines 126-182 for the entries without adjacent duplicates. -/
def pick : List (Def × FileId) → Option Value
  | [] => none
  | [(d, f)] => if d.kind = .function then some (.functions [(f, d)]) else some (.one f d)
  | es => match es.find? isMethodmap with
    | some (d, f) => some (.one f d)
    | none => some (.functions ((es.filter isFunction).map swap))

/-- `resolve_ident` in the global scope (resolver.rs:117-183), which is the outermost one: `continue` ends the search. -/
def resolve (items : FileId → List Item) (file : FileId) (nodes : Option (List FileId)) (name : Name) : Option Value :=
  pick (dedup (entries (fileDefMaps items file nodes) name))

/-! ## Specification -/

namespace Spec

/-- `f` is the file itself or belongs to its project. -/
def Visible (file : FileId) (nodes : Option (List FileId)) (f : FileId) : Prop :=
  f = file ∨ ∃ fs, nodes = some fs ∧ f ∈ fs

/-- `d` is a declaration of `name` in the visible file `f`. -/
def Declares (items : FileId → List Item) (file : FileId) (nodes : Option (List FileId)) (name : Name) (f : FileId) (d : Def) : Prop :=
  Visible file nodes f ∧ ⟨d.kind, some name, d.id⟩ ∈ items f ∧ d.kind ≠ .property

/-- The declarations an answer names. -/
def Value.defs : Value → List (FileId × Def)
  | .functions fs => fs
  | .one f d => [(f, d)]

end Spec

end Verif.Hir.Globals
