/-!
# Model of the members of methodmaps

`crates/hir-def/src/data.rs:143-292` (`MethodmapData`) and `crates/hir-def/src/child_by_source.rs:127-158`.

A methodmap is identified by a number. The name after `<` is resolved by `resolve_ident` (see `Verif.Hir.Globals`): `parent` is the
methodmap it resolves to, `none` if there is no such name or it is no methodmap (then a diagnostic is reported, data.rs:173-186).
-/

namespace Verif.Hir.Methodmap

abbrev Name := List Char

inductive ItemKind where
  | property | method | constructor | destructor
deriving DecidableEq

/-- `MethodmapItemData` (data.rs:115-120). `fns` are the ids of the functions the item brings (the accessors of a property, the method
itself otherwise) with the index of their node in the `AstIdMap` of their file; `prop` is the id of a property with the index of its
node. -/
structure Item where
  kind : ItemKind
  fns : List (Nat × Nat)
  prop : Option (Nat × Nat) := none
deriving DecidableEq

/-- A methodmap as the item tree has it: the file, the items with their names, and what the name after `<` resolves to. -/
structure Methodmap where
  file : Nat
  parent : Option Nat
  items : List (Name × Item)

/-- `MethodmapData` (data.rs:108-112). `itemsMap` is the hash map as a list without repeated keys, in the order of its iteration. -/
structure Data where
  items : List Item := []
  itemsMap : List (Name × Nat) := []

/-- Insertion into a hash map. Where the key ends up in the iteration does not matter: see `order`. -/
def put (n : Name) (i : Nat) : List (Name × Nat) → List (Name × Nat)
  | [] => [(n, i)]
  | (m, j) :: rest => if m = n then (n, i) :: rest else (m, j) :: put n i rest

/-- `items.alloc` and `items_map.insert` (data.rs:167-172, 222-223, 240-242). -/
def Data.add (d : Data) (n : Name) (it : Item) : Data := { items := d.items ++ [it], itemsMap := put n d.items.length d.itemsMap }

def Data.addPair (d : Data) (p : Name × Item) : Data := d.add p.1 p.2

/-- The pairs `inherits_data.items_map.iter()` yields with the items they stand for (data.rs:168-171). `none` is the panic of an index
outside of the arena. -/
def inherited (d : Data) : List (Name × Nat) → Option (List (Name × Item))
  | [] => some []
  | (n, i) :: rest => match d.items[i]?, inherited d rest with
    | some it, some l => some ((n, it) :: l)
    | _, _ => none

/-- `methodmap_data_with_diagnostics_query` (data.rs:151-252). `order` is the order in which the hash map of a methodmap is iterated.
`fuel` bounds the depth of the calls of `db.methodmap_data`: the query has no recovery from cycles, it panics. -/
def data (mms : Nat → Methodmap) (order : Nat → List (Name × Nat) → List (Name × Nat)) : Nat → Nat → Option Data
  | 0, _ => none
  | fuel + 1, id =>
    match (mms id).parent with
    | none => some ((mms id).items.foldl Data.addPair {})
    | some p => match data mms order fuel p with
      | none => none
      | some pd => match inherited pd (order p pd.itemsMap) with
        | none => none
        | some inh => some ((mms id).items.foldl Data.addPair (inh.foldl Data.addPair {}))

/-- `items` followed by `item` (data.rs:267-291). -/
def Data.lookup (d : Data) (n : Name) : Option Item := (d.itemsMap.lookup n).bind (d.items[·]?)

def Item.isConstructor (it : Item) : Bool := it.kind == .constructor

/-- `constructor` (data.rs:258-265). -/
def Data.constructor (d : Data) : Option Item := d.items.find? Item.isConstructor

/-- `ast_id_map.get_raw(item.ast_id)` for all functions of an item (child_by_source.rs:139-143, 150-154), inserted into
`map[keys::FUNCTION]`. `arena` is the `AstIdMap` of the file of the methodmap; `none` is the panic of an index outside of it. The latest
insertion comes first. -/
def insertFns (arena : List Nat) : List (Nat × Nat) → List (Nat × Nat) → Option (List (Nat × Nat))
  | [], acc => some acc
  | (fn, ast) :: rest, acc => match arena[ast]? with
    | some ptr => insertFns arena rest ((ptr, fn) :: acc)
    | none => none

/-- `map[keys::FUNCTION]` of `child_by_source_to` (child_by_source.rs:127-158). The node of a property itself is looked up as well (line
144). -/
def functionMap (arena : List Nat) : List Item → List (Nat × Nat) → Option (List (Nat × Nat))
  | [], acc => some acc
  | it :: rest, acc => match insertFns arena it.fns acc with
    | none => none
    | some acc' => match it.prop with
      | none => functionMap arena rest acc'
      | some (_, ast) => match arena[ast]? with
        | some _ => functionMap arena rest acc'
        | none => none

/-- The outcome of a request. -/
inductive Answer where
  | crash
  | nothing
  | function (fn : Nat)
deriving DecidableEq

/-- `fn_to_def` for a node inside a methodmap (source_to_def.rs:76-98). -/
def fnToDef (arena : List Nat) (d : Data) (ptr : Nat) : Answer :=
  match functionMap arena d.items [] with
  | none => .crash
  | some m => match m.lookup ptr with
    | some fn => .function fn
    | none => .nothing

/-! ## Specification -/

namespace Spec

/-- `chain` is the methodmap with its ancestors, nearest first; the last one has no parent. -/
inductive Chain (mms : Nat → Methodmap) : Nat → List Nat → Prop where
  | last (id : Nat) (h : (mms id).parent = none) : Chain mms id [id]
  | step (id p : Nat) (l : List Nat) (h : (mms id).parent = some p) (t : Chain mms p l) : Chain mms id (id :: l)

/-- The member a methodmap declares itself under a name: the last one, if there are several. -/
def own (m : Methodmap) (n : Name) : Option Item := (m.items.reverse.find? (·.1 = n)).map (·.2)

/-- The member of that name of the nearest methodmap in the chain that declares one. -/
def member (mms : Nat → Methodmap) (chain : List Nat) (n : Name) : Option Item := chain.findSome? fun id => own (mms id) n

/-- The first constructor the methodmap declares itself. -/
def ownConstructor (m : Methodmap) : Option Item := (m.items.map (·.2)).find? Item.isConstructor

/-- The iteration over a hash map visits every entry once, in some order. -/
def Iterates (order : Nat → List (Name × Nat) → List (Name × Nat)) : Prop := ∀ p m, (order p m).Perm m

/-- The indices of the nodes of an item exist in the file with these nodes. -/
def InRange (arena : List Nat) (it : Item) : Prop := (∀ p ∈ it.fns, p.2 < arena.length) ∧ ∀ p, it.prop = some p → p.2 < arena.length

end Spec

end Verif.Hir.Methodmap
