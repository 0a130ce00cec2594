/-!
# Model of the members of enum structs

`crates/hir-def/src/data.rs:434-530` (`EnumStructData`, `child_source`), `crates/hir-def/src/child_by_source.rs:88-125`,
`crates/hir/src/has_source.rs:51-64` (`Field::source`) and the way a member is reached from its declaration
(`crates/hir/src/semantics.rs:67-104`) and from a use (`crates/hir-def/src/infer.rs:489-536`, `semantics.rs:399-418`).
-/

namespace Verif.Hir.EnumStruct

abbrev Name := List Char

/-- A member of an enum struct: its name and its node (a `NodePtr`, see `Verif.Hir.Tree`). Fields have a name and a type: without these,
which the grammar requires, the item tree leaves the field out (item_tree/lower.rs:522-528). -/
inductive Member where
  | field (name : Name) (ptr : Nat)
  | method (name : Name) (ptr : Nat)
deriving DecidableEq

def Member.name : Member → Name
  | .field n _ => n
  | .method n _ => n

def Member.ptr : Member → Nat
  | .field _ p => p
  | .method _ p => p

/-- `EnumStructData` (data.rs:415-419). The arena `items` holds the members in order, an index is a position in it. The hash map
`items_map` is a list with the latest insertion first. -/
structure Data where
  items : List Member := []
  itemsMap : List (Name × Nat) := []

/-- `items.alloc` and `items_map.insert` (data.rs:451-452, 464-466). -/
def Data.add (d : Data) (m : Member) : Data := { items := d.items ++ [m], itemsMap := (m.name, d.items.length) :: d.itemsMap }

/-- `enum_struct_data_query` (data.rs:435-476). -/
def data (ms : List Member) : Data := ms.foldl Data.add {}

/-- `child_source` (data.rs:504-529): an arena of the fields alone, with their nodes. -/
def childSource : List Member → List Nat
  | [] => []
  | .field _ p :: ms => p :: childSource ms
  | .method _ _ :: ms => childSource ms

/-- The outcome of a request: a panic (here: an index that is not in the `ArenaMap`), no result, a node. -/
inductive Goto where
  | crash
  | nothing
  | node (ptr : Nat)
deriving DecidableEq

/-- The first loop of `child_by_source_to` (child_by_source.rs:98-116) for the fields: `k` counts the fields. An entry is a node and the
index of a field; the latest comes first. `none` is the panic of `arena_map.value[..]`. -/
def firstLoop (src : List Nat) : Nat → Nat → List Member → List (Nat × Nat) → Option (List (Nat × Nat))
  | _, _, [], acc => some acc
  | idx, k, .field _ _ :: ms, acc =>
    match src[k]? with
    | some p => firstLoop src (idx + 1) (k + 1) ms ((p, idx) :: acc)
    | none => none
  | idx, k, .method _ _ :: ms, acc => firstLoop src (idx + 1) k ms acc

/-- The second loop (child_by_source.rs:117-123). -/
def secondLoop : Nat → List Nat → List (Nat × Nat) → List (Nat × Nat)
  | _, [], acc => acc
  | k, p :: ps, acc => secondLoop (k + 1) ps ((p, k) :: acc)

/-- `map[keys::FIELD]` after `child_by_source_to`. -/
def fieldMap (ms : List Member) : Option (List (Nat × Nat)) :=
  (firstLoop (childSource ms) 0 0 (data ms).items []).map (secondLoop 0 (childSource ms))

/-- `map[keys::FUNCTION]` (child_by_source.rs:111-115): the method at an index is identified by that index. -/
def functionMap : Nat → List Member → List (Nat × Nat) → List (Nat × Nat)
  | _, [], acc => acc
  | idx, .field _ _ :: ms, acc => functionMap (idx + 1) ms acc
  | idx, .method _ p :: ms, acc => functionMap (idx + 1) ms ((p, idx) :: acc)

/-- `Field::source` (has_source.rs:51-64). -/
def fieldSource (ms : List Member) (idx : Nat) : Goto :=
  match (childSource ms)[idx]? with
  | some p => .node p
  | none => .crash

/-- The source of a method: the node under its id (has_source.rs:22-39, hir-def/src/src.rs:13-23). -/
def methodSource (ms : List Member) (idx : Nat) : Goto :=
  match (data ms).items[idx]? with
  | some (.method _ p) => .node p
  | _ => .crash

/-- Going to the definition from the name in the declaration of a field (semantics.rs:101-104). -/
def gotoFromField (ms : List Member) (ptr : Nat) : Goto :=
  match fieldMap ms with
  | none => .crash
  | some m => match m.lookup ptr with
    | some idx => fieldSource ms idx
    | none => .nothing

/-- Going to the definition from the name in the declaration of a method (semantics.rs:84-97). -/
def gotoFromMethod (ms : List Member) (ptr : Nat) : Goto :=
  match fieldMap ms with
  | none => .crash
  | some _ => match (functionMap 0 (data ms).items []).lookup ptr with
    | some idx => methodSource ms idx
    | none => .nothing

/-- Going to the definition from `name` in `x.name`, where `x` is of this enum struct (infer.rs:501-530, semantics.rs:399-418). -/
def gotoFromUse (ms : List Member) (name : Name) : Goto :=
  match (data ms).itemsMap.lookup name with
  | none => .nothing
  | some idx => match (data ms).items[idx]? with
    | some (.field _ _) => fieldSource ms idx
    | some (.method _ _) => .nothing
    | none => .crash

/-- Going to the definition from `name` in `x.name(..)` (infer.rs:585-625). -/
def gotoFromCall (ms : List Member) (name : Name) : Goto :=
  match (data ms).itemsMap.lookup name with
  | none => .nothing
  | some idx => match (data ms).items[idx]? with
    | some (.method _ _) => methodSource ms idx
    | some (.field _ _) => .nothing
    | none => .crash

/-! ## Specification -/

namespace Spec

/-- Different members have different nodes. -/
def Distinct (ms : List Member) : Prop := (ms.map Member.ptr).Nodup

instance (ms : List Member) : Decidable (Distinct ms) := inferInstanceAs (Decidable (List.Nodup _))

/-- Different members have different names. -/
def Unique (ms : List Member) : Prop := (ms.map Member.name).Nodup

instance (ms : List Member) : Decidable (Unique ms) := inferInstanceAs (Decidable (List.Nodup _))

/-- No method is declared before the member at position `i`. -/
def FieldsFirst (ms : List Member) (i : Nat) : Prop := ∀ j, j < i → ∃ n p, ms[j]? = some (.field n p)

end Spec

end Verif.Hir.EnumStruct
