/-!
# Model of the hashable maps and sets

`crates/stdx/src/hashable_hash_map.rs` and its use in the keys of the preprocessing queries (`crates/preprocessor/src/db.rs:11-16`,
`preprocessor/src/lib.rs:75-82`, `preprocessor/src/symbol.rs:13-40`).

A hash map is the list of its entries in the order in which the map happens to iterate. A hasher is a state `H`; hashing a value is a
function `H → H`.
-/

namespace Verif.Stdx

/-- `HashableHashMap` (hashable_hash_map.rs:9-11): its entries, in iteration order. -/
structure HMap (K V : Type) where
  entries : List (K × V)

/-- `HashableHashSet` (hashable_hash_map.rs:100-102). -/
structure HSet (K : Type) where
  elems : List K

variable {K V H : Type}

/-- `get` (hashable_hash_map.rs:14-16). -/
def HMap.get [DecidableEq K] (m : HMap K V) (k : K) : Option V := m.entries.lookup k

/-- `insert` (hashable_hash_map.rs:18-20): the entry of an equal key is overwritten; where a new entry ends up in the iteration order is
not fixed, `pos` is that place. -/
def HMap.insert [DecidableEq K] (m : HMap K V) (pos : Nat) (k : K) (v : V) : HMap K V :=
  let rest := m.entries.filter (·.1 ≠ k)
  ⟨rest.take pos ++ (k, v) :: rest.drop pos⟩

/-- `remove` (hashable_hash_map.rs:22-24). -/
def HMap.remove [DecidableEq K] (m : HMap K V) (k : K) : HMap K V := ⟨m.entries.filter (·.1 ≠ k)⟩

/-- A history of updates of a map. -/
inductive Op (K V : Type) where
  | insert (pos : Nat) (k : K) (v : V)
  | remove (k : K)

/-- The map after a history of updates. -/
def HMap.build [DecidableEq K] (ops : List (Op K V)) : HMap K V :=
  ops.foldl (fun m o => match o with
    | .insert pos k v => m.insert pos k v
    | .remove k => m.remove k) ⟨[]⟩

/-- `<HashableHashMap as Hash>::hash` (hashable_hash_map.rs:67-79): sort by key, then hash key and value of every pair. `le` is the
order of the keys; `sort_by` is a stable sort, as is `mergeSort`. -/
def HMap.hash (le : K → K → Bool) (hk : K → H → H) (hv : V → H → H) (m : HMap K V) (h : H) : H :=
  (m.entries.mergeSort fun a b => le a.1 b.1).foldl (fun h p => hv p.2 (hk p.1 h)) h

/-- `<HashableHashSet as Hash>::hash` (hashable_hash_map.rs:143-150). -/
def HSet.hash (le : K → K → Bool) (hk : K → H → H) (s : HSet K) (h : H) : H := (s.elems.mergeSort le).foldl (fun h k => hk k h) h

/-- `RangeLessSymbol` (symbol.rs:9-14). -/
structure RSym where
  kind : Nat
  text : List Char
  deltaLine : Int
  deltaCol : Int
deriving DecidableEq

/-- `Macro` (lib.rs:75-82). -/
structure MacroData where
  file : Nat
  idx : Nat
  params : Option (List Int)
  nbParams : Int
  body : List RSym
deriving DecidableEq

/-- `PreprocessingParams` (db.rs:11-16). -/
structure Params where
  input : HMap (List Char) MacroData
  output : HMap Nat (HMap (List Char) MacroData)
  being : HSet Nat

/-- The derived `Hash` of `PreprocessingParams` (db.rs:11): the fields in order. -/
def Params.hash (leStr : List Char → List Char → Bool) (hs : List Char → H → H) (hm : MacroData → H → H) (hf : Nat → H → H) (p : Params) (h : H) : H :=
  p.being.hash (fun a b => a ≤ b) hf (p.output.hash (fun a b => a ≤ b) hf (HMap.hash leStr hs hm) (p.input.hash leStr hs hm h))

namespace Spec

/-- An order of keys, as `Ord` promises. -/
structure IsOrder (le : K → K → Bool) : Prop where
  total : ∀ a b, le a b ∨ le b a
  trans : ∀ a b c, le a b → le b c → le a c
  antisymm : ∀ a b, le a b → le b a → a = b

/-- A map holds at most one entry for a key. -/
def HMap.Valid (m : HMap K V) : Prop := (m.entries.map (·.1)).Nodup

/-- Equality of maps (`HashMap: PartialEq`): the same keys, with equal values, in whatever order. -/
def HMap.Equal [DecidableEq K] (veq : V → V → Prop) (a b : HMap K V) : Prop :=
  ∀ k, match a.get k, b.get k with
    | none, none => True
    | some v, some w => veq v w
    | _, _ => False

/-- The value a key has after a history: that of its last insertion, if it was not removed since. -/
def lastWrite [DecidableEq K] (k : K) : List (Op K V) → Option V → Option V
  | [], r => r
  | .insert _ k' v :: ops, r => lastWrite k ops (if k' = k then some v else r)
  | .remove k' :: ops, r => lastWrite k ops (if k' = k then none else r)

/-- Equality of the parameters (derived `PartialEq`). -/
def Params.Equal (a b : Params) : Prop :=
  HMap.Equal (· = ·) a.input b.input ∧ HMap.Equal (HMap.Equal (· = ·)) a.output b.output ∧ ∀ f, f ∈ a.being.elems ↔ f ∈ b.being.elems

/-- Well-formed parameters. -/
def Params.Valid (a : Params) : Prop :=
  HMap.Valid a.input ∧ HMap.Valid a.output ∧ (∀ e ∈ a.output.entries, HMap.Valid e.2) ∧ a.being.elems.Nodup

end Spec

end Verif.Stdx
