/-!
# Model of the virtual file system (`crates/vfs/src/lib.rs`, `crates/vfs/src/path_interner.rs`)

The type `P` of paths is abstract (only equality is used by this code). `FileId` is a `Nat`; the
`assert!(id < u32::MAX)` of `PathInterner::intern` (path_interner.rs:33) is not modelled (it needs more than
four billion paths). Panics are modelled by `none` of the outer `Option`.
-/

namespace Verif.Vfs

/-- `FileId` (crates/vfs/src/lib.rs:26-38). Simplified from `u32` to `Nat`. -/
abbrev FileId := Nat

/-- File contents, `Vec<u8>` (crates/vfs/src/lib.rs:43). -/
abbrev Bytes := List UInt8

/-- `ChangeKind` (crates/vfs/src/lib.rs:69-78). -/
inductive ChangeKind where
  | create | modify | delete
  deriving DecidableEq, Repr

/-- `ChangedFile` (crates/vfs/src/lib.rs:47-54). -/
structure ChangedFile where
  fileId : FileId
  kind : ChangeKind
  deriving DecidableEq, Repr

/-- `PathInterner::get` (crates/vfs/src/path_interner.rs:23-25): index of a path in the `IndexSet`. -/
def internGet {P : Type} [DecidableEq P] (map : List P) (p : P) : Option FileId :=
  map.findIdx? (fun q => decide (q = p))

/-- `PathInterner::intern` (crates/vfs/src/path_interner.rs:31-35): `IndexSet::insert_full` returns the index of an
equal element if there is one and otherwise appends. -/
def intern {P : Type} [DecidableEq P] (map : List P) (p : P) : List P × FileId :=
  match internGet map p with
  | some i => (map, i)
  | none => (map ++ [p], map.length)

/-- `Vfs` (crates/vfs/src/lib.rs:40-45). -/
structure Vfs (P : Type) where
  interner : List P
  data : List (Option Bytes)
  changes : List ChangedFile

variable {P : Type} [DecidableEq P]

/-- `Vfs::default` (crates/vfs/src/lib.rs:40). -/
def Vfs.empty : Vfs P := ⟨[], [], []⟩

/-- `Vfs::get` (crates/vfs/src/lib.rs:184-186); outer `none` is the index panic. -/
def Vfs.get (v : Vfs P) (id : FileId) : Option (Option Bytes) := v.data[id]?

/-- `Vfs::alloc_file_id` (crates/vfs/src/lib.rs:171-177). `resize_with` to `max len (idx+1)` appends `None`s. -/
def Vfs.allocFileId (v : Vfs P) (p : P) : Vfs P × FileId :=
  let (map, id) := intern v.interner p
  let len := max v.data.length (id + 1)
  ({ v with interner := map, data := v.data ++ List.replicate (len - v.data.length) none }, id)

/-- The `match` computing the change kind in `Vfs::set_file_contents` (crates/vfs/src/lib.rs:131-137);
`none` stands for `return false`. -/
def changeKindOf (old new : Option Bytes) : Option ChangeKind :=
  match old, new with
  | none, none => none
  | none, some _ => some .create
  | some _, none => some .delete
  | some o, some n => if o = n then none else some .modify

/-- `Vfs::set_file_contents` (crates/vfs/src/lib.rs:129-147). Outer `none` is the index panic of `get`. -/
def Vfs.setFileContents (v : Vfs P) (p : P) (contents : Option Bytes) : Option (Vfs P × Bool) :=
  let (v', id) := v.allocFileId p
  match v'.get id with
  | none => none
  | some old =>
    match changeKindOf old contents with
    | none => some (v', false)
    | some k =>
      some ({ v' with data := v'.data.set id contents, changes := v'.changes ++ [⟨id, k⟩] }, true)

/-- `Vfs::take_changes` (crates/vfs/src/lib.rs:155-157). -/
def Vfs.takeChanges (v : Vfs P) : Vfs P × List ChangedFile := ({ v with changes := [] }, v.changes)

/-- `Vfs::file_id` (crates/vfs/src/lib.rs:82-84); outer `none` is the index panic of `get`. -/
def Vfs.fileId (v : Vfs P) (p : P) : Option (Option FileId) :=
  match internGet v.interner p with
  | none => some none
  | some id =>
    match v.get id with
    | none => none
    | some none => some none
    | some (some _) => some (some id)

/-- `Vfs::file_path` (crates/vfs/src/lib.rs:91-93), `PathInterner::lookup` (path_interner.rs:42-44); `none` = panic. -/
def Vfs.filePath (v : Vfs P) (id : FileId) : Option P := v.interner[id]?

/-- `Vfs::file_contents` (crates/vfs/src/lib.rs:101-103); `none` = panic. -/
def Vfs.fileContents (v : Vfs P) (id : FileId) : Option Bytes := (v.get id).join

/-- `Vfs::exists` (crates/vfs/src/lib.rs:160-162); `none` = panic. -/
def Vfs.exists_ (v : Vfs P) (id : FileId) : Option Bool := (v.get id).map Option.isSome

/-- `Vfs::iter` (crates/vfs/src/lib.rs:113-121). Entries whose path lookup panics are `(id, none)`. -/
def Vfs.iter (v : Vfs P) : List (FileId × Option P) :=
  ((List.range v.data.length).filter (fun id => ((v.get id).join).isSome)).map (fun id => (id, v.filePath id))

/-- The operations that reach the `Vfs` of the server: content updates (`set_file_contents`) and draining. -/
inductive Op (P : Type) where
  | set (p : P) (c : Option Bytes)
  | take

/-- One operation; `none` = panic. Draining returns the drained log. -/
def Vfs.step (v : Vfs P) : Op P → Option (Vfs P × List ChangedFile)
  | .set p c => (v.setFileContents p c).map (fun r => (r.1, []))
  | .take => some v.takeChanges

/-- A history of operations from a state. The second component lists what each operation returned to the caller
(the drained events for `take`, nothing for `set`). -/
def Vfs.run (v : Vfs P) : List (Op P) → Option (Vfs P × List (List ChangedFile))
  | [] => some (v, [])
  | o :: os =>
    match v.step o with
    | none => none
    | some (v', d) => (v'.run os).map (fun r => (r.1, d :: r.2))

end Verif.Vfs
