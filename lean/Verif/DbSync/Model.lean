import Verif.Vfs.FileSet
/-!
# Model of `GlobalState::process_changes` and `Change::apply`

`crates/sourcepawn_lsp/src/global_state.rs:234-362`, `crates/base-db/src/change.rs:34-72`.

`T` is the type of texts of the analysis database, `decode` stands for `String::from_utf8` followed by
`LineEndings::normalize` (modelled in `Verif.Text.LineEndings`), `noText` is the empty text. Database inputs are partial
functions: reading an unset input is a panic in salsa. Durabilities, diagnostics clearing and locks are not modelled.
-/

namespace Verif.DbSync
open Verif.Vfs

/-- Merging one more event into the entry of a file: the closure passed to `and_modify`
(global_state.rs:255-279). -/
def mergeEvent : ChangeKind × Bool → ChangeKind → ChangeKind × Bool
  | (_, jc), .delete => (.delete, jc)
  | (.create, jc), _ => (.create, jc)
  | (.modify, jc), .modify => (.modify, jc)
  | (.delete, _), .create => (.modify, true)
  | (.delete, _), .modify => (.create, true)
  | (.modify, jc), .create => (.modify, jc)

/-- `entry(..).and_modify(..).or_insert(..)` (global_state.rs:253-283) for one file. -/
def mergeOpt (e : Option (ChangeKind × Bool)) (k : ChangeKind) : ChangeKind × Bool :=
  match e with
  | some e => mergeEvent e k
  | none => (k, k = .create)

/-- The map `file_changes`. Its iteration order is irrelevant below (each file is treated on its own); the model keeps
the order of first occurrence. -/
abbrev FileChanges := List (FileId × ChangeKind × Bool)

def upsert (m : FileChanges) (c : ChangedFile) : FileChanges :=
  match m with
  | [] => [(c.fileId, mergeOpt none c.kind)]
  | (id, e) :: rest =>
    if id = c.fileId then (id, mergeOpt (some e) c.kind) :: rest else (id, e) :: upsert rest c

/-- The loop (global_state.rs:250-284). -/
def coalesce (log : List ChangedFile) : FileChanges := log.foldl upsert []

/-- The filter (global_state.rs:286-295): entries `(Delete, just_created)` are dropped. -/
def keep (e : FileId × ChangeKind × Bool) : Bool := !(e.2.1 = .delete && e.2.2)

def changedFiles (log : List ChangedFile) : List ChangedFile :=
  ((coalesce log).filter keep).map (fun e => ⟨e.1, e.2.1⟩)

variable {P T R : Type} [DecidableEq P] [DecidableEq R]

/-- The inputs of the analysis database touched by `Change::apply`. -/
structure Db (P T R : Type) where
  text : FileId → Option T
  sourceRootOf : FileId → Option Nat
  root : Nat → Option (FileSet P × R)

def Db.init : Db P T R := ⟨fun _ => none, fun _ => none, fun _ => none⟩

/-- The roots part of `Change::apply` (change.rs:48-61). -/
def Db.setRoots (db : Db P T R) (roots : List (FileSet P × R)) : Db P T R :=
  { db with
    sourceRootOf := fun id =>
      -- later roots overwrite earlier ones
      match (roots.zipIdx.reverse.find? (fun e => decide (id ∈ e.1.1.ids))) with
      | some e => some e.2
      | none => db.sourceRootOf id
    root := fun i => match roots[i]? with
      | some r => some r
      | none => db.root i }

/-- The file part of `Change::apply` (change.rs:63-70) for one file; `none` = panic on an unset input. -/
def Db.setText (noText : T) (db : Db P T R) (id : FileId) (t : Option T) : Option (Db P T R) :=
  match db.sourceRootOf id with
  | none => none
  | some r =>
    match db.root r with
    | none => none
    | some _ => some { db with text := fun i => if i = id then some (t.getD noText) else db.text i }

def Db.setTexts (noText : T) : Db P T R → List (FileId × Option T) → Option (Db P T R)
  | db, [] => some db
  | db, (id, t) :: r =>
    match db.setText noText id t with
    | none => none
    | some db' => db'.setTexts noText r

/-- The server state involved. -/
structure Server (P T R : Type) where
  vfs : Vfs P
  db : Db P T R
  known : List FileId

def Server.init : Server P T R := ⟨Vfs.empty, Db.init, []⟩

/-- Configuration: source roots (fixed), text decoding, and which paths are SourcePawn files. -/
structure Config (P T R : Type) where
  roots : List R
  under : R → P → Bool
  decode : Bytes → Option T
  noText : T
  isSource : P → Bool

/-- Texts sent with the change (global_state.rs:301-332); `none` = panic of `file_contents` on a deleted file. -/
def textsOf (cfg : Config P T R) (v : Vfs P) : List ChangedFile → Option (List (FileId × Option T))
  | [] => some []
  | c :: cs =>
    if c.kind = .delete then (textsOf cfg v cs).map ((c.fileId, none) :: ·)
    else
      match v.fileContents c.fileId with
      | none => none
      | some b => (textsOf cfg v cs).map ((c.fileId, cfg.decode b) :: ·)

/-- `GlobalState::process_changes` (global_state.rs:234-362) with `Change::apply`; `none` = panic. Every VFS path of
the server is a real path, so `vfs_path.as_path()` is always `Some`. -/
def Server.processChanges (cfg : Config P T R) (s : Server P T R) : Option (Server P T R) :=
  let (v, log) := s.vfs.takeChanges
  if log = [] then some s
  else
    let files := changedFiles log
    match textsOf cfg v files with
    | none => none
    | some texts =>
      let structural := files.any (fun c => c.kind = .create || c.kind = .delete)
      let db := if structural then s.db.setRoots (partition cfg.under cfg.roots v.files) else s.db
      match db.setTexts cfg.noText texts with
      | none => none
      | some db' =>
        some ⟨v, db', (v.files.filter (fun e => cfg.isSource e.2)).map (·.1)⟩

/-- Events: a file update (from the client or the loader) and the processing at the end of a turn. -/
inductive Ev (P : Type) where
  | set (p : P) (c : Option Bytes)
  | process

def Server.step (cfg : Config P T R) (s : Server P T R) : Ev P → Option (Server P T R)
  | .set p c => (s.vfs.setFileContents p c).map (fun r => { s with vfs := r.1 })
  | .process => s.processChanges cfg

def Server.run (cfg : Config P T R) : Server P T R → List (Ev P) → Option (Server P T R)
  | s, [] => some s
  | s, e :: es =>
    match s.step cfg e with
    | none => none
    | some s' => s'.run cfg es

end Verif.DbSync
