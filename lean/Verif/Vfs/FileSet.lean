import Verif.Vfs.Model
/-!
# Model of file sets and source roots (`crates/vfs/src/file_set.rs`, `crates/base-db/src/input.rs`)

Paths are abstract; `under root p` stands for `VfsPath::starts_with` (modelled in `Verif.Paths`).
-/

namespace Verif.Vfs
variable {P : Type} [DecidableEq P]

/-- `FileSet` (crates/vfs/src/file_set.rs:14-18): two hash maps. A hash map is modelled by the list of its insertions,
a lookup returning the newest one. -/
structure FileSet (P : Type) where
  files : List (P × FileId)
  uris : List (FileId × P)
  deriving DecidableEq

/-- `FileSet::default` (file_set.rs:14). -/
def FileSet.empty : FileSet P := ⟨[], []⟩

/-- `FileSet::insert` (file_set.rs:70-73). -/
def FileSet.insert (s : FileSet P) (id : FileId) (p : P) : FileSet P := ⟨(p, id) :: s.files, (id, p) :: s.uris⟩

/-- `FileSet::file_for_path` (file_set.rs:57-59). -/
def FileSet.fileForPath (s : FileSet P) (p : P) : Option FileId := s.files.lookup p

/-- `FileSet::path_for_file` (file_set.rs:62-64). -/
def FileSet.pathForFile (s : FileSet P) (id : FileId) : Option P := s.uris.lookup id

/-- `FileSet::iter` (file_set.rs:76-78): the keys of `uris`, in some order (here: newest first, possibly repeated). -/
def FileSet.ids (s : FileSet P) : List FileId := s.uris.map (·.1)

/-- `Vec::dedup`: removes consecutive repeated elements. -/
def dedup {R : Type} [DecidableEq R] : List R → List R
  | [] => []
  | [a] => [a]
  | a :: b :: r => if a = b then dedup (b :: r) else a :: dedup (b :: r)

/-- The inner loop of `FileSetConfig::partition` (file_set.rs:110-114) for one root. -/
def insertIfUnder {R : Type} (under : R → P → Bool) (root : R) (s : FileSet P) (e : FileId × P) : FileSet P :=
  if under root e.2 then s.insert e.1 e.2 else s

/-- `FileSetConfig::partition` (file_set.rs:103-117). The two nested loops only touch the set of the inner loop's
root, so each root's set is the fold over the files. -/
def partition {R : Type} [DecidableEq R] (under : R → P → Bool) (roots : List R) (files : List (FileId × P)) :
    List (FileSet P × R) :=
  (dedup roots).map (fun r => (files.foldl (insertIfUnder under r) FileSet.empty, r))

/-- `vfs.iter()` with resolved paths (the path lookup cannot fail on the entries of `iter`). -/
def Vfs.files (v : Vfs P) : List (FileId × P) := v.iter.filterMap (fun e => e.2.map (fun p => (e.1, p)))

end Verif.Vfs
