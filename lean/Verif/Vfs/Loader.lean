import Verif.Paths.Model
/-!
# Model of the directory walk of the file loader

`crates/vfs-notify/src/lib.rs:183-244` (`load_entry`, `read`), `crates/vfs/src/loader.rs:9-30,82-90,167-182`.

The file system is a finite tree; it does not change during one walk (changes during loading are the subject of
`Verif.Lsp.Loading`). Symbolic links (`follow_links(true)`), directories that cannot be listed and names that are not
UTF-8 are not modelled. Registering watches is not modelled here: it has no effect on the files found.
-/

namespace Verif.Vfs.Loader
open Verif.Paths

/-- Contents of a file. -/
abbrev Bytes := List UInt8

mutual
/-- What a name in a directory denotes. A file is given by what `std::fs::read` returns for it: its contents, or `none` if
it cannot be read. -/
inductive Node where
  | file (contents : Option Bytes)
  | dir (es : Entries)
/-- The entries of a directory. -/
inductive Entries where
  | nil
  | cons (name : Str) (n : Node) (rest : Entries)
end

/-- First entry with a name. -/
def Entries.find : Entries → Str → Option Node
  | .nil, _ => none
  | .cons s n r, t => if s = t then some n else r.find t

/-- What a path denotes, relative to a node. -/
def Node.lookup (n : Node) : APath → Option Node
  | [] => some n
  | s :: p =>
    match n with
    | .file _ => none
    | .dir es => (es.find s).bind (fun m => m.lookup p)

/-- `read` (vfs-notify/src/lib.rs:256-258): `std::fs::read(path).ok()`. -/
def read (fs : Node) (p : APath) : Option Bytes :=
  match fs.lookup p with
  | some (.file c) => c
  | _ => none

/-- The closure of `filter_entry` on a directory (vfs-notify/src/lib.rs:206-217). -/
def enter (d : Directories) (root path : APath) : Bool :=
  decide (root = path) || (d.excl ++ d.incl).all (fun it => decide (it ≠ path))

/-- The extension test (vfs-notify/src/lib.rs:229-232). -/
def wanted (d : Directories) (path : APath) : Bool :=
  !(d.extensions.all (fun it => decide (it ≠ (extension path).getD [])))

mutual
/-- The paths that `WalkDir`, `filter_entry` and the two `filter_map`s produce below `path`, a node reached from `root`
(vfs-notify/src/lib.rs:202-234). -/
def walkNode (d : Directories) (root path : APath) : Node → List APath
  | .file _ => if wanted d path then [path] else []
  | .dir es => if enter d root path then walkEntries d root path es else []
def walkEntries (d : Directories) (root path : APath) : Entries → List APath
  | .nil => []
  | .cons s n r => walkNode d root (path ++ [s]) n ++ walkEntries d root path r
end

/-- The walk from one include root; a root that does not exist gives an error, which is dropped
(vfs-notify/src/lib.rs:202-234). -/
def walkRoot (d : Directories) (fs : Node) (root : APath) : List APath :=
  match fs.lookup root with
  | none => []
  | some n => walkNode d root root n

/-- `loader::Entry` (loader.rs:8-13). -/
inductive Entry where
  | files (fs : List APath)
  | directories (d : Directories)

/-- `load_entry` (vfs-notify/src/lib.rs:183-244). -/
def loadEntry (fs : Node) : Entry → List (APath × Option Bytes)
  | .files ps => ps.map (fun p => (p, read fs p))
  | .directories d => d.incl.flatMap (fun root => (walkRoot d fs root).map (fun p => (p, read fs p)))

/-- `Entry::contains_file` (loader.rs:95-100). -/
def Entry.containsFile : Entry → APath → Bool
  | .files ps, p => ps.any (fun it => decide (it = p))
  | .directories d, p => d.containsFile p

/-- `Entry::sp_files_recursively` and `dirs` (loader.rs:82-90,174-182). -/
def spFilesRecursively (base : APath) : Entry :=
  .directories ⟨["sp".toList, "inc".toList], [base], [base ++ [".git".toList]]⟩

/-- The files sent for a `notify` event naming these paths, while these entries are watched
(vfs-notify/src/lib.rs:148-178). The file system does not change between the two accesses to it. Directories are only
watched from then on, which is not modelled. -/
def watchEvent (fs : Node) (watched : List Entry) (paths : List APath) : List (APath × Option Bytes) :=
  paths.filterMap (fun path =>
    match fs.lookup path with
    | none => none
    | some (.dir _) => none
    | some (.file _) => if !(watched.any (fun e => e.containsFile path)) then none else some (path, read fs path))

/-! ### Specification -/
namespace Spec

/-- The directory has an entry with this name and this node. -/
def Has : Entries → Str → Node → Prop
  | .nil, _, _ => False
  | .cons t n r, s, m => (t = s ∧ n = m) ∨ Has r s m

/-- The path leads from the first node to the second. -/
inductive At : Node → APath → Node → Prop where
  | here (n : Node) : At n [] n
  | there {es : Entries} {s : Str} {p : APath} {m n : Node} (h : Has es s m) (ht : At m p n) : At (.dir es) (s :: p) n

/-- Names occurring in a directory. -/
def names : Entries → List Str
  | .nil => []
  | .cons s _ r => s :: names r

mutual
/-- No directory has two entries of the same name. -/
def Proper : Node → Prop
  | .file _ => True
  | .dir es => (names es).Nodup ∧ ProperAll es
def ProperAll : Entries → Prop
  | .nil => True
  | .cons _ n r => Proper n ∧ ProperAll r
end

/-- A file of the file system with what can be read from it. -/
def IsFile (fs : Node) (p : APath) (c : Option Bytes) : Prop := At fs p (.file c)

/-- The directories contradict neither themselves nor the file system: no include is excluded as well, and what is
excluded is not a file with one of the extensions. -/
def Sensible (d : Directories) (fs : Node) : Prop :=
  (∀ i ∈ d.incl, i ∉ d.excl) ∧ ∀ e ∈ d.excl, ∀ c, IsFile fs e c → (extension e).getD [] ∉ d.extensions

end Spec

end Verif.Vfs.Loader
