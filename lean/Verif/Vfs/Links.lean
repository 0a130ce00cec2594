import Verif.Vfs.Loader
import Verif.Paths.Spec
/-!
# Model of the directory walk on a disk with symbolic links

`crates/vfs-notify/src/lib.rs:202-241` (the `Directories` case of `load_entry`) with
`WalkDir::new(root).follow_links(true)`.

`Verif.Vfs.Loader` has a tree and no links. Here the disk is a graph: things have numbers (inodes), an entry of a
directory is the thing itself or a symbolic link. A link is given by the thing it finally leads to, `none` if it leads
nowhere; how the kernel follows the text of a link is not modelled, nor are its limits on the number of links and on
the length of a path. The crate `walkdir` (2.x, not part of the repository) is modelled by its documented behaviour: a
link to a directory that is among the directories being walked gives an error, and so does a link that leads nowhere;
the loader drops errors. The disk does not change during one walk.
-/

namespace Verif.Vfs.Links
open Verif.Paths Verif.Vfs.Loader

/-- An entry of a directory: the thing itself or a symbolic link to one. -/
inductive Edge where
  | hard (i : Nat)
  | soft (t : Option Nat)
deriving DecidableEq, Repr

/-- What has a number: a file (with what `std::fs::read` returns), a directory, or something else (a socket, a device). -/
inductive Thing where
  | file (contents : Option Bytes)
  | dir (es : List (Str × Edge))
  | other
deriving DecidableEq, Repr

/-- The disk; its root is number 0. -/
abbrev Disk := Nat → Thing

/-- The file type of a thing is a directory. -/
def Thing.isDir : Thing → Bool
  | .dir _ => true
  | _ => false

/-- What an entry leads to, for the kernel. -/
def Edge.target : Edge → Option Nat
  | .hard i => some i
  | .soft t => t

/-- First entry with a name. -/
def find : List (Str × Edge) → Str → Option Edge
  | [], _ => none
  | (s, e) :: r, t => if s = t then some e else find r t

/-- What a path denotes for the kernel, from a thing on, all links followed. -/
def lookup (fs : Disk) (i : Nat) : APath → Option Nat
  | [] => some i
  | s :: p =>
    match fs i with
    | .dir es => ((find es s).bind Edge.target).bind (fun k => lookup fs k p)
    | _ => none

/-- `read` (vfs-notify/src/lib.rs:256-258). -/
def read (fs : Disk) (p : APath) : Option Bytes :=
  match (lookup fs 0 p).map fs with
  | some (.file c) => c
  | _ => none

/-- `WalkDir` with `follow_links(true)` at one entry (vfs-notify/src/lib.rs:204; walkdir `handle_entry`, `follow` and
`check_loop`): a link leading nowhere, or to a directory that is being walked (`anc`), is an error. -/
def follow (fs : Disk) (anc : List Nat) : Edge → Option Nat
  | .hard i => some i
  | .soft none => none
  | .soft (some i) => if (fs i).isDir && decide (i ∈ anc) then none else some i

/-- The paths produced at one entry of a directory, `rec` giving those below. -/
def branch (fs : Disk) (anc : List Nat) (path : APath) (rec : APath → Nat → List APath) (se : Str × Edge) : List APath :=
  match follow fs anc se.2 with
  | none => []
  | some j => rec (path ++ [se.1]) j

/-- The paths that `WalkDir`, `filter_entry` and the two `filter_map`s produce from thing `i` on, reached from `root` as
`path` through the directories `anc` (vfs-notify/src/lib.rs:202-234). The first argument bounds the depth of the walk, see
`Verif.Props.Links.walk_ends`. -/
def walk (fs : Disk) (d : Directories) (root : APath) : Nat → List Nat → APath → Nat → List APath
  | 0, _, _, _ => []
  | n + 1, anc, path, i =>
    match fs i with
    | .file _ => if wanted d path then [path] else []
    | .other => []
    | .dir es =>
      if enter d root path then es.flatMap (branch fs (i :: anc) path (walk fs d root n (i :: anc))) else []

/-- The walk from one include root; a root that does not exist gives an error, which is dropped. -/
def walkRoot (fs : Disk) (d : Directories) (n : Nat) (root : APath) : List APath :=
  match lookup fs 0 root with
  | none => []
  | some i => walk fs d root n [] root i

/-- `load_entry` for directories (vfs-notify/src/lib.rs:199-242). -/
def loadDirs (fs : Disk) (n : Nat) (d : Directories) : List (APath × Option Bytes) :=
  d.incl.flatMap (fun root => (walkRoot fs d n root).map (fun p => (p, read fs p)))

/-- What is loaded for a workspace folder: `Entry::sp_files_recursively` (loader.rs:82-90,174-182). -/
def loadFolder (fs : Disk) (n : Nat) (base : APath) : List (APath × Option Bytes) :=
  loadDirs fs n ⟨["sp".toList, "inc".toList], [base], [base ++ [".git".toList]]⟩

/-! ### Specification -/
namespace Spec

/-- The names lead from the first thing to the second, links included. -/
inductive Leads (fs : Disk) : Nat → APath → Nat → Prop where
  | here (i : Nat) : Leads fs i [] i
  | there {i k j : Nat} {es : List (Str × Edge)} {s : Str} {e : Edge} {p : APath} (hd : fs i = .dir es) (he : (s, e) ∈ es)
      (ht : e.target = some k) (hp : Leads fs k p j) : Leads fs i (s :: p) j

/-- The names lead from the first thing to the second, and no link on the way leads back to a directory on the way
(or to one of `anc`). -/
inductive Onward (fs : Disk) : List Nat → Nat → APath → Nat → Prop where
  | here (anc : List Nat) (i : Nat) : Onward fs anc i [] i
  | hard {anc : List Nat} {i k j : Nat} {es : List (Str × Edge)} {s : Str} {p : APath} (hd : fs i = .dir es)
      (he : (s, .hard k) ∈ es) (hp : Onward fs (i :: anc) k p j) : Onward fs anc i (s :: p) j
  | soft {anc : List Nat} {i k j : Nat} {es : List (Str × Edge)} {s : Str} {p : APath} (hd : fs i = .dir es)
      (he : (s, .soft (some k)) ∈ es) (hk : (∃ es', fs k = .dir es') → k ≠ i ∧ k ∉ anc) (hp : Onward fs (i :: anc) k p j) :
      Onward fs anc i (s :: p) j

/-- No directory has two entries of the same name. -/
def Named (fs : Disk) : Prop := ∀ i es, fs i = .dir es → (es.map Prod.fst).Nodup

/-- A disk as a file system makes it: there are finitely many things (numbers below `size`), and without the links
directories do not contain each other in a circle (the things in a directory have a smaller height). -/
structure Finite (fs : Disk) (size : Nat) (height : Nat → Nat) (most : Nat) : Prop where
  low : ∀ i es s e k, fs i = .dir es → (s, e) ∈ es → e.target = some k → k < size
  root : 0 < size
  down : ∀ i es s k, fs i = .dir es → (s, .hard k) ∈ es → height k < height i
  top : ∀ i, height i ≤ most

/-- The name ends in `.sp` or `.inc`. -/
def SourceName (name : Str) : Prop :=
  Paths.Spec.IsExtension name "sp".toList ∨ Paths.Spec.IsExtension name "inc".toList

end Spec

end Verif.Vfs.Links
