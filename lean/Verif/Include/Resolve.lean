import Verif.Paths.Spec
/-!
# Model of include resolution

`crates/base-db/src/include.rs:76-193`, `crates/base-db/src/lib.rs:156-169`, `crates/vfs/src/file_set.rs:35-54`, and the two
other copies of the same logic: `crates/preprocessor/src/db.rs:91-101` with `preprocessor/src/lib.rs:636-683`, and
`crates/hir-def/src/db.rs:147-201`. Paths are real Unix paths (virtual paths occur in tests only). The text of an include
directive, as the external lexer delivers it, is a parameter.
-/

namespace Verif.Include
open Verif.Paths

inductive Ext where
  | sp | inc
  deriving DecidableEq, Repr

/-- `infer_include_ext` (include.rs:184-193). -/
def inferExt (p : Str) : Str × Ext :=
  if ".sp".toList.isSuffixOf p then (p, .sp)
  else if ".inc".toList.isSuffixOf p then (p, .inc)
  else (p ++ ".inc".toList, .inc)

/-- First capture of `RE_QUOTE`, `"([^>]+)"` (include.rs:78): leftmost opening quote, then the longest stretch without `>`. -/
def reQuote : Str → Option Str
  | [] => none
  | c :: cs =>
    if c = '"' then
      match splitLast '"' (cs.takeWhile (fun x => decide (x ≠ '>'))) with
      | some (x :: xs, _) => some (x :: xs)
      | _ => reQuote cs
    else reQuote cs

/-- First capture of `RE_CHEVRON`, `<([^>]+)>` (include.rs:77). -/
def reChevron : Str → Option Str
  | [] => none
  | c :: cs =>
    if c = '<' then
      match cs.takeWhile (fun x => decide (x ≠ '>')), cs.dropWhile (fun x => decide (x ≠ '>')) with
      | x :: xs, _ :: _ => some (x :: xs)
      | _, _ => reChevron cs
    else reChevron cs

/-- `FileSet` (file_set.rs:15-18) with the root it belongs to (base-db/src/input.rs:14-23). -/
structure Root where
  root  : Str
  files : List (Str × Nat)
  uris  : List (Nat × Str)

def lookup {α β : Type} [DecidableEq α] (l : List (α × β)) (k : α) : Option β := (l.find? (fun e => decide (e.1 = k))).map (·.2)

/-- `Path::join`: an absolute path replaces. -/
def pathJoin (base p : Str) : Str := if p.head? = some '/' then p else push base p

/-- `FileSet::resolve_path` (file_set.rs:35-49). The outer `none` is the panic of `self.uris[&path.anchor]`. -/
def Root.resolvePath (r : Root) (anchor : Nat) (path : Str) : Option (Option Nat) :=
  if path.head? = some '/' then some (lookup r.files (normalizePath path))
  else
    match lookup r.uris anchor with
    | none => none
    | some base => some (lookup r.files (normalizePath (pathJoin (pop base) path)))

/-- `FileSet::resolve_path_relative_to_root` (file_set.rs:51-54). -/
def Root.resolveRelative (r : Root) (path : Str) : Option Nat := lookup r.files (normalizePath (pathJoin r.root path))

/-- `resolve_path_relative_to_roots` (base-db/src/lib.rs:162-169). -/
def resolveRoots (roots : List Root) (path : Str) : Option Nat :=
  match roots with
  | [] => none
  | r :: rs =>
    match r.resolveRelative path with
    | some f => some f
    | none => resolveRoots rs path

/-- The source roots, and for each file the root it was assigned to. -/
structure World where
  roots  : List Root
  rootOf : Nat → Option Nat

/-- `resolve_path` (base-db/src/lib.rs:156-161); the outer `none` is a panic (no source root, or not in its file set). -/
def World.resolvePath (w : World) (anchor : Nat) (path : Str) : Option (Option Nat) :=
  match (w.rootOf anchor).bind (fun i => w.roots[i]?) with
  | none => none
  | some r => r.resolvePath anchor path

/-- What `file_includes_query` does with one directive (include.rs:103-174). -/
inductive Outcome where
  | resolved (f : Nat) (quoted : Bool) (ext : Ext)
  | unresolved (path : Str)
  | ignored
  deriving DecidableEq, Repr

/-- End of the loop body (include.rs:157-174). -/
def World.finish (w : World) (isTry quoted : Bool) (path : Str) (ext : Ext) : Outcome :=
  match resolveRoots w.roots path with
  | some f => .resolved f quoted ext
  | none => if isTry then .ignored else .unresolved path

/-- Loop body of `file_includes_query` (include.rs:96-175); the outer `none` is a panic. -/
def World.fileInclude (w : World) (file : Nat) (isTry : Bool) (text : Str) : Option Outcome :=
  match reQuote text with
  | some raw =>
    match w.resolvePath file (inferExt raw).1 with
    | none => none
    | some (some f) => some (.resolved f true (inferExt raw).2)
    | some none => some (w.finish isTry true (inferExt raw).1 (inferExt raw).2)
  | none =>
    match reChevron text with
    | some raw => some (w.finish isTry false (inferExt raw).1 (inferExt raw).2)
    | none => some .ignored

/-- The callback `extend_macros` up to the file (preprocessor/src/db.rs:93-101, 154-162). -/
def World.callback (w : World) (file : Nat) (path : Str) (quoted : Bool) : Option (Option Nat) :=
  let p := (inferExt path).1
  if quoted then
    match w.resolvePath file p with
    | none => none
    | some (some f) => some (some f)
    | some none => some (resolveRoots w.roots p)
  else some (resolveRoots w.roots p)

/-- The files whose macros `process_include_directive` brings in (preprocessor/src/lib.rs:636-683), in order: the chevron
path, then the quoted path. -/
def World.preprocessorIncludes (w : World) (file : Nat) (text : Str) : Option (List (Option Nat)) :=
  (match reChevron text with
   | none => some []
   | some p => (w.callback file p false).map (fun x => [x])).bind (fun l =>
  (match reQuote text with
   | none => some []
   | some p => (w.callback file p true).map (fun x => [x])).map (fun l' => l ++ l'))

/-- `resolve_include_node` (hir-def/src/db.rs:160-201) for a path node of the given kind: the outer `none` is a panic, the
middle one the `?` of a failed capture. -/
def World.resolveNode (w : World) (file : Nat) (quoted : Bool) (nodeText : Str) : Option (Option (Option Nat)) :=
  if quoted then
    match reQuote nodeText with
    | none => some none
    | some raw =>
      match w.resolvePath file (inferExt raw).1 with
      | none => none
      | some (some f) => some (some (some f))
      | some none => some (some (resolveRoots w.roots (inferExt (inferExt raw).1).1))
  else
    match reChevron nodeText with
    | none => some none
    | some raw => some (some (resolveRoots w.roots (inferExt raw).1))

end Verif.Include

namespace Verif.Include.Spec
open Verif.Include Verif.Paths Verif.Paths.Spec

/-- The directive writes no file name: there is no `<name>` and no `"name"` in it. -/
def NamesNothing (text : Str) : Prop :=
  ∀ pre name post, name ≠ [] → '>' ∉ name →
    text ≠ pre ++ '<' :: (name ++ '>' :: post) ∧ text ≠ pre ++ '"' :: (name ++ '"' :: post)

/-- The name with its extension: `.inc` is added unless the name already ends in `.sp` or `.inc`. -/
def WithExt (name : Str) (r : Str) : Prop :=
  ((".sp".toList <:+ name ∨ ".inc".toList <:+ name) ∧ r = name) ∨
  (¬ ".sp".toList <:+ name ∧ ¬ ".inc".toList <:+ name ∧ r = name ++ ".inc".toList)

/-- The place a name denotes relative to a directory. -/
def placeFrom (dir : List Str) (name : Str) : List Str :=
  if name.head? = some '/' then walk name else (splitSlash name).foldl walk1 dir

/-- The file of a root at a place, if the root has one. -/
def fileAt (r : Root) (place : List Str) : Option Nat := lookup r.files (absPath place)

/-- First of the roots that has `name` relative to it. -/
def firstRoot : List (Root × List Str) → Str → Option Nat
  | [], _ => none
  | (r, dir) :: rs, name =>
    match fileAt r (placeFrom dir name) with
    | some f => some f
    | none => firstRoot rs name

end Verif.Include.Spec
