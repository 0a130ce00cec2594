/-!
# Model of paths

`crates/paths/src/lib.rs:315-340` (`normalize_path`), `crates/vfs/src/vfs_path.rs:321-420` (`VirtualPath`),
`crates/vfs/src/loader.rs:118-166` (`Directories`), and what they use of `std::path` on Unix.
Strings are lists of characters. Windows prefixes (`C:`) are not modelled.
-/

namespace Verif.Paths

abbrev Str := List Char

/-! ### `std::path` on Unix -/

/-- `std::path::Component` without `Prefix`. -/
inductive Comp where
  | rootDir | curDir | parentDir
  | normal (s : Str)
  deriving DecidableEq, Repr

/-- Pieces between `/` characters (at least one). -/
def splitSlash : Str → List Str
  | [] => [[]]
  | c :: cs =>
    if c = '/' then [] :: splitSlash cs
    else
      match splitSlash cs with
      | [] => [[c]]
      | p :: ps => (c :: p) :: ps

/-- How `Path::components` reads one piece after the first position: empty pieces and `.` are skipped. -/
def compOf (s : Str) : Option Comp :=
  if s = [] ∨ s = ['.'] then none else if s = ['.', '.'] then some .parentDir else some (.normal s)

/-- `Path::components` on Unix: a leading `/` is the root; a leading `.` of a relative path is kept. -/
def components (p : Str) : List Comp :=
  match p with
  | '/' :: r => .rootDir :: (splitSlash r).filterMap compOf
  | _ =>
    match splitSlash p with
    | ['.'] :: ps => .curDir :: ps.filterMap compOf
    | ps => ps.filterMap compOf

/-- `PathBuf::push` of a non-root component: a separator is added unless the buffer is empty or ends with one. -/
def push (buf s : Str) : Str := if buf = [] ∨ buf.getLast? = some '/' then buf ++ s else buf ++ '/' :: s

/-- `PathBuf::pop`, i.e. truncation to `Path::parent`, for a buffer made by `push`: nothing happens to the empty path and
to the root. -/
def pop (buf : Str) : Str :=
  if buf = ['/'] then buf
  else
    match buf.reverse.dropWhile (fun c => decide (c ≠ '/')) with
    | [] => []
    | ['/'] => ['/']
    | _ :: r => r.reverse

/-- Loop body of `normalize_path` (paths/src/lib.rs:324-338). -/
def normStep (ret : Str) : Comp → Str
  | .rootDir => ['/']
  | .curDir => ret
  | .parentDir => pop ret
  | .normal s => push ret s

/-- `normalize_path` (paths/src/lib.rs:315-340) without the Windows prefix. -/
def normalizePath (p : Str) : Str := (components p).foldl normStep []

/-! ### `Directories` -/

/-- An absolute path as its components below the root; `Path::starts_with` is the component-wise prefix test. -/
abbrev APath := List Str

def startsWith (p q : APath) : Bool := q.isPrefixOf p

/-- `Directories` (loader.rs:25-30). -/
structure Directories where
  extensions : List Str
  incl : List APath
  excl : List APath

/-- The loop choosing the include (loader.rs:146-154). -/
def chooseInclude (path : APath) : Option APath → List APath → Option APath
  | cur, [] => cur
  | cur, i :: is =>
    if startsWith path i then
      chooseInclude path (match cur with
        | some prev => if startsWith prev i then some prev else some i
        | none => some i) is
    else chooseInclude path cur is

/-- `includes_path` (loader.rs:145-165). -/
def Directories.includesPath (d : Directories) (path : APath) : Bool :=
  match chooseInclude path none d.incl with
  | none => false
  | some i => !(d.excl.any (fun e => startsWith path e && startsWith e i))

/-- Split at the last occurrence of a character. -/
def splitLast (c : Char) : Str → Option (Str × Str)
  | [] => none
  | x :: xs =>
    match splitLast c xs with
    | some (a, b) => some (x :: a, b)
    | none => if x = c then some ([], xs) else none

/-- `Path::extension` of a path given by its components (`std`): the part of the file name after the last dot, unless the
name is `..` or its only dot is the first character. -/
def extension (path : APath) : Option Str :=
  match path.getLast? with
  | none => none
  | some name =>
    if name = ['.', '.'] then none
    else
      match splitLast '.' name with
      | some ([], _) => none
      | some (_, e) => some e
      | none => none

/-- `contains_file` (loader.rs:120-129). -/
def Directories.containsFile (d : Directories) (path : APath) : Bool :=
  let ext := (extension path).getD []
  if d.extensions.all (fun e => decide (e ≠ ext)) then false else d.includesPath path

/-- `contains_dir` (loader.rs:135-137). -/
def Directories.containsDir (d : Directories) (path : APath) : Bool := d.includesPath path

/-! ### `VirtualPath` -/

/-- `VirtualPath::pop` (vfs_path.rs:352-359); `none` is `false` with the path unchanged. -/
def vpop (p : Str) : Option Str := (splitLast '/' p).map (·.1)

/-- `trim_start_matches("./")` (vfs_path.rs:379). -/
def trimDotSlash : Str → Str
  | '.' :: '/' :: r => trimDotSlash r
  | p => p

/-- `VirtualPath::join` (vfs_path.rs:371-382). -/
def vjoin (p : Str) : Str → Option Str
  | '.' :: '.' :: '/' :: r =>
    match vpop p with
    | none => none
    | some p' => vjoin p' r
  | r => some (p ++ '/' :: trimDotSlash r)

/-- `VirtualPath::starts_with` (vfs_path.rs:325-327): string prefix. -/
def vstartsWith (p q : Str) : Bool := q.isPrefixOf p

/-- `VirtualPath::name_and_extension` (vfs_path.rs:395-419). -/
def nameAndExtension (p : Str) : Option (Str × Option Str) :=
  let filePath := if p.getLast? = some '/' then p.dropLast else p
  let fileName := match splitLast '/' filePath with
    | some (_, b) => b
    | none => filePath
  if fileName = [] then none
  else
    match splitLast '.' fileName with
    | none => some (fileName, none)
    | some ([], _) => some (fileName, none)
    | some (stem, ext) => some (stem, some ext)

end Verif.Paths
