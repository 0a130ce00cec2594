import Verif.Vfs.Model
/-!
# Model of the names of files in messages

`abs_path`, `vfs_path`, `file_id` (`crates/sourcepawn_lsp/src/lsp/from_proto.rs:14-23, 66-68`), `url_from_abs_path` (`lsp/to_proto.rs:133-165`),
`file_id_to_url`, `url_to_file_id` (`global_state.rs:385-391, 404-416`), on Unix. `Url::from_file_path` and `Url::to_file_path` are those of the crate `url`
2.5.0 (not in /repo): what is modelled is their documented behaviour. A URL is given parsed: its scheme, host and path. Characters are bytes, bytes are
numbers.
-/

namespace Verif.Lsp.Url
open Verif.Vfs (FileId)

abbrev Bytes := List Nat

/-- `lsp_types::Url` after parsing. -/
structure Url where
  scheme : Bytes
  host   : Option Bytes
  path   : Bytes
deriving DecidableEq

/-- A path as `std::path` compares it: by the components after the root. Empty components and `.` are dropped. -/
abbrev Path := List Bytes

/-- What is between the slashes. -/
def pieces : Bytes → List Bytes
  | [] => [[]]
  | c :: cs => if c = 47 then [] :: pieces cs else
    match pieces cs with
    | [] => [[c]]
    | p :: ps => (c :: p) :: ps

/-- `Path::components` on Unix, for an absolute path. -/
def components (p : Bytes) : Path := (pieces p).filter fun s => decide (s ≠ [] ∧ s ≠ [46])

/-- A digit of `percent_encode`. -/
def hexDigit (n : Nat) : Nat := if n < 10 then 48 + n else 55 + n

/-- The value of a digit in either case. -/
def hexValue (c : Nat) : Option Nat :=
  if 48 ≤ c ∧ c ≤ 57 then some (c - 48) else if 65 ≤ c ∧ c ≤ 70 then some (c - 55) else if 97 ≤ c ∧ c ≤ 102 then some (c - 87) else none

/-- The bytes that are written as `%XX` in a segment: controls, everything that is not ASCII, and `` "#%/<>?\`{} `` and the blank
(`SPECIAL_PATH_SEGMENT` of the crate). -/
def escaped (b : Nat) : Bool := decide (b < 32 ∨ 127 ≤ b ∨ b ∈ [32, 34, 35, 37, 47, 60, 62, 63, 92, 96, 123, 125])

/-- `percent_encode`. -/
def encode (s : Bytes) : Bytes := s.flatMap fun b => if escaped b then [37, hexDigit (b / 16), hexDigit (b % 16)] else [b]

/-- `percent_decode`: an incomplete escape stays as it is. -/
def decode : Bytes → Bytes
  | 37 :: a :: b :: r =>
    match hexValue a, hexValue b with
    | some x, some y => (16 * x + y) :: decode r
    | _, _ => 37 :: decode (a :: b :: r)
  | c :: r => c :: decode r
  | [] => []

/-- `Url::from_file_path`. -/
def fromFilePath (p : Path) : Url := ⟨"file".toUTF8.toList.map (·.toNat), none, if p = [] then [47] else p.flatMap fun s => 47 :: encode s⟩

/-- `Url::to_file_path`. The scheme is not looked at. A slash that is added behind a drive letter does not change the components. -/
def toFilePath (u : Url) : Option Path :=
  match u.path with
  | 47 :: rest =>
    if u.host = none ∨ u.host = some ("localhost".toUTF8.toList.map (·.toNat)) then some (components ((pieces rest).flatMap fun s => 47 :: decode s)) else none
  | _ => none

/-- `vfs_path` (from_proto.rs:14-23). `none` is the error. -/
def vfsPath (u : Url) : Option Path := toFilePath u

/-- `url_to_file_id` (global_state.rs:410-416): the outer `none` is a panic, the inner one the error. -/
def urlToFileId (v : Vfs.Vfs Path) (u : Url) : Option (Option FileId) :=
  match vfsPath u with
  | none => some none
  | some p => v.fileId p

/-- `file_id_to_url` (global_state.rs:404-408) with `url_from_abs_path` (to_proto.rs:133-165), of which only the first branch is taken on Unix.
`none` is a panic. -/
def fileIdToUrl (v : Vfs.Vfs Path) (f : FileId) : Option Url := (v.filePath f).map fromFilePath

namespace Spec

/-- The name of a file or a directory. -/
def Name (s : Bytes) : Prop := s ≠ [] ∧ s ≠ [46] ∧ s ≠ [46, 46] ∧ 47 ∉ s ∧ ∀ b ∈ s, b < 256

/-- `c` is the digit for `n`. -/
def Digit (c n : Nat) : Prop := (n < 10 ∧ c = 48 + n) ∨ (10 ≤ n ∧ n < 16 ∧ (c = 55 + n ∨ c = 87 + n))

/-- `text` spells the name: each byte is written as it is or as `%` and two digits. A percent sign is always written with digits. -/
inductive Spells : Bytes → Bytes → Prop where
  | nil : Spells [] []
  | plain {b : Nat} {text name : Bytes} : b ≠ 37 → b ≠ 47 → Spells text name → Spells (b :: text) (b :: name)
  | digits {a b x y : Nat} {text name : Bytes} : Digit a x → Digit b y → Spells text name → Spells (37 :: a :: b :: text) ((16 * x + y) :: name)

/-- The text is the spelt names with a slash before each. -/
inductive SpellsPath : Bytes → Path → Prop where
  | root : SpellsPath [47] []
  | one {text name : Bytes} : Spells text name → SpellsPath (47 :: text) [name]
  | cons {text name more : Bytes} {names : Path} : names ≠ [] → Spells text name → SpellsPath more names → SpellsPath (47 :: (text ++ more)) (name :: names)

/-- A URL of the file: `file:` without a host. -/
def Names (u : Url) (p : Path) : Prop := u.scheme = "file".toUTF8.toList.map (·.toNat) ∧ u.host = none ∧ SpellsPath u.path p

end Spec
end Verif.Lsp.Url
