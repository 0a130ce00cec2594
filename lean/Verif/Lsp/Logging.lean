import Mathlib.Data.List.Basic
/-!
# Model of the messages the server writes

`setup_logger` (`crates/sourcepawn_lsp/src/main.rs:69-122`) and its options (`main.rs:17-39`). Of the crate `fern` its documented behaviour is modelled: a message passes
if its level is at most the one that is set for its module or the nearest module around it, or the general one if there is none; what passes goes to every output.
A file that is opened for writing without truncating it is written from its start.
-/

namespace Verif.Lsp.Logging

/-- `log::LevelFilter`, from off to trace; a message has one of the last five. -/
inductive Level where
  | off | error | warn | info | debug | trace
  deriving DecidableEq, Repr

def Level.rank : Level → Nat
  | .off => 0 | .error => 1 | .warn => 2 | .info => 3 | .debug => 4 | .trace => 5

/-- `Opts` (main.rs:17-39), what concerns messages. -/
structure Opts where
  verbosity : Nat
  quiet : Bool

/-- `verbosity_level` (main.rs:70-80). -/
def verbosityLevel (o : Opts) : Level :=
  if !o.quiet then
    match o.verbosity with
    | 0 => .error
    | 1 => .warn
    | 2 => .info
    | 3 => .debug
    | _ => .trace
  else .off

/-- The modules a level is set for (main.rs:92-107). -/
def named : List String :=
  ["base_db", "flychek", "hir", "hir_def", "ide", "ide_db", "ide_diagnostics", "paths", "preprocessor", "profile", "sourcepawn_lsp", "stdx", "syntax", "test_utils", "vfs", "vfs_notify"]

/-- `level_for` (main.rs:92-107): the level set for a module, given as its path. -/
def levelFor (o : Opts) (path : List String) : Option Level :=
  match path with
  | [c] => if named.contains c then some (verbosityLevel o) else none
  | _ => none

/-- The level set for the module or the nearest one around it. -/
def nearest (o : Opts) (path : List String) : Option Level := path.inits.reverse.findSome? (levelFor o)

/-- Whether a message passes, with the general level of main.rs:91. -/
def passes (o : Opts) (path : List String) (l : Level) : Bool := decide (l.rank ≤ ((nearest o path).getD .error).rank)

/-- A message: the module it is from, its level, and the bytes of its line. -/
structure Message where
  path : List String
  level : Level
  line : List Nat

/-- What is printed to stderr (main.rs:108). -/
def printed (o : Opts) (ms : List Message) : List Nat := (ms.filter fun m => passes o m.path m.level).flatMap (·.line)

/-- A file that is written to at the position `pos`. -/
def writeAt (file : List Nat) (pos : Nat) (bytes : List Nat) : List Nat := file.take pos ++ bytes ++ file.drop (pos + bytes.length)

/-- The lines are written one after the other. -/
def writeAll : List Nat → Nat → List (List Nat) → List Nat
  | file, _, [] => file
  | file, pos, l :: ls => writeAll (writeAt file pos l) (pos + l.length) ls

/-- The log file after the messages, `old` being what it contained before, nothing if it was made (main.rs:110-119). -/
def logFile (o : Opts) (old : List Nat) (ms : List Message) : List Nat := writeAll old 0 ((ms.filter fun m => passes o m.path m.level).map (·.line))

namespace Spec

/-- The crates of the server. -/
def crates : List String :=
  ["base_db", "flycheck", "hir", "hir_def", "ide", "ide_db", "ide_diagnostics", "paths", "preprocessor", "profile", "sourcepawn_lsp", "stdx", "syntax", "vfs", "vfs_notify"]

end Spec

end Verif.Lsp.Logging
