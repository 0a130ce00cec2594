import Verif.Vfs.Usage
/-!
# Model of the status report

`crates/ide/src/status.rs`: the report on what the database has stored, which `handle_analyzer_status` (`crates/sourcepawn_lsp/src/handlers/request.rs:240-247`)
appends to the line on the files.

Simplifications: a table of the database is the list of its entries in the order in which it yields them (nothing is assumed about that order); an entry is kept
as what the report reads of it, the sizes given by the crate deepsize being numbers; sizes are without overflow; the lines are kept as their numbers. `none` is a panic.
-/

namespace Verif.Ide.Status
open Verif.Vfs (showBytes Suffix)

/-- `FilesStats` (status.rs:147-151). -/
structure Files where
  total : Nat := 0
  size : Nat := 0
  deriving DecidableEq

/-- `FilesStats::collect_entry` (status.rs:159-164): the length of the text, if there is one. -/
def Files.collect (s : Files) (value : Option Nat) : Option Files :=
  match value with
  | some len => some { total := s.total + 1, size := s.size + len }
  | none => none

/-- `SyntaxTreeStats` (status.rs:166-170). -/
structure Trees where
  total : Nat := 0
  retained : Nat := 0
  deriving DecidableEq

/-- `SyntaxTreeStats::collect_entry` (status.rs:178-183). -/
def Trees.collect (s : Trees) (value : Bool) : Option Trees :=
  some { total := s.total + 1, retained := s.retained + value.toNat }

/-- What the report reads of a result of the preprocessor: the sizes of its macros and the number of its offsets. -/
structure Result where
  macros : List Nat
  offsets : Nat

/-- `PreprocessDataStats` (status.rs:185-192). -/
structure Data where
  total : Nat := 0
  macros : Nat := 0
  macrosSize : Nat := 0
  offsets : Nat := 0
  retained : Nat := 0
  deriving DecidableEq

/-- `PreprocessDataStats::collect_entry` (status.rs:204-227). -/
def Data.collect (s : Data) (value : Option Result) : Option Data :=
  some {
    total := s.total + 1
    macros := s.macros + (match value with | some r => r.macros.length | none => 0)
    macrosSize := s.macrosSize + (match value with | some r => r.macros.sum | none => 0)
    offsets := s.offsets + (match value with | some r => r.offsets | none => 0)
    retained := s.retained + value.isSome.toNat }

/-- What the report reads of an entry of the parameters: the sizes of the macros of the key, the capacity of their table, the number of files
being preprocessed, and whether there is a value. -/
structure Params where
  macros : List Nat
  capacity : Nat
  being : Nat
  value : Bool

/-- `PreprocessParamsStats` (status.rs:229-236). -/
structure ParamsStats where
  total : Nat := 0
  being : Nat := 0
  macros : Nat := 0
  macrosSize : Nat := 0
  retained : Nat := 0
  deriving DecidableEq

/-- Division, which panics for zero. -/
def divide (a b : Nat) : Option Nat := if b = 0 then none else some (a / b)

/-- `PreprocessParamsStats::collect_entry` (status.rs:248-278). -/
def ParamsStats.collect (s : ParamsStats) (e : Params) : Option ParamsStats :=
  let size := if e.macros.isEmpty then some 0 else (divide e.macros.sum e.macros.length).map (· * e.capacity)
  size.map fun size =>
    { total := s.total + 1, being := s.being + e.being, macros := s.macros + e.macros.length, macrosSize := s.macrosSize + size,
      retained := s.retained + e.value.toNat }

/-- `collect_query` (status.rs:78-101). -/
def collectQuery {S E : Type} (collect : S → E → Option S) (init : S) (entries : List E) : Option S := entries.foldlM collect init

/-- What the database has stored; of the last five tables only the number of entries is read. -/
structure Tables where
  texts : List (Option Nat)
  trees : List Bool
  data : List (Option Result)
  params : List Params
  astIds : List Unit
  defMaps : List Unit
  bodies : List Unit
  scopes : List Unit
  inferred : List Unit

/-- The lines of the report. -/
inductive Line where
  | files (size : Int × Suffix)
  | trees (total preserved : Nat)
  | data (total preserved macros : Nat) (size : Int × Suffix) (offsets : Nat)
  | params (total preserved being macros : Nat) (size : Int × Suffix)
  | astIds (n : Nat)
  | defMaps (n : Nat)
  | bodies (n : Nat)
  | scopes (n : Nat)
  | inferred (n : Nat)
  deriving DecidableEq

/-- `status` (status.rs:35-76), with `Display` of the statistics (status.rs:153-157, 172-176, 194-202, 238-246) and `collect_query_count` (status.rs:103-119). -/
def status (t : Tables) : Option (List Line) :=
  match collectQuery Files.collect {} t.texts, collectQuery Trees.collect {} t.trees, collectQuery Data.collect {} t.data,
      collectQuery ParamsStats.collect {} t.params with
  | some f, some s, some d, some p =>
    some [.files (showBytes f.size), .trees s.total s.retained, .data d.total d.retained d.macros (showBytes d.macrosSize) d.offsets,
      .params p.total p.retained p.being p.macros (showBytes p.macrosSize),
      .astIds t.astIds.length, .defMaps t.defMaps.length, .bodies t.bodies.length, .scopes t.scopes.length, .inferred t.inferred.length]
  | _, _, _, _ => none

end Verif.Ide.Status
