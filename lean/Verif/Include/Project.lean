import Verif.Include.File
import Verif.Graph.MainPath
/-!
# Model of the text of a file in a workspace

`preprocess_file_query` (`crates/preprocessor/src/db.rs:50-70`) with the main file it asks for (`projet_subgraph`, `crates/base-db/src/graph.rs:68-93`).
The parts are in `Include/File` and `Graph/Model`.
-/

namespace Verif.Include
open Verif.Graph

variable {K V : Type}

/-- `subgraph.root.file_id` (db.rs:54-58) for the documents `docs` with their includes; `order` is the order in which a hash map is visited. -/
def mainOf (docs : List Nat) (inc : Nat → List Nat) (ext : Nat → Ext) (order : List Nat) (f : Nat) : Option Nat :=
  ((graphQuery docs inc ext).projectSubgraph order f).map (·.root)

/-- `preprocess_file_query` (db.rs:50-70). -/
def projectText (docs : List Nat) (inc : Nat → List Nat) (ext : Nat → Ext) (order : List Nat) (files : Nat → Macros K V → Run K V) (f : Nat) : Option (Made K V) :=
  preprocessFile files docs.length (mainOf docs inc ext order) f

namespace Spec
open Verif.Graph.Spec

/-- A document with the extension of a plugin that stands at the beginning of something: nobody includes it, or it includes something. -/
def Plugin (docs : List Nat) (inc : Nat → List Nat) (ext : Nat → Ext) (a : Nat) : Prop :=
  ext a = .sp ∧ (IsMain docs inc a ∨ ∃ b, Includes docs inc a b)

end Spec

end Verif.Include
