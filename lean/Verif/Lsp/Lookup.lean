import Verif.Lsp.Snapshot
/-!
# Model of how a request finds the file it is about

`from_proto::file_id`, `file_position`, `file_range` (`crates/sourcepawn_lsp/src/lsp/from_proto.rs:65-95`), `GlobalStateSnapshot::url_to_file_id` with `vfs_read`
(`global_state.rs:348-387, 410-416`), and the first query of a handler (`handlers/request.rs:18-133`).
The name of the file is looked up in the virtual file system, which the main loop goes on changing (`vfs: Arc<RwLock<Vfs>>`); the text is then read
from the snapshot. The number of a file never changes (C04), so files stand for their numbers here. Names that are no paths are in `Lsp/Url`.
-/

namespace Verif.Lsp.Lookup
open Verif.Lsp.Snapshot
variable {F T : Type} [DecidableEq F] [DecidableEq T]

/-- What becomes of a request. -/
inductive Found (T : Type) where
  /-- "file not found" (global_state.rs:412-414) -/
  | notFound
  /-- The file is not in the snapshot: the query panics (salsa: no value set), or gives the empty text if the file was there and was removed before. -/
  | missing
  /-- the file is read -/
  | text (t : T)
deriving DecidableEq

/-- A handler of a job looks its file up while the server is in state `s`. -/
def lookup (s : St F T) (j : Job F T) (f : F) : Found T :=
  match s.vfs f with
  | none => .notFound
  | some _ =>
    match j.seen f with
    | none => .missing
    | some t => .text t

end Verif.Lsp.Lookup
