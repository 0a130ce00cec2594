import Verif.Lsp.Config
import Verif.Graph.Spec
/-!
# Model of the compiler workers: which there are, and which are started when a file is saved

`crates/sourcepawn_lsp/src/reload.rs:39-115`, `main_loop.rs:53-78`, `handlers/notification.rs:120-136, 182-262`.
-/

namespace Verif.Lsp.Workers

open Verif.Lsp.Config Verif.Graph

/-- `FlycheckConfig` (flycheck/src/lib.rs): what a worker was created with. -/
structure Settings where
  compiler : Str
  arguments : List Str
  includes : List Str
deriving DecidableEq

/-- The part of `GlobalState` that matters here. `graph` is what `analysis.graph()` answers and `workers` is
`self.flycheck`. -/
structure Server where
  data : Data
  graph : Graph
  workers : List (Nat × Settings) := []

/-- `reload_flycheck` (reload.rs:77-114). `keys()` of a hash map: the roots in some order, here that of `findRoots`. Cancellation cannot happen: the
main thread holds the only handle that can write. -/
def reloadFlycheck (s : Server) : Server :=
  match s.data.compilerPath with
  | none => s
  | some p => { s with workers := s.graph.findRoots.map fun r => (r, ⟨p, s.data.compilerArguments, includeDirs s.data⟩) }

/-- The condition under which `update_configuration` reloads the workers (reload.rs:69-72). -/
def compilerChanged (old new : Data) : Bool :=
  decide (new.compilerPath ≠ old.compilerPath) || decide (new.compilerArguments ≠ old.compilerArguments) || decide (includeDirs new ≠ includeDirs old)

/-- `update_configuration(config, false)` (reload.rs:39-76), as far as workers are concerned. -/
def updateConfiguration (new : Data) (s : Server) : Server :=
  if compilerChanged s.data new then reloadFlycheck { s with data := new } else { s with data := new }

/-- The handler of the answer to `workspace/configuration` (notification.rs:192-212). -/
def answer (a : Answer) (s : Server) : Server :=
  if a.error then s
  else match a.result with
    | some (.arr (j :: _)) => updateConfiguration (update s.data j).1 s
    | _ => s

/-- `run` up to the loop (main_loop.rs:60-76), with the settings and the files there are at that point. -/
def start (d : Data) (g : Graph) : Server := reloadFlycheck { data := d, graph := g }

/-- What a file is to the server: the URI is not a path, the path is not known, or it is a known file. -/
inductive Saved where
  | noPath | unknown | file (id : Nat)

/-- The task of `run_flycheck` (notification.rs:227-253): the workers that are restarted. `flycheck.get(root)`: the worker of the root. `sorted().unique()`
only orders the roots. The task is taken to run at once. -/
def runFlycheck (s : Server) (file : Nat) : List (Nat × Settings) :=
  let picked := (s.graph.projectsForFile s.graph.findRoots file).filterMap fun r => s.workers.find? fun w => w.1 = r
  if picked.isEmpty then s.workers else picked

/-- `handle_did_save_text_document` (notification.rs:120-136). -/
def didSave (s : Server) : Saved → List (Nat × Settings)
  | .file id => if s.data.compilerOnSave then runFlycheck s id else []
  | .unknown => []
  | .noPath => if s.data.compilerOnSave then s.workers else []

/-- What happens to the server: the files or what they include change (`process_changes`), or the client answers with settings. -/
inductive Event where
  | files (g : Graph)
  | settings (a : Answer)

def step (s : Server) : Event → Server
  | .files g => { s with graph := g }
  | .settings a => answer a s

def run (s : Server) (es : List Event) : Server := es.foldl step s

/-! ## Specification -/

namespace Spec

/-- The project of `root` has the file. -/
def Project (g : Graph) (root file : Nat) : Prop := root ∈ g.findRoots ∧ Verif.Graph.Spec.Reach (fun a b => (a, b) ∈ g.edges) root file

/-- What a compiler run should be given. -/
def Wanted (d : Data) (t : Settings) : Prop := d.compilerPath = some t.compiler ∧ t.arguments = d.compilerArguments ∧ t.includes = includeDirs d

end Spec

end Verif.Lsp.Workers
