import Verif.Lsp.Snapshot
/-!
# Model of the versions of published diagnostics

`crates/sourcepawn_lsp/src/main_loop.rs:702-744`, `handlers/notification.rs:20-117`, `mem_docs.rs`.

On top of `Lsp/Snapshot`: the version numbers the client gives to its documents, and what is published when diagnostics have been computed.
Which of the computed diagnostics differ from those held, and so are published, is left open (see Lsp/Diagnostics); what is published when a document is
closed is C52.
-/

namespace Verif.Lsp.Versions

open Verif.Lsp.Snapshot

variable {F T : Type} [DecidableEq F] [DecidableEq T]

/-- `PublishDiagnosticsParams` (lsp-types): instead of the diagnostics there is what they were computed from. -/
structure Published (F T : Type) where
  file : F
  version : Option Int
  seen : F → Option T

/-- The state of `Lsp/Snapshot` with the versions of the messages in the inbox, `MemDocs` with `DocumentData::version` (mem_docs.rs:13-18, 64-75), and what was
published. `got`: the messages received with their versions (for the specification). -/
structure St (F T : Type) where
  base : Snapshot.St F T := {}
  queue : List Int := []
  docs : F → Option Int := fun _ => none
  got : List (Msg F T × Int) := []
  out : List (Published F T) := []

/-- `MemDocs::insert`, `get_mut` and `remove` as the handlers use them (notification.rs:28-39, 68-78, 98-101). -/
def record (docs : F → Option Int) (v : Int) : Msg F T → F → Option Int
  | .didOpen f _ => put docs f (some v)
  | .didChange f _ => if (docs f).isSome then put docs f (some v) else docs
  | .didClose f => put docs f none
  | .request _ => docs

/-- The publication of what a task brings (main_loop.rs:702-744): the version is looked up in `mem_docs` now. -/
def publish (docs : F → Option Int) (changed : F → Bool) : Snapshot.Task F T → List (Published F T)
  | .diags files seen => (files.filter changed).map fun f => ⟨f, docs f, seen⟩
  | _ => []

inductive Act (F T : Type) where
  /-- The client sends a message; documents opened and changed have a version. -/
  | client (m : Msg F T) (version : Int)
  | recv
  /-- The main loop handles the next task; the diagnostics of these files differ from those held. -/
  | task (changed : F → Bool)
  /-- Anything else. -/
  | other (a : Snapshot.Act F T)

/-- One action; `none` if it cannot happen. -/
def St.step (s : St F T) : Act F T → Option (St F T)
  | .client m v => (s.base.step (.client m)).map fun b => { s with base := b, queue := s.queue ++ [v] }
  | .recv =>
    match s.base.inbox, s.queue with
    | m :: _, v :: q => (s.base.step .recv).map fun b => { s with base := b, queue := q, docs := record s.docs v m, got := s.got ++ [(m, v)] }
    | _, _ => none
  | .task changed =>
    match s.base.tasks with
    | t :: _ => (s.base.step .task).map fun b => { s with base := b, out := s.out ++ publish s.docs changed t }
    | [] => none
  | .other a =>
    match a with
    | .client _ | .recv | .task => none
    | a => (s.base.step a).map fun b => { s with base := b }

def St.run (s : St F T) : List (Act F T) → Option (St F T)
  | [] => some s
  | a :: as => (s.step a).bind fun s' => s'.run as

end Verif.Lsp.Versions

/-! ## Specification -/
namespace Verif.Lsp.Versions.Spec
open Verif.Lsp.Snapshot
variable {F T : Type} [DecidableEq F]

/-- One message, in the client: text and version of the document `f` while it is open. -/
def docStep (f : F) (doc : Option (T × Int)) : Msg F T × Int → Option (T × Int)
  | (.didOpen g t, v) => if g = f then some (t, v) else doc
  | (.didChange g e, v) => if g = f then doc.map fun d => (e d.1, v) else doc
  | (.didClose g, _) => if g = f then none else doc
  | (.request _, _) => doc

/-- Text and version of `f` in the client after it sent `ms`; none if it is not open. -/
def doc (ms : List (Msg F T × Int)) (f : F) : Option (T × Int) := ms.foldl (docStep f) none

/-- Is the message about a document? -/
def isDoc : Msg F T → Bool
  | .request _ => false
  | _ => true

/-- Diagnostics are under way: being computed, computed and not yet sent to the main loop, or not yet handled there. -/
def UnderWay (s : Verif.Lsp.Versions.St F T) (files : List F) (seen : F → Option T) : Prop :=
  ⟨.diags files, seen⟩ ∈ s.base.jobs ∨ .diags files seen ∈ s.base.ended ∨ .diags files seen ∈ s.base.tasks

/-- No message about a document is received while diagnostics are under way. -/
def Calm [DecidableEq T] (as : List (Verif.Lsp.Versions.Act F T)) : Prop :=
  ∀ pre post s m rest, as = pre ++ .recv :: post → Verif.Lsp.Versions.St.run {} pre = some s → s.base.inbox = m :: rest → isDoc m = true →
    ∀ files seen, ¬ UnderWay s files seen

end Verif.Lsp.Versions.Spec
