/-!
# Model of what the answers and the diagnostics are computed from

`crates/sourcepawn_lsp/src/main_loop.rs:341-450, 556-570, 586-790`, `global_state.rs:145-156, 234-345`, `dispatch.rs:83-111`,
`task_pool.rs:20-43`, `handlers/notification.rs:20-117`, `ide/src/lib.rs:160-183`.

The client sends messages, which the main loop takes from its inbox one by one. Requests and the computation of diagnostics run on other
threads and see the snapshot of the database that was taken when they were started. At the end of a turn that changed files the main loop
waits until no snapshot is left, and then writes the changes to the database; meanwhile the computations may be cancelled.
Which text an edit makes is a function (C01 says which); the texts of other files come from the loader. Every request is taken to be one that
is handled by a worker (`Lsp/Dispatch` has the others, shutdown and errors in parameters); the server is taken to be quiescent and to
publish diagnostics (C65 has the other case); no job panics (C82).
Trusted: salsa. Snapshots do not change; a write waits until every snapshot is dropped; a query of a snapshot is cancelled only while a
write waits.
-/

namespace Verif.Lsp.Snapshot

/-- The messages of the client that matter here. -/
inductive Msg (F T : Type) where
  | didOpen (f : F) (t : T)
  | didChange (f : F) (e : T → T)
  | didClose (f : F)
  | request (id : Nat)

/-- What a job does: handle a request, or compute the diagnostics of some files (`subscriptions`). -/
inductive Work (F : Type) where
  | request (id : Nat)
  | diags (subs : List F)

/-- A job that holds a snapshot (`GlobalStateSnapshot`, global_state.rs:348-357): `seen` are the files in it. -/
structure Job (F T : Type) where
  work : Work F
  seen : F → Option T

/-- `Task` (main_loop.rs:39-44). Instead of the answer or the diagnostics there is what they were computed from. A response without it is
an error. -/
inductive Task (F T : Type) where
  | response (id : Nat) (seen : Option (F → Option T))
  | retry (id : Nat)
  | diags (files : List F) (seen : F → Option T)

/-- Is the main loop waiting to write changes to the database? -/
inductive Phase where
  | idle | applying
deriving DecidableEq

/-- The state. `inbox`: sent by the client, not yet received; `handled`: received (for the specification); `mem`: `mem_docs`; `ended`: the
snapshot of the job is dropped, its task is not sent yet (task_pool.rs:27: `sender.send(task())`); `tasks`: the task channel;
`answers`: sent to the client; `shown`: what the diagnostics of a file were computed from. -/
structure St (F T : Type) where
  inbox : List (Msg F T) := []
  handled : List (Msg F T) := []
  mem : List F := []
  vfs : F → Option T := fun _ => none
  db : F → Option T := fun _ => none
  phase : Phase := .idle
  pending : List Nat := []
  jobs : List (Job F T) := []
  ended : List (Task F T) := []
  tasks : List (Task F T) := []
  answers : List (Nat × Option (F → Option T)) := []
  shown : F → Option (F → Option T) := fun _ => none

variable {F T : Type} [DecidableEq F] [DecidableEq T]

def put {α : Type} (m : F → α) (f : F) (x : α) : F → α := fun g => if g = f then x else m g

/-- `update_diagnostics` (main_loop.rs:423-449). -/
def St.updateDiagnostics (s : St F T) : St F T := { s with jobs := s.jobs ++ [⟨.diags s.mem, s.db⟩] }

/-- `Vfs::set_file_contents` (C05) and the end of the turn (main_loop.rs:668-715): `process_changes` if the contents are new, else diagnostics if
the set of open documents was touched. -/
def St.setContents (s : St F T) (f : F) (t : Option T) (docs : Bool) : St F T :=
  if s.vfs f = t then (if docs then s.updateDiagnostics else s)
  else { s with vfs := put s.vfs f t, phase := .applying }

/-- `handle_did_open_text_document`, `handle_did_change_text_document`, `handle_did_close_text_document` (notification.rs:20-117) and
`on_new_request` with `on_with_thread_intent` (main_loop.rs:341-345, dispatch.rs:83-111), each with the end of the turn. -/
def St.handle (s : St F T) : Msg F T → St F T
  | .didOpen f t => St.setContents { s with mem := f :: s.mem.filter (· ≠ f) } f (some t) true
  | .didChange f e =>
    if f ∈ s.mem then
      match s.vfs f with
      | some t => s.setContents f (some (e t)) false
      | none => s
    else s
  | .didClose f => St.updateDiagnostics { s with mem := s.mem.filter (· ≠ f), shown := put s.shown f none }
  | .request id => { s with pending := id :: s.pending.filter (· ≠ id), jobs := s.jobs ++ [⟨.request id, s.db⟩] }

/-- How a job ends. A cancelled request is tried again; of cancelled diagnostics those of the files in `kept` are done
(`fetch_native_diagnostics`, diagnostics.rs:144-178). -/
inductive Outcome (F : Type) where
  | ok
  | failed
  | cancelled (kept : List F)

/-- The task made of the result of a job (dispatch.rs:99-108, main_loop.rs:447). -/
def task (j : Job F T) (o : Outcome F) : Task F T :=
  match j.work, o with
  | .request id, .ok => .response id (some j.seen)
  | .request id, .failed => .response id none
  | .request id, .cancelled _ => .retry id
  | .diags subs, .cancelled kept => .diags (subs.filter (· ∈ kept)) j.seen
  | .diags subs, _ => .diags subs j.seen

/-- `respond` (global_state.rs:210-221). -/
def St.respond (s : St F T) (id : Nat) (seen : Option (F → Option T)) : St F T :=
  if id ∈ s.pending then { s with pending := s.pending.filter (· ≠ id), answers := s.answers ++ [(id, seen)] } else s

/-- `handle_task` (main_loop.rs:556-568). -/
def St.handleTask (s : St F T) : Task F T → St F T
  | .response id seen => s.respond id seen
  | .retry id => if id ∈ s.pending then { s with jobs := s.jobs ++ [⟨.request id, s.db⟩] } else s
  | .diags files seen => { s with shown := fun f => if f ∈ files then some seen else s.shown f }

inductive Act (F T : Type) where
  /-- The client sends a message. -/
  | client (m : Msg F T)
  /-- The loader reports a file; one turn of the main loop. Documents that are open are not touched (main_loop.rs:453-461). -/
  | loader (f : F) (t : Option T)
  /-- The main loop receives a message of the client. -/
  | recv
  /-- No snapshot is left: the main loop writes the changes and goes on (main_loop.rs:668-715). -/
  | apply
  /-- The `i`-th job ends and drops its snapshot. -/
  | finish (i : Nat) (o : Outcome F)
  /-- The task of the `i`-th ended job is put into the channel. -/
  | send (i : Nat)
  /-- The main loop handles the next task. A turn that handles several is several of these. -/
  | task

def Outcome.isCancelled : Outcome F → Bool
  | .cancelled _ => true
  | _ => false

/-- One action; `none` if it cannot happen. -/
def St.step (s : St F T) : Act F T → Option (St F T)
  | .client m => some { s with inbox := s.inbox ++ [m] }
  | .loader f t =>
    if s.phase = .applying then none
    else if f ∈ s.mem then some s
    else some (s.setContents f t false)
  | .recv =>
    if s.phase = .applying then none
    else match s.inbox with
      | [] => none
      | m :: ms => some (St.handle { s with inbox := ms, handled := s.handled ++ [m] } m)
  | .apply =>
    if s.phase = .applying ∧ s.jobs = [] then some (St.updateDiagnostics { s with db := s.vfs, phase := .idle }) else none
  | .finish i o =>
    match s.jobs[i]? with
    | none => none
    | some j =>
      if o.isCancelled ∧ s.phase = .idle then none
      else some { s with jobs := s.jobs.eraseIdx i, ended := s.ended ++ [Verif.Lsp.Snapshot.task j o] }
  | .send i =>
    match s.ended[i]? with
    | none => none
    | some t => some { s with ended := s.ended.eraseIdx i, tasks := s.tasks ++ [t] }
  | .task =>
    if s.phase = .applying then none
    else match s.tasks with
      | [] => none
      | t :: ts => some (St.handleTask { s with tasks := ts } t)

def St.run (s : St F T) : List (Act F T) → Option (St F T)
  | [] => some s
  | a :: as => (s.step a).bind fun s' => s'.run as

end Verif.Lsp.Snapshot

/-! ## Specification -/
namespace Verif.Lsp.Snapshot.Spec
open Verif.Lsp.Snapshot
variable {F T : Type} [DecidableEq F]

/-- One message, in the client: the text of the document `f` while it is open. -/
def clientStep (f : F) (doc : Option T) : Msg F T → Option T
  | .didOpen g t => if g = f then some t else doc
  | .didChange g e => if g = f then doc.map e else doc
  | .didClose g => if g = f then none else doc
  | .request _ => doc

/-- The text of `f` in the client after it sent `ms`; none if it is not open. -/
def clientDoc (ms : List (Msg F T)) (f : F) : Option T := ms.foldl (clientStep f) none

/-- `seen` has the texts the client had, for all documents that were open after it sent `ms`. -/
def Matches (ms : List (Msg F T)) (seen : F → Option T) : Prop := ∀ f t, clientDoc ms f = some t → seen f = some t

/-- What the server does without the client and the loader. -/
def Own : Act F T → Prop
  | .client _ | .loader _ _ => False
  | _ => True

/-- Was a computation cancelled? -/
def cancelled : List (Act F T) → Bool
  | [] => false
  | .finish _ o :: as => o.isCancelled || cancelled as
  | _ :: as => cancelled as

/-- Whenever changes are written to the database, the task of every job that has ended is already in the channel. -/
def Prompt [DecidableEq T] (as : List (Act F T)) : Prop :=
  ∀ pre post s, as = pre ++ .apply :: post → St.run {} pre = some s → s.ended = []

end Verif.Lsp.Snapshot.Spec
