/-!
# Model of request dispatching

`crates/sourcepawn_lsp/src/dispatch.rs:27-214`, `main_loop.rs:341-397,419-421,556-560`, `global_state.rs:210-232`.

The main loop is a state machine; worker threads finish their jobs in any order and with any outcome. The task channel is
a FIFO. The body of a handler is not modelled, only how it ends. Other tasks (diagnostics, cache priming) do not touch
the state modelled here and are left out.
-/

namespace Verif.Lsp.Dispatch

/-- An LSP request: `lsp_server::Request`. `paramsOk` says whether `from_json` accepts the parameters. -/
structure Req where
  id : Nat
  method : String
  paramsOk : Bool
  deriving DecidableEq, Repr

/-- How a handler run by a worker ends. -/
inductive Outcome where
  | ok | lspError | otherError | cancelled | panicked
  deriving DecidableEq, Repr

inductive Code where
  | ok | lspError | internalError | invalidParams | methodNotFound | invalidRequest
  deriving DecidableEq, Repr

structure Resp where
  id : Nat
  code : Code
  deriving DecidableEq, Repr

inductive Task where
  | response (r : Resp)
  | retry (r : Req)
  deriving DecidableEq, Repr

def Task.id : Task → Nat
  | .response r => r.id
  | .retry r => r.id

/-- Server state: `req_queue.incoming`, `shutdown_requested`, the jobs given to the pool, the task channel, and what went
out to the client. `started` records each handler handed to the pool. -/
structure St where
  pending : List Nat
  shutdown : Bool
  jobs : List Req
  queue : List Task
  sent : List Resp
  started : List Req
  deriving DecidableEq, Repr

def St.init : St := ⟨[], false, [], [], [], []⟩

/-- The methods of the `.on` chain in `on_request` (main_loop.rs:377-394); names from `lsp-types` and `lsp/ext.rs`. -/
def asyncMethods : List String :=
  ["textDocument/semanticTokens/full", "textDocument/semanticTokens/full/delta", "textDocument/semanticTokens/range",
   "textDocument/definition", "textDocument/hover", "sourcepawn-lsp/syntaxTree", "sourcepawn-lsp/projectsGraphviz",
   "sourcepawn-lsp/preprocessedDocument", "sourcepawn-lsp/itemTree", "sourcepawn-lsp/analyzerStatus",
   "sourcepawn-lsp/projectMainPath"]

/-- `register_request` (global_state.rs:223-232). -/
def St.register (s : St) (id : Nat) : St := { s with pending := id :: s.pending.filter (· ≠ id) }

/-- `respond` (global_state.rs:210-221): sent only if the request is still registered. -/
def St.respond (s : St) (r : Resp) : St :=
  if r.id ∈ s.pending then { s with pending := s.pending.filter (· ≠ r.id), sent := s.sent ++ [r] } else s

/-- `result_to_response` and `thread_result_to_response` (dispatch.rs:158-214); `none` is `Err(Cancelled)`. -/
def resultToResponse (id : Nat) : Outcome → Option Resp
  | .ok => some ⟨id, .ok⟩
  | .lspError => some ⟨id, .lspError⟩
  | .cancelled => none
  | .otherError => some ⟨id, .internalError⟩
  | .panicked => some ⟨id, .internalError⟩

/-- The dispatcher: the request not yet taken and the state. -/
abbrev Disp := Option Req × St

/-- `parse` (dispatch.rs:125-155): takes the request if the method matches; answers `InvalidParams` on a bad parameter. -/
def parse (m : String) (d : Disp) : Option Req × Disp :=
  match d.1 with
  | some req =>
    if req.method = m then
      if req.paramsOk then (some req, (none, d.2)) else (none, (none, d.2.respond ⟨req.id, .invalidParams⟩))
    else (none, d)
  | none => (none, d)

/-- `on_sync_mut::<Shutdown>` (dispatch.rs:36-55 with the closure of main_loop.rs:354-357). -/
def onShutdown (d : Disp) : Disp :=
  match parse "shutdown" d with
  | (some req, d') =>
    let s := { d'.2 with shutdown := true }
    match resultToResponse req.id .ok with
    | some r => (d'.1, s.respond r)
    | none => (d'.1, s)
  | (none, d') => d'

/-- `on_with_thread_intent` (dispatch.rs:83-111): hand the handler to the pool. -/
def onAsync (d : Disp) (m : String) : Disp :=
  match parse m d with
  | (some req, d') => (d'.1, { d'.2 with jobs := d'.2.jobs ++ [req], started := d'.2.started ++ [req] })
  | (none, d') => d'

/-- `finish` (dispatch.rs:113-123). -/
def finish (d : Disp) : St :=
  match d.1 with
  | some req => d.2.respond ⟨req.id, .methodNotFound⟩
  | none => d.2

/-- `on_request` (main_loop.rs:347-397). -/
def onRequest (s : St) (req : Req) : St :=
  let d := onShutdown (some req, s)
  match d.1 with
  | some r => if d.2.shutdown then d.2.respond ⟨r.id, .invalidRequest⟩ else finish (asyncMethods.foldl onAsync d)
  | none => finish (asyncMethods.foldl onAsync d)

/-- `on_new_request` (main_loop.rs:341-344). -/
def onNewRequest (s : St) (req : Req) : St := onRequest (s.register req.id) req

/-- `handle_task` for the two request tasks (main_loop.rs:556-560). -/
def handleTask (s : St) : Task → St
  | .response r => s.respond r
  | .retry req => if req.id ∈ s.pending then onRequest s req else s

inductive Act where
  /-- The main loop receives a request. -/
  | recv (r : Req)
  /-- The `i`-th running job ends with an outcome; the worker sends its task. -/
  | done (i : Nat) (o : Outcome)
  /-- The main loop handles the next task of the channel. -/
  | task
  deriving DecidableEq, Repr

/-- The task a worker sends (dispatch.rs:104-107). -/
def workerTask (req : Req) (o : Outcome) : Task :=
  match resultToResponse req.id o with
  | some r => .response r
  | none => .retry req

def St.step (s : St) : Act → St
  | .recv r => onNewRequest s r
  | .done i o =>
    match s.jobs[i]? with
    | some req => { s with jobs := s.jobs.eraseIdx i, queue := s.queue ++ [workerTask req o] }
    | none => s
  | .task =>
    match s.queue with
    | t :: q => handleTask { s with queue := q } t
    | [] => s

def St.run (s : St) (as : List Act) : St := as.foldl St.step s

end Verif.Lsp.Dispatch

/-! ## Specification -/
namespace Verif.Lsp.Dispatch.Spec
open Verif.Lsp.Dispatch

/-- The response a handler's outcome calls for; none if it was cancelled (it is run again). -/
def expected : Outcome → Option Code
  | .ok => some .ok
  | .lspError => some .lspError
  | .otherError | .panicked => some .internalError
  | .cancelled => none

/-- How often the client sent a request with this id. -/
def received (id : Nat) (as : List Act) : Nat := as.countP (fun a => match a with | .recv r => r.id = id | _ => false)

/-- How many responses with this id the client got. -/
def answered (id : Nat) (s : St) : Nat := s.sent.countP (fun r => r.id = id)

/-- The client never reuses the id of a request it is still waiting for: at each `recv`, every earlier request with this
id was answered. -/
def FreshIds : List Act → Prop
  | as => ∀ pre r post, as = pre ++ Act.recv r :: post → answered r.id (St.init.run pre) = received r.id pre

/-- Jobs and tasks still working for a request. -/
def outstanding (id : Nat) (s : St) : Nat := s.jobs.countP (fun r => r.id = id) + s.queue.countP (fun t => t.id = id)

end Verif.Lsp.Dispatch.Spec
