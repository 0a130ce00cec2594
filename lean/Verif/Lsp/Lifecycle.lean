import Verif.Lsp.Dispatch
/-!
# Model of the main loop's handling of messages, from the first message to the end of the server

`main_loop.rs:53-86` (`run`), `276-302` of the events only messages, `399-417` (`on_notification`), `586-594`, `dispatch.rs:216-255`
(`NotificationDispatcher`), `global_state.rs:177-197` (`send_request`, `complete_request`), `main.rs:41-65`.

What the handlers of notifications do is a parameter (`act`); they are modelled in `Lsp/Editor`, `Lsp/Loading`, `Lsp/Settings`, `Lsp/Workers` and
`Lsp/Compile`. Other events (tasks, files, compilers) change the rest of the state in any way. Requests are those of `Lsp/Dispatch`.
-/

namespace Verif.Lsp.Lifecycle

open Verif.Lsp

/-- `lsp_server::Message`. `J` are the JSON parameters. -/
inductive Msg (J : Type) where
  | request (r : Dispatch.Req)
  | notification (method : String) (params : J)
  | response (id : Nat)

/-- What the server is built from: which parameters `extract` accepts for a method, what the handlers do (`none`: panic or error, either ends the server),
and what the handlers of responses do. -/
structure Handlers (J H : Type) where
  accepts : String → J → Bool
  act : String → J → H → Option H
  answered : Nat → H → H

structure St (H : Type) where
  disp : Dispatch.St := Dispatch.St.init
  /-- `req_queue.outgoing` -/
  outgoing : List Nat := []
  /-- the number of the next request to the client -/
  next : Nat := 0
  host : H

variable {J H : Type}

/-- The methods of the chain in `on_notification` (main_loop.rs:407-413), with their names in `lsp-types`. -/
def methods : List String :=
  ["textDocument/didOpen", "textDocument/didChange", "textDocument/didClose", "textDocument/didSave", "workspace/didChangeConfiguration",
   "workspace/didChangeWatchedFiles", "window/workDoneProgress/cancel"]

/-- `on_sync_mut` of `NotificationDispatcher` (dispatch.rs:222-246): the notification not yet taken, and the state; `none`: panic. -/
def onSyncMut (hs : Handlers J H) (d : Option (Option (String × J) × H)) (m : String) : Option (Option (String × J) × H) :=
  match d with
  | none => none
  | some (none, h) => some (none, h)
  | some (some (method, params), h) =>
    if method = m then
      if hs.accepts m params then (hs.act m params h).map fun h => (none, h) else none
    else some (some (method, params), h)

/-- `on_notification` (main_loop.rs:399-417); `finish` only writes to the log. -/
def onNotification (hs : Handlers J H) (h : H) (method : String) (params : J) : Option H :=
  (methods.foldl (onSyncMut hs) (some (some (method, params), h))).map Prod.snd

/-- `handle_event` for a message (main_loop.rs:590-594). -/
def St.handle (hs : Handlers J H) (s : St H) : Msg J → Option (St H)
  | .request r => some { s with disp := Dispatch.onNewRequest s.disp r }
  | .notification m p => (onNotification hs s.host m p).map fun h => { s with host := h }
  | .response id => if id ∈ s.outgoing then some { s with outgoing := s.outgoing.filter (· ≠ id), host := hs.answered id s.host } else none

inductive Event (J H : Type) where
  | msg (m : Msg J)
  /-- Anything else the loop does: it may send a request to the client, and change its state. -/
  | other (ask : Bool) (f : H → H)
  /-- A step of the part in `Lsp/Dispatch` that is not the receipt of a request. -/
  | disp (a : Dispatch.Act)

/-- How the server is: at work; ended, with the status of the process; or brought down by a panic. -/
inductive Out (H : Type) where
  | running (s : St H)
  | ended (s : St H) (status : Nat)
  | crashed

/-- One turn of the loop in `run` (main_loop.rs:62-84); the loop over the messages put aside during the start does the same. When `exit` is seen `run`
returns `Ok(())` and so does `main` (main.rs:59-64): status 0. -/
def St.turn (hs : Handlers J H) (s : St H) : Event J H → Out H
  | .msg (.notification m p) =>
    if m = "exit" then .ended s 0
    else match s.handle hs (.notification m p) with
      | some s => .running s
      | none => .crashed
  | .msg m =>
    match s.handle hs m with
    | some s => .running s
    | none => .crashed
  | .other ask f => .running (if ask then { s with outgoing := s.outgoing ++ [s.next], next := s.next + 1, host := f s.host } else { s with host := f s.host })
  | .disp (.recv _) => .running s
  | .disp a => .running { s with disp := s.disp.step a }

/-- `run` (main_loop.rs:53-86). -/
def run (hs : Handlers J H) : Out H → List (Event J H) → Out H
  | o, [] => o
  | .running s, e :: es => run hs (s.turn hs e) es
  | o, _ :: _ => o

end Verif.Lsp.Lifecycle

/-! ## Specification -/
namespace Verif.Lsp.Lifecycle.Spec

open Verif.Lsp.Lifecycle

variable {J H : Type}

/-- The notifications the server does something with. -/
def Known (m : String) : Prop :=
  m = "textDocument/didOpen" ∨ m = "textDocument/didChange" ∨ m = "textDocument/didClose" ∨ m = "textDocument/didSave" ∨
  m = "workspace/didChangeConfiguration" ∨ m = "workspace/didChangeWatchedFiles" ∨ m = "window/workDoneProgress/cancel"

def isExit : Event J H → Bool
  | .msg (.notification m _) => m == "exit"
  | _ => false

/-- What an event means for the state of the server: a known notification is what its handler does, once; others are nothing. -/
inductive Effect (hs : Handlers J H) : Event J H → H → H → Prop
  | known {m : String} {p : J} {h h' : H} : Known m → hs.act m p h = some h' → Effect hs (.msg (.notification m p)) h h'
  | unknown {m : String} {p : J} {h : H} : ¬ Known m → Effect hs (.msg (.notification m p)) h h
  | request {r : Dispatch.Req} {h : H} : Effect hs (.msg (.request r)) h h
  | response {id : Nat} {h : H} : Effect hs (.msg (.response id)) h (hs.answered id h)
  | other {ask : Bool} {f : H → H} {h : H} : Effect hs (.other ask f) h (f h)
  | disp {a : Dispatch.Act} {h : H} : Effect hs (.disp a) h h

/-- The effects one after the other. -/
inductive Effects (hs : Handlers J H) : List (Event J H) → H → H → Prop
  | nil {h : H} : Effects hs [] h h
  | cons {e : Event J H} {es : List (Event J H)} {h h' h'' : H} : Effect hs e h h' → Effects hs es h' h'' → Effects hs (e :: es) h h''

/-- The steps of `Lsp/Dispatch` in an event: a request of the client is received there. -/
def steps : Event J H → List Dispatch.Act
  | .msg (.request r) => [.recv r]
  | .disp (.done i o) => [.done i o]
  | .disp .task => [.task]
  | _ => []

/-- The client keeps to the protocol: the parameters of known notifications are those the protocol prescribes, and a response is to a request that was
sent and not answered before. `open_` are the requests not answered, `n` is the number of the next. -/
def Polite (hs : Handlers J H) : List Nat → Nat → List (Event J H) → Prop
  | _, _, [] => True
  | open_, n, .msg (.notification m p) :: es => (Known m → hs.accepts m p = true) ∧ Polite hs open_ n es
  | open_, n, .msg (.response id) :: es => id ∈ open_ ∧ Polite hs (open_.filter (· ≠ id)) n es
  | open_, n, .msg (.request _) :: es => Polite hs open_ n es
  | open_, n, .other true _ :: es => Polite hs (open_ ++ [n]) (n + 1) es
  | open_, n, .other false _ :: es => Polite hs open_ n es
  | open_, n, .disp _ :: es => Polite hs open_ n es

end Verif.Lsp.Lifecycle.Spec
