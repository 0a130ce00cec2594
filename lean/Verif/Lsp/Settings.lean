import Verif.Lsp.Config
/-!
# Model of the exchange by which changed settings reach the server

`handlers/notification.rs:169-217` (`handle_did_change_configuration`), `global_state.rs:177-197` (`send_request`, `complete_request`), `progress.rs:40-45`,
`main_loop.rs:134-195,211-258,591-594,678`. What an answer does to the settings is `Lsp/Config`; the wait for the first answer is `Lsp/Startup`.

Both directions of the connection are queues. The client answers questions in any order and at any time, with the settings it has then. Requests of the client
and other notifications do not touch this state and are left out.
-/

namespace Verif.Lsp.Settings

open Verif.Lsp.Config

/-- The two names under which the client keeps settings. -/
inductive Section where
  | sourcePawn
  | amxxPawn
deriving DecidableEq

/-- A request of the server: a question for the settings of a section, or (`none`) one whose answer is ignored (`WorkDoneProgressCreate`, progress.rs:40-45;
`SemanticTokensRefresh`, main_loop.rs:678). -/
structure Request where
  id : Nat
  ask : Option Section
deriving DecidableEq

/-- Messages of the client. The parameters of the notification are the settings as the client may push them. -/
inductive Msg where
  | didChangeConfiguration (params : Section → Json)
  | response (id : Nat) (a : Answer)

/-- The part of `GlobalState` used here. `pending` is `req_queue.outgoing` of `lsp-server`: the ids of open requests, with whether the handler kept for the
answer is the one of notification.rs:195-213 or the empty one. `nextId` is its counter (an `i32`; that it does not overflow is assumed). -/
structure Server where
  config : State
  /-- `has_pull_configuration_support` (capabilities.rs:118-120) -/
  pull : Bool
  amxx : Bool
  nextId : Nat := 0
  pending : List (Nat × Bool) := []

/-- `send_request` (global_state.rs:177-187) with `Outgoing::register` -/
def Server.sendRequest (s : Server) (ask : Option Section) : Server × Request :=
  ({ s with nextId := s.nextId + 1, pending := (s.nextId, ask.isSome) :: s.pending }, ⟨s.nextId, ask⟩)

/-- `complete_request` (global_state.rs:189-196); `none`: the panic on an unknown id. -/
def Server.completeRequest (s : Server) (id : Nat) (a : Answer) : Option Server :=
  match s.pending.lookup id with
  | none => none
  | some settings =>
    let s := { s with pending := s.pending.filter fun p => p.1 ≠ id }
    some (if settings then { s with config := answered s.config a } else s)

/-- The section asked for after start-up (notification.rs:184-191). -/
def Server.section_ (s : Server) : Section := if s.amxx then .amxxPawn else .sourcePawn

/-- `handle_did_change_configuration` (notification.rs:169-217): the parameters are not used. -/
def Server.didChangeConfiguration (s : Server) : Server × List Request :=
  if s.pull then
    let r := s.sendRequest (some s.section_)
    (r.1, [r.2])
  else (s, [])

/-- `handle_event` on one of these messages (main_loop.rs:591-594). -/
def Server.handle (s : Server) : Msg → Option (Server × List Request)
  | .didChangeConfiguration _ => some s.didChangeConfiguration
  | .response id a => (s.completeRequest id a).map fun s => (s, [])

/-- The server after start-up (main_loop.rs:134-195): the section asked for first is fixed (main_loop.rs:216-219). -/
def boot (pull amxx : Bool) (options : Option Json) (settings : Section → Json) : Server :=
  { config := (start options (if pull then some (settings .sourcePawn) else none)).1, pull := pull, amxx := amxx }

/-- The client (its settings and the requests it got but has not answered), the two queues, and the server. -/
structure World where
  settings : Section → Json
  open_ : List Request := []
  toServer : List Msg := []
  toClient : List Request := []
  server : Server

inductive Act where
  /-- The user changes the settings; the client tells the server. -/
  | change (f : Section → Json)
  /-- The client takes the next request. -/
  | receive
  /-- The client answers one of the requests it has: a question with the settings it has now, anything else with no result. -/
  | answer (i : Nat)
  /-- The client answers one of the requests it has with an error. -/
  | refuse (i : Nat)
  /-- The server handles the next message. -/
  | deliver
  /-- The server sends a request for another reason. -/
  | other

/-- What the client answers to a request. -/
def reply (settings : Section → Json) : Option Section → Answer
  | some sec => ⟨false, some (.arr [settings sec])⟩
  | none => ⟨false, none⟩

/-- One step; `none`: the server panicked. Steps that are not possible change nothing. -/
def World.step (w : World) : Act → Option World
  | .change f => some { w with settings := f, toServer := w.toServer ++ [.didChangeConfiguration f] }
  | .receive =>
    match w.toClient with
    | [] => some w
    | r :: rs => some { w with open_ := w.open_ ++ [r], toClient := rs }
  | .answer i =>
    match w.open_[i]? with
    | none => some w
    | some r => some { w with open_ := w.open_.eraseIdx i, toServer := w.toServer ++ [.response r.id (reply w.settings r.ask)] }
  | .refuse i =>
    match w.open_[i]? with
    | none => some w
    | some r => some { w with open_ := w.open_.eraseIdx i, toServer := w.toServer ++ [.response r.id ⟨true, none⟩] }
  | .deliver =>
    match w.toServer with
    | [] => some w
    | m :: ms => (w.server.handle m).map fun r => { w with toServer := ms, toClient := w.toClient ++ r.2, server := r.1 }
  | .other =>
    let r := w.server.sendRequest none
    some { w with toClient := w.toClient ++ [r.2], server := r.1 }

def World.run (w : World) : List Act → Option World
  | [] => some w
  | a :: as => (w.step a).bind fun w => w.run as

/-- After start-up; `early` are notifications that came during it and were put aside (C38). -/
def World.init (pull amxx : Bool) (options : Option Json) (settings : Section → Json) (early : List (Section → Json)) : World :=
  { settings := settings, toServer := early.map .didChangeConfiguration, server := boot pull amxx options settings }

end Verif.Lsp.Settings

/-! ## Specification -/
namespace Verif.Lsp.Settings.Spec

open Verif.Lsp.Settings

/-- Nothing is under way: no message in either queue, no open question. -/
def Settled (w : World) : Prop := w.toServer = [] ∧ w.toClient = [] ∧ w.open_ = []

/-- The client answers no question for its settings with an error. -/
def Willing : World → List Act → Prop
  | _, [] => True
  | w, a :: as => (∀ i r, a = .refuse i → w.open_[i]? = some r → r.ask = none) ∧ ∀ w', w.step a = some w' → Willing w' as

/-- Steps by which messages already under way are handled. -/
def Handling : Act → Prop
  | .receive | .deliver | .answer _ => True
  | _ => False

end Verif.Lsp.Settings.Spec
