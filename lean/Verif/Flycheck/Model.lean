import Verif.Lsp.Diagnostics
/-!
# Model of the flycheck worker

`crates/flycheck/src/lib.rs`. One worker thread (`FlycheckActor::run`) with its inbox, the compiler process it started and the thread
that reads the output of the process. The order in which things happen is given by a list of actions; what the operating system and the
channels do (timeouts, `select`, output of the compiler) is chosen by the list.
Diagnostics are abstract (`D`).
-/

namespace Verif.Flycheck

/-- `StateChange` (lib.rs:149-152). -/
inductive StateChange where
  | restart
  | cancel
deriving DecidableEq

/-- `Message` and `Progress` (lib.rs:106-147). The flycheck id and the root are constants of the worker; the error texts are left out;
`DidCheckCrate` is never sent. -/
inductive Msg (D : Type) where
  | add (d : D)
  | didStart
  | didFinish
  | didCancel
  | didFailToRestart
deriving DecidableEq

/-- `CommandHandle` (lib.rs:338-347): the channel from the reader thread, and whether its sender was dropped. -/
structure Handle (D : Type) where
  chan : List D := []
  closed : Bool := false

/-- Where the worker is: in `next_event`, in the `recv_timeout` loop of a restart, ended, or panicked. -/
inductive Mode where
  | waiting
  | debouncing
  | ended
  | panicked
deriving DecidableEq

/-- The worker and its surroundings. `printed` is a record for the specification: the diagnostics printed by each process that was
started. -/
structure St (D : Type) where
  inbox : List StateChange := []
  dropped : Bool := false
  handle : Option (Handle D) := none
  mode : Mode := .waiting
  log : List (Msg D) := []
  printed : List (List D) := []

inductive Act (D : Type) where
  /-- Some thread calls `FlycheckHandle::restart` or `cancel`. -/
  | send (c : StateChange)
  /-- The `FlycheckHandle` is dropped. -/
  | drop
  /-- The reader thread of the current process reads a line that is a diagnostic (lib.rs:436-444). -/
  | output (d : D)
  /-- The reader thread ends (lib.rs:446-468). -/
  | eof
  /-- The worker receives from its inbox. -/
  | takeInbox
  /-- The worker's `select!` receives from the channel of the process. -/
  | takeOutput
  /-- `recv_timeout` ends without a message; does the process start? -/
  | timeout (starts : Bool)

variable {D : Type}

def St.say (s : St D) (m : Msg D) : St D := { s with log := s.log ++ [m] }

/-- `cancel_check_process` (lib.rs:285-294). Cancelling kills the process and, when the handle is dropped, waits for the reader thread
before the channel is dropped (field order, lib.rs:339-343). -/
def St.cancelCheck (s : St D) : St D :=
  match s.handle with
  | some _ => { s with handle := none }.say .didCancel
  | none => s

/-- `Event` (lib.rs:174-177). -/
inductive Event (D : Type) where
  | change (c : StateChange)
  | spComp (d : Option D)

/-- `next_event` (lib.rs:208-221): the event chosen by the action; the outer `none` is that the call blocks, the inner one that the
inbox is disconnected. Simplification: `select!` may take output although the inbox is not empty (a message can come in after the
`try_recv`). -/
def St.nextEvent (s : St D) : Act D → Option (Option (Event D) × St D)
  | .takeInbox =>
    match s.inbox with
    | c :: cs => some (some (.change c), { s with inbox := cs })
    | [] => if s.dropped then some (none, s) else none
  | .takeOutput =>
    match s.handle with
    | none => none
    | some h =>
      match h.chan with
      | d :: ds => some (some (.spComp (some d)), { s with handle := some { h with chan := ds } })
      | [] => if h.closed then some (some (.spComp none), s) else none
  | _ => none

/-- The body of the loop of `run` (lib.rs:225-280); a restart goes on in mode `debouncing`. -/
def St.onEvent (s : St D) : Event D → St D
  | .change .cancel => s.cancelCheck
  | .change .restart => { s.cancelCheck with mode := .debouncing }
  | .spComp none =>
    match s.handle with
    | some _ => { s with handle := none }.say .didFinish
    | none => { s with mode := .panicked }
  | .spComp (some d) => s.say (.add d)

/-- Start of the compiler (lib.rs:244-262). -/
def St.start (s : St D) (starts : Bool) : St D :=
  if starts then { s with handle := some {}, mode := .waiting, printed := s.printed ++ [[]] }.say .didStart
  else { s with mode := .waiting }.say .didFailToRestart

/-- One action; `none` if it cannot happen in this state. -/
def St.step (s : St D) (a : Act D) : Option (St D) :=
  match a with
  | .send c => if s.dropped then none else some { s with inbox := s.inbox ++ [c] }
  | .drop => some { s with dropped := true }
  | .output d =>
    match s.handle with
    | some h =>
      if h.closed then none
      else some { s with
        handle := some { h with chan := h.chan ++ [d] }
        printed := s.printed.dropLast ++ [(s.printed.getLast?.getD []) ++ [d]] }
    | none => none
  | .eof =>
    match s.handle with
    | some h => some { s with handle := some { h with closed := true } }
    | none => none
  | a =>
    match s.mode with
    | .waiting =>
      match s.nextEvent a with
      | none => none
      | some (some e, s') => some (s'.onEvent e)
      | some (none, s') => some { s'.cancelCheck with mode := .ended }
    | .debouncing =>
      match a with
      | .takeInbox =>
        match s.inbox with
        | .restart :: cs => some { s with inbox := cs }
        | .cancel :: cs => some { s with inbox := cs, mode := .waiting }
        | [] => none
      | .timeout starts => if s.inbox = [] then some (s.start starts) else none
      | _ => none
    | .ended | .panicked => none

def St.run (s : St D) : List (Act D) → Option (St D)
  | [] => some s
  | a :: as => (s.step a).bind fun s' => s'.run as

end Verif.Flycheck

namespace Verif.Flycheck.Spec
open Verif.Flycheck

/-- How a run of the compiler ended. -/
inductive End where
  | running
  | finished
  | cancelled
deriving DecidableEq

/-- What a client of the worker sees: runs of the compiler one after the other, and failed attempts to start it. -/
inductive Item (D : Type) where
  | session (delivered : List D) (fin : End)
  | failed

variable {D : Type}

def End.msgs : End → List (Msg D)
  | .running => []
  | .finished => [.didFinish]
  | .cancelled => [.didCancel]

/-- The messages of an item: the start, the diagnostics, the end. -/
def Item.msgs : Item D → List (Msg D)
  | .session ds e => .didStart :: (ds.map .add ++ e.msgs)
  | .failed => [.didFailToRestart]

/-- Is the item a run that still goes on? -/
def Item.open_ : Item D → Prop
  | .session _ e => e = .running
  | .failed => False

/-- Each run delivers, in order, a first part of what its own process printed, and all of it if it finished. -/
def Delivers : List (Item D) → List (List D) → Prop
  | [], ps => ps = []
  | .failed :: is, ps => Delivers is ps
  | .session ds e :: is, ps => ∃ p ps', ps = p :: ps' ∧ ds <+: p ∧ (e = .finished → ds = p) ∧ Delivers is ps'

end Verif.Flycheck.Spec

namespace Verif.Flycheck
variable {D L : Type}

/-- `handle_flycheck_msg` (sourcepawn_lsp/src/main_loop.rs:492-554): what it does to the collection of diagnostics. `place` is the
conversion of a diagnostic and the look-up of its file. -/
def onMsg (id : Nat) (place : D → Option (Verif.Lsp.Diagnostics.FileId × L)) : Msg D → List (Verif.Lsp.Diagnostics.Ev L)
  | .add d => match place d with
    | some (f, x) => [.addCheck id f x]
    | none => []
  | .didStart => [.clearCheck id]
  | .didFinish | .didCancel | .didFailToRestart => []

end Verif.Flycheck

namespace Verif.Flycheck.Spec
open Verif.Flycheck Verif.Lsp.Diagnostics
variable {D L : Type}

/-- Does the event concern the compiler diagnostics of flycheck `id`? -/
def about (id : Nat) : Ev L → Bool
  | .addCheck fc _ _ => fc = id
  | .clearCheck fc => fc = id
  | .clearCheckAll => true
  | _ => false

/-- The diagnostics of file `f`, each once. -/
def heldOf (same : L → L → Bool) (place : D → Option (FileId × L)) (f : FileId) (ds : List D) : List L :=
  ds.foldl (fun acc d => match place d with
    | some (g, x) => if g = f then (if acc.any (fun y => same y x) then acc else acc ++ [x]) else acc
    | none => acc) []

def isStart : Msg D → Bool
  | .didStart => true
  | _ => false

/-- How often the compiler was started. -/
def starts (l : List (Msg D)) : Nat := (l.filter isStart).length

end Verif.Flycheck.Spec
