import Verif.Vfs.Spec
import Verif.Lsp.OpQueue
/-!
# Model of the loading of a workspace: client, main loop, file loader and disk running concurrently

`crates/sourcepawn_lsp/src/main_loop.rs:54-88,270-297,452-493,577-583,646-648,657-757`, `reload.rs:17-76`,
`progress.rs:10-69`, `handlers/notification.rs:60-117,138-148,168-221`, `mem_docs.rs`,
`crates/vfs-notify/src/lib.rs:54-62,91-181`, `global_state.rs:234-247` (only whether there are changes).

The four parties interleave arbitrarily; an action that is not enabled leaves the state alone. Channels are FIFO lists.
`none` is a panic. Simplifications: the virtual file system is the map of `Verif.Vfs.Spec` (C05 proves that the real one
behaves like it); which files an entry has is left open: while it loads an entry the loader may read any file
(`Verif.Vfs.Loader` models which); a `notify` event is a batch of files read likewise. Texts of documents are their bytes
after the edit (C01). Requests, responses other than the configuration, compiler messages and diagnostics results are
turns without effect on this state. Reloading the compiler jobs, publishing diagnostics and the texts of progress messages
are not modelled. Versions and counters are natural numbers.
-/

namespace Verif.Lsp.Loading
open Verif.Vfs (Bytes)
open Verif.Lsp.OpQueue (Queue)

/-- Files with what was read from disk (`none`: not there or not readable). -/
abbrev Files (P : Type) := List (P × Option Bytes)

/-- `loader::Message` (vfs/src/loader.rs:46-60). -/
inductive Msg (P : Type) where
  | progress (total done version : Nat)
  | loaded (files : Files P)

/-- `vfs_notify::Message` (vfs-notify/src/lib.rs:30-34); a configuration is its version and its number of entries. -/
inductive Req (P : Type) where
  | config (version entries : Nat)
  | invalidate (p : P)

/-- What the loader thread is doing (`NotifyActor::run`, vfs-notify/src/lib.rs:91-181). -/
inductive Actor (P : Type) where
  /-- waiting for the next event -/
  | idle
  /-- in the loop over the entries (vfs-notify/src/lib.rs:126-139), at entry number `done`; `sent` tells whether its files
  were sent already -/
  | loading (version total done : Nat) (found : Files P) (sent : Bool)
  /-- before the `read` for an invalidated path (vfs-notify/src/lib.rs:141-145) -/
  | todo (p : P)
  /-- collecting the files of an invalidation or of a `notify` event -/
  | batch (found : Files P)

/-- Messages from the client that matter here. -/
inductive ClientMsg (P : Type) where
  | didOpen (p : P) (text : Bytes)
  | didChange (p : P) (text : Bytes)
  | didClose (p : P)
  | watched (ps : List P)
  /-- the answer to `workspace/configuration`: whether include directories or root changed, the number of include
  directories, whether there are errors in it, whether caches are to be prefilled -/
  | configuration (changed : Bool) (includes : Nat) (bad prefill : Bool)
  | other

/-- `lsp_ext::ServerStatusParams` without the message, which is always `None` (reload.rs:23-36). -/
structure Status where
  warning : Bool
  quiescent : Bool
  deriving DecidableEq

/-- What the server does visibly. -/
inductive Out (P : Type) where
  /-- work-done progress "Roots Scanned" -/
  | begin_ | report | end_
  | status (s : Status)
  | refreshTokens
  /-- a background job computing the diagnostics of these documents is started -/
  | diagnose (docs : List P)
  /-- a background job priming the caches is started -/
  | prime

/-- The fields of `GlobalState` involved (global_state.rs:44-85). -/
structure Main (P : Type) where
  running : Bool
  configVersion : Nat
  progressVersion : Nat
  nTotal : Nat
  nDone : Nat
  lastStatus : Option Status
  configErrors : Bool
  prefill : Bool
  refresh : Bool
  primeQueue : Queue Unit
  vfs : Vfs.Spec.State P
  docs : List P
  docsChanged : Bool
  out : List (Out P)

/-- What happened, for stating properties. -/
inductive Obs (P : Type) where
  /-- a configuration was sent to the loader -/
  | configured (version entries : Nat)
  /-- the loader finished entry `i` of a configuration and sent these files -/
  | found (version i : Nat) (files : Files P)
  /-- the main loop handled these files -/
  | delivered (files : Files P)
  /-- the main loop saw changed files or opened or closed documents -/
  | changed
  | diagnosed (docs : List P)
  /-- the loader read a file, or the file was reported as changed -/
  | seen (p : P)

structure Sys (P : Type) where
  disk : P → Option Bytes
  /-- paths changed on disk of which the client has not told the server yet -/
  unreported : List P
  /-- client to server -/
  lsp : List (ClientMsg P)
  /-- main loop to loader -/
  inbox : List (Req P)
  actor : Actor P
  /-- loader to main loop -/
  chan : List (Msg P)
  main : Main P
  log : List (Obs P)

variable {P : Type} [DecidableEq P]

/-! ### The main loop -/

/-- `is_quiescent` (reload.rs:17-21). -/
def Main.isQuiescent (m : Main P) : Bool :=
  !(m.lastStatus.isNone || decide (m.progressVersion < m.configVersion) || decide (m.nDone < m.nTotal))

/-- `current_status` (reload.rs:23-36). -/
def Main.currentStatus (m : Main P) : Status := ⟨m.configErrors, m.isQuiescent⟩

/-- `update_status_or_notify` (main_loop.rs:276-281). -/
def Main.updateStatus (m : Main P) : Main P :=
  if m.lastStatus ≠ some m.currentStatus then
    { m with lastStatus := some m.currentStatus, out := m.out ++ [.status m.currentStatus] }
  else m

/-- The files of a `Loaded` message (main_loop.rs:454-462): open documents are left alone. -/
def Main.loaded (m : Main P) : Files P → Main P
  | [] => m
  | (p, c) :: fs =>
    if p ∈ m.docs then m.loaded fs
    else ({ m with vfs := (m.vfs.step (.set p c)).1 } : Main P).loaded fs

/-- `handle_vfs_msg` (main_loop.rs:452-493) with `report_progress` and `Progress::fraction` (progress.rs:10-13). -/
def Main.vfsMsg (m : Main P) : Msg P → Option (Main P)
  | .loaded fs => some (m.loaded fs)
  | .progress total done version =>
    if version ≤ m.configVersion then
      let m := { m with progressVersion := version, nTotal := total, nDone := done }
      if done = 0 then
        if done ≤ total then some { m with out := m.out ++ [.begin_] } else none
      else if done < total then some { m with out := m.out ++ [.report] }
      else if done = total then some { m with out := m.out ++ [.end_] }
      else none
    else none

/-- Several messages in one turn (main_loop.rs:646-652). -/
def Main.vfsMsgs (m : Main P) : List (Msg P) → Option (Main P)
  | [] => some m
  | x :: xs => (m.vfsMsg x).bind (fun m => m.vfsMsgs xs)

/-- `process_changes` (global_state.rs:234-247; main_loop.rs:659) and `MemDocs::take_changes` (mem_docs.rs:48-50). -/
def Main.takeChanges (m : Main P) : Main P := { m with vfs := (m.vfs.step .take).1, docsChanged := false }

/-- What a quiescent server does at the end of a turn (main_loop.rs:662-697). -/
def Main.whenQuiescent (m : Main P) (wasQuiescent stateChanged docsChanged : Bool) : Main P :=
  let m := if !wasQuiescent && m.prefill then { m with primeQueue := m.primeQueue.requestOp () } else m
  let m := if (!wasQuiescent || stateChanged) && m.refresh then { m with out := m.out ++ [.refreshTokens] } else m
  if !wasQuiescent || stateChanged || docsChanged then { m with out := m.out ++ [.diagnose m.docs] } else m

/-- Starting to prime (main_loop.rs:751-753). -/
def Main.startPriming (m : Main P) : Main P :=
  if m.primeQueue.shouldStartOp.2.isSome then
    { m with primeQueue := m.primeQueue.shouldStartOp.1, out := m.out ++ [.prime] }
  else { m with primeQueue := m.primeQueue.shouldStartOp.1 }

/-- The end of `handle_event` (main_loop.rs:659-757). `wasQuiescent` was taken at the start of the turn. -/
def Main.endTurn (m : Main P) (wasQuiescent : Bool) : Main P :=
  let m' := m.takeChanges
  let m' := if m'.isQuiescent then m'.whenQuiescent wasQuiescent (!m.vfs.pending.isEmpty) m.docsChanged else m'
  m'.startPriming.updateStatus

/-- What the end of a turn shows: that something had changed, and for which documents a diagnostics job was started. -/
def Main.observed (m : Main P) (wasQuiescent : Bool) : List (Obs P) :=
  (if !m.vfs.pending.isEmpty || m.docsChanged then [.changed] else []) ++
  ((m.endTurn wasQuiescent).out.drop m.out.length).filterMap diagnosedOf
where
  diagnosedOf : Out P → Option (Obs P)
    | .diagnose docs => some (.diagnosed docs)
    | _ => none

/-- Messages from the client. Second component: requests to the loader. Third: observations. -/
def Main.clientMsg (m : Main P) : ClientMsg P → Main P × List (Req P) × List (Obs P)
  /- `handle_did_open_text_document` (notification.rs:60-87) -/
  | .didOpen p t =>
    ({ m with docs := p :: m.docs.filter (fun d => decide (d ≠ p)), docsChanged := true,
              vfs := (m.vfs.step (.set p (some t))).1 }, [], [])
  /- `handle_did_change_text_document` (notification.rs:20-58) -/
  | .didChange p t => if p ∈ m.docs then ({ m with vfs := (m.vfs.step (.set p (some t))).1 }, [], []) else (m, [], [])
  /- `handle_did_close_text_document` (notification.rs:89-117) -/
  | .didClose p =>
    ({ m with docs := m.docs.filter (fun d => decide (d ≠ p)), docsChanged := true }, [.invalidate p], [])
  /- `handle_did_change_watched_files` (notification.rs:138-148) -/
  | .watched ps => (m, ps.map .invalidate, ps.map .seen)
  /- the response handler in `handle_did_change_configuration` (notification.rs:195-217) and `update_configuration`
     (reload.rs:38-67): one entry per include directory and one for the root -/
  | .configuration changed n bad prefill =>
    let m := { m with configErrors := bad, prefill := prefill }
    if changed then
      ({ m with configVersion := m.configVersion + 1 }, [.config (m.configVersion + 1) (n + 1)],
        [.configured (m.configVersion + 1) (n + 1)])
    else (m, [], [])
  | .other => (m, [], [])

/-! ### The system -/

inductive Act (P : Type) where
  /-- a file on disk is written or deleted -/
  | write (p : P) (c : Option Bytes)
  /-- the client notices the changes to a path and tells the server -/
  | report (p : P)
  /-- the client sends something else -/
  | send (m : ClientMsg P)
  /-- the loader takes the next message -/
  | actorTake
  /-- the loader receives an event of its own file watcher -/
  | actorWatch
  /-- the loader reads a file -/
  | actorRead (p : P)
  /-- the loader sends its next message -/
  | actorSend
  /-- the initial status (main_loop.rs:75), which precedes the main loop proper -/
  | start
  /-- a turn of the main loop for a message from the client -/
  | turnClient
  /-- a turn for the next `k + 1` messages of the loader -/
  | turnLoader (k : Nat)
  /-- a turn in which the priming of caches ends -/
  | turnPrimed (cancelled : Bool)
  /-- a turn for anything else -/
  | turnOther

/-- One action; `none` is a panic. -/
def Sys.step (s : Sys P) : Act P → Option (Sys P)
  | .write p c => some { s with disk := fun q => if q = p then c else s.disk q, unreported := p :: s.unreported }
  | .report p =>
    some { s with unreported := s.unreported.filter (fun q => decide (q ≠ p)), lsp := s.lsp ++ [.watched [p]] }
  | .send m => some { s with lsp := s.lsp ++ [m] }
  | .actorTake =>
    match s.actor, s.inbox with
    | .idle, .config v n :: rest =>
      some { s with inbox := rest, chan := s.chan ++ [.progress n 0 v],
                    actor := if n = 0 then .idle else .loading v n 0 [] false }
    | .idle, .invalidate p :: rest => some { s with inbox := rest, actor := .todo p }
    | _, _ => some s
  | .actorWatch =>
    match s.actor with
    | .idle => some { s with actor := .batch [] }
    | _ => some s
  | .actorRead p =>
    match s.actor with
    | .loading v n i found false =>
      some { s with actor := .loading v n i (found ++ [(p, s.disk p)]) false, log := s.log ++ [.seen p] }
    | .todo q => some { s with actor := .batch [(q, s.disk q)], log := s.log ++ [.seen q] }
    | .batch found => some { s with actor := .batch (found ++ [(p, s.disk p)]), log := s.log ++ [.seen p] }
    | _ => some s
  | .actorSend =>
    match s.actor with
    | .loading v n i found false =>
      some { s with chan := s.chan ++ [.loaded found], actor := .loading v n i [] true, log := s.log ++ [.found v i found] }
    | .loading v n i _ true =>
      some { s with chan := s.chan ++ [.progress n (i + 1) v],
                    actor := if i + 1 = n then .idle else .loading v n (i + 1) [] false }
    | .batch found => some { s with chan := s.chan ++ [.loaded found], actor := .idle }
    | _ => some s
  | .start =>
    if s.main.running then some s else some { s with main := { s.main.updateStatus with running := true } }
  | .turnClient =>
    match s.lsp with
    | [] => some s
    | c :: rest =>
      let r := s.main.clientMsg c
      some { s with lsp := rest, main := r.1.endTurn s.main.isQuiescent, inbox := s.inbox ++ r.2.1,
                    log := s.log ++ r.2.2 ++ r.1.observed s.main.isQuiescent }
  | .turnLoader k =>
    if s.main.running ∧ s.chan ≠ [] then
      (s.main.vfsMsgs (s.chan.take (k + 1))).map fun m =>
        { s with chan := s.chan.drop (k + 1), main := m.endTurn s.main.isQuiescent,
                 log := s.log ++ (s.chan.take (k + 1)).filterMap deliveredOf ++ m.observed s.main.isQuiescent }
    else some s
  | .turnPrimed cancelled =>
    if s.main.running ∧ s.main.primeQueue.inProgress then
      s.main.primeQueue.opCompleted.map fun q =>
        let m : Main P := { s.main with primeQueue := if cancelled then q.requestOp () else q }
        { s with main := m.endTurn s.main.isQuiescent, log := s.log ++ m.observed s.main.isQuiescent }
    else some s
  | .turnOther =>
    if s.main.running then
      some { s with main := s.main.endTurn s.main.isQuiescent, log := s.log ++ s.main.observed s.main.isQuiescent }
    else some s
where
  deliveredOf : Msg P → Option (Obs P)
    | .loaded fs => some (.delivered fs)
    | .progress .. => none

/-- A history; `none` is a panic. -/
def Sys.run (s : Sys P) : List (Act P) → Option (Sys P)
  | [] => some s
  | a :: as => (s.step a).bind (fun s => s.run as)

/-- The state after `initialize` (main_loop.rs:91-213, reload.rs:38-67): the configuration of the client, with `n` include
directories, was sent to the loader. The messages set aside while pulling it (C38) are the first in `lsp`. -/
def Sys.init (disk : P → Option Bytes) (n : Nat) (prefill refresh : Bool) : Sys P :=
  { disk := disk, unreported := [], lsp := [], inbox := [.config 1 (n + 1)], actor := .idle, chan := [],
    main := { running := false, configVersion := 1, progressVersion := 0, nTotal := 0, nDone := 0, lastStatus := none,
              configErrors := false, prefill := prefill, refresh := refresh, primeQueue := Queue.init,
              vfs := Vfs.Spec.State.init, docs := [], docsChanged := false, out := [] },
    log := [.configured 1 (n + 1)] }

/-! ### Specification -/
namespace Spec

/-- Steps of the progress shown to the user while roots are scanned. -/
inductive Tag where
  | start | tick | stop
  deriving DecidableEq

def tagOf : Out P → Option Tag
  | .begin_ => some .start
  | .report => some .tick
  | .end_ => some .stop
  | _ => none

/-- What a client accepts for one progress token: it is started, reported and stopped, and only then started again. The
flag tells whether it is being shown at the end. -/
inductive Legal : Bool → List Tag → Prop where
  | nothing : Legal false []
  | start {l : List Tag} : Legal false l → Legal true (l ++ [.start])
  | tick {l : List Tag} : Legal true l → Legal true (l ++ [.tick])
  | stop {l : List Tag} : Legal true l → Legal false (l ++ [.stop])

/-- The last status sent to the client. -/
def toldOf : Out P → Option Status
  | .status s => some s
  | _ => none

def told (out : List (Out P)) : Option Status := (out.filterMap toldOf).getLast?

/-- Nothing is left to do for the loader, and the main loop has handled all it sent. -/
def LoaderDone (s : Sys P) : Prop := s.inbox = [] ∧ s.actor = .idle ∧ s.chan = []

/-- Nothing at all is left to do: moreover the client has told everything and the server has handled it. -/
def Settled (s : Sys P) : Prop := LoaderDone s ∧ s.unreported = [] ∧ s.lsp = []

/-- The actions of the server and its threads, as opposed to those of the client and the disk. -/
def ofServer : Act P → Bool
  | .write .. => false
  | .report .. => false
  | .send .. => false
  | .actorWatch => false
  | _ => true

/-- One event comes later than another. -/
def Before {α : Type} (l : List α) (a b : α) : Prop := ∃ x y z, l = x ++ a :: y ++ b :: z

/-- Every file found under the configuration with this version reached the main loop: each entry of the configuration was
searched and the files found were handed over afterwards. -/
def AllDelivered (log : List (Obs P)) (version : Nat) : Prop :=
  ∃ n, .configured version n ∈ log ∧
    ∀ i < n, ∃ files, Before log (.found version i files) (.delivered files)

/-- Diagnostics jobs for exactly these documents were started after everything that changed. -/
def Fresh (log : List (Obs P)) (docs : List P) : Prop :=
  ∃ before after, log = before ++ .diagnosed docs :: after ∧ .changed ∉ after

end Spec

end Verif.Lsp.Loading
