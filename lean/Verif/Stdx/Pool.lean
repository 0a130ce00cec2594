/-!
# Model of the pool of background threads

`crates/stdx/src/thread/pool.rs`, `crates/sourcepawn_lsp/src/task_pool.rs`. The worker threads share one unbounded channel of jobs. A list
of actions says when which thread takes a job, when and how a job ends, and when the owner of the pool hands over a job or drops the pool.
The body of a job is not modelled, only whether it returns or panics.
Trusted: the channel is a queue; a receiver gets what is left in it after the last sender is gone (`for job in job_receiver`); sending
fails if and only if every receiver is gone, and what is left in the channel is then lost.
-/

namespace Verif.Stdx.Pool

/-- `ThreadIntent` (stdx/src/thread/intent.rs:5-13). -/
inductive Intent where
  | worker | latencySensitive
deriving DecidableEq, Repr

/-- `Job` (pool.rs:31-34). `guarded` says that the closure catches the panics of its body, as request handlers
(sourcepawn_lsp/src/dispatch.rs:99-108) and the task after a save (handlers/notification.rs:257-265) do, and the computation of diagnostics
(main_loop.rs:443-448) and the filling of caches (main_loop.rs:309-336) do not. `n` numbers the jobs for the specification. -/
structure Job where
  n : Nat
  intent : Intent
  guarded : Bool
deriving DecidableEq, Repr

/-- What a thread knows about its priority, `current_intent` (pool.rs:51-52), and the priority it has, which the operating system was told
last. -/
structure Thread where
  current : Intent
  cls : Intent
deriving DecidableEq, Repr

/-- A worker thread: waiting for a job or running one; ended by a panic of a job; ended because the channel is closed. -/
inductive Worker where
  | idle (t : Thread)
  | busy (t : Thread) (j : Job)
  | panicked
  | ended
deriving DecidableEq, Repr

/-- Does the thread still hold its receiver? -/
def Worker.alive : Worker → Bool
  | .idle _ | .busy _ _ => true
  | .panicked | .ended => false

/-- The pool. `started` (the job and the priority of the thread that took it) and `returned` are records for the specification. `aborted`:
the thread that owns the pool panicked in `spawn`. -/
structure St where
  queue : List Job := []
  workers : List Worker
  closed : Bool := false
  extant : Int := 0
  aborted : Bool := false
  started : List (Job × Intent) := []
  returned : List Job := []
deriving DecidableEq, Repr

/-- `Pool::new` (pool.rs:37-78): every thread starts with the intent `Worker`. -/
def St.new (threads : Nat) : St := { workers := List.replicate threads (.idle ⟨.worker, .worker⟩) }

inductive Act where
  /-- The owner calls `spawn` (pool.rs:80-97). -/
  | spawn (j : Job)
  /-- The owner drops the pool: the sender goes first (pool.rs:19-29). -/
  | close
  /-- Thread `w` receives from the channel. -/
  | take (w : Nat)
  /-- The job of thread `w` ends. -/
  | finish (w : Nat) (panics : Bool)
deriving DecidableEq, Repr

/-- When the last receiver is gone the jobs in the channel are dropped. -/
def St.drain (s : St) : St := if s.workers.any Worker.alive then s else { s with queue := [] }

/-- `job_sender.send(job).unwrap()` (pool.rs:96). -/
def St.spawn (s : St) (j : Job) : St :=
  if s.workers.any Worker.alive then { s with queue := s.queue ++ [j] } else { s with aborted := true }

/-- A thread when it runs job `j` (pool.rs:56-59). -/
def adjust (t : Thread) (j : Job) : Thread := if j.intent ≠ t.current then ⟨j.intent, j.intent⟩ else t

/-- One turn of `for job in job_receiver` up to the call of the job (pool.rs:55-60); the end of the loop if the channel is closed. -/
def St.take (s : St) (w : Nat) : Option St :=
  match s.workers[w]? with
  | some (.idle t) =>
    match s.queue with
    | j :: q => some { s with
        queue := q
        workers := s.workers.set w (.busy (adjust t j) j)
        extant := s.extant + 1
        started := s.started ++ [(j, (adjust t j).cls)] }
    | [] => if s.closed then some { s with workers := s.workers.set w .ended }.drain else none
  | _ => none

/-- The end of a job (pool.rs:61-62): after a panic the thread is gone and `extant_tasks` keeps its value. -/
def St.finish (s : St) (w : Nat) (panics : Bool) : Option St :=
  match s.workers[w]? with
  | some (.busy t j) =>
    if panics then
      if j.guarded then none else some { s with workers := s.workers.set w .panicked }.drain
    else some { s with workers := s.workers.set w (.idle t), extant := s.extant - 1, returned := s.returned ++ [j] }
  | _ => none

/-- One action; `none` if it cannot happen. Nothing is spawned after the pool is dropped or its owner is gone. -/
def St.step (s : St) : Act → Option St
  | .spawn j => if s.closed || s.aborted then none else some (s.spawn j)
  | .close => if s.closed then none else some { s with closed := true }
  | .take w => s.take w
  | .finish w p => s.finish w p

def St.run (s : St) : List Act → Option St
  | [] => some s
  | a :: as => (s.step a).bind fun s' => s'.run as

/-- `Pool::len` (pool.rs:99-101). -/
def St.len (s : St) : Int := s.extant

end Verif.Stdx.Pool

/-! ## Specification -/
namespace Verif.Stdx.Pool.Spec
open Verif.Stdx.Pool

/-- The jobs handed over, in order. -/
def spawned : List Act → List Job
  | [] => []
  | .spawn j :: as => j :: spawned as
  | _ :: as => spawned as

/-- How many jobs panicked. -/
def panics : List Act → Nat
  | [] => 0
  | .finish _ true :: as => panics as + 1
  | _ :: as => panics as

/-- The job a thread is running. -/
def job : Worker → Option Job
  | .busy _ j => some j
  | _ => none

/-- The jobs that are running. -/
def running (s : St) : List Job := s.workers.filterMap job

/-- The next thing a thread of the pool does by itself. -/
def Own : Act → Prop
  | .take _ | .finish _ _ => True
  | _ => False

end Verif.Stdx.Pool.Spec
