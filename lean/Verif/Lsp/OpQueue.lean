/-!
# Model of `OpQueue` (`crates/sourcepawn_lsp/src/op_queue.rs`) and of its use for priming caches

`Cause` is dropped (it is only logged) and `last_op_result` too (`Output = ()`, never read).
-/

namespace Verif.Lsp.OpQueue
variable {A : Type}

/-- `OpQueue` (op_queue.rs:6-10). -/
structure Queue (A : Type) where
  requested : Option A
  inProgress : Bool

/-- `OpQueue::default` (op_queue.rs:12-20). -/
def Queue.init : Queue A := ⟨none, false⟩

/-- `request_op` (op_queue.rs:23-25). -/
def Queue.requestOp (q : Queue A) (a : A) : Queue A := { q with requested := some a }

/-- `should_start_op` (op_queue.rs:26-32). -/
def Queue.shouldStartOp (q : Queue A) : Queue A × Option A :=
  if q.inProgress then (q, none)
  else ({ q with inProgress := q.requested.isSome, requested := none }, q.requested)

/-- `op_completed` (op_queue.rs:33-37); `none` = failed assertion. -/
def Queue.opCompleted (q : Queue A) : Option (Queue A) :=
  if q.inProgress then some { q with inProgress := false } else none

/-- What happens to the queue in the main loop. -/
inductive Ev (A : Type) where
  /-- `request_op` (main_loop.rs:668-671) -/
  | request (a : A)
  /-- the end of a loop turn: `should_start_op`, and a worker is spawned (main_loop.rs:750-752, 304-338) -/
  | turn
  /-- a worker's final `PrimeCachesProgress::End` is handled (main_loop.rs:631-641); a cancelled run requests a new
  one with arguments `again` -/
  | done (again : Option A)

/-- Observable history. -/
inductive Obs (A : Type) where
  | requested (a : A)
  | started (a : A)
  | finished
  deriving DecidableEq

/-- The queue, the number of running workers, and the history (newest last). -/
structure Sys (A : Type) where
  q : Queue A
  workers : Nat
  log : List (Obs A)

def Sys.init : Sys A := ⟨Queue.init, 0, []⟩

/-- One event; `none` = panic. A `done` without a running worker cannot happen and leaves the state alone. Workers are
assumed to send their `End` exactly once (main_loop.rs:331-335, no panic inside the worker). -/
def Sys.step (s : Sys A) : Ev A → Option (Sys A)
  | .request a => some { s with q := s.q.requestOp a, log := s.log ++ [.requested a] }
  | .turn =>
    match s.q.shouldStartOp with
    | (q, none) => some { s with q := q }
    | (q, some a) => some ⟨q, s.workers + 1, s.log ++ [.started a]⟩
  | .done again =>
    if s.workers = 0 then some s
    else
      match s.q.opCompleted with
      | none => none
      | some q =>
        match again with
        | none => some ⟨q, s.workers - 1, s.log ++ [.finished]⟩
        | some a => some ⟨q.requestOp a, s.workers - 1, s.log ++ [.finished, .requested a]⟩

def Sys.run : Sys A → List (Ev A) → Option (Sys A)
  | s, [] => some s
  | s, e :: es =>
    match s.step e with
    | none => none
    | some s' => s'.run es

end Verif.Lsp.OpQueue

/-! ## Specification, on histories only -/
namespace Verif.Lsp.OpQueue.Spec
open Verif.Lsp.OpQueue
variable {A : Type}

/-- Arguments of the newest request that was made after the last start. -/
def pending (log : List (Obs A)) : Option A :=
  log.foldl (fun acc o =>
    match o with
    | .requested a => some a
    | .started _ => none
    | .finished => acc) none

/-- Number of started but unfinished operations. -/
def running (log : List (Obs A)) : Int :=
  log.foldl (fun acc o =>
    match o with
    | .requested _ => acc
    | .started _ => acc + 1
    | .finished => acc - 1) 0

/-- A history is good if every start happens while nothing runs and takes the newest request made since the previous
start. -/
def Good (log : List (Obs A)) : Prop :=
  ∀ pre a post, log = pre ++ Obs.started a :: post → running pre = 0 ∧ pending pre = some a

end Verif.Lsp.OpQueue.Spec
