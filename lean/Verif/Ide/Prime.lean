/-!
# Model of `parallel_prime_caches`

`crates/ide/src/prime_caches.rs:21-124`. The thread that calls it and its worker threads, with the two channels; a schedule is a list of
actions. Not modelled: cancellation (the call unwinds and nothing is reported) and the names shown to the user.
-/

namespace Verif.Ide.Prime

/-- Messages from the workers (prime_caches.rs:37-40). -/
inductive Progress (P : Type) where
  | begin_ (p : P)
  | end_ (p : P)

/-- Where the calling thread is: at the head of the loop, waiting for progress, or after the loop. -/
inductive Phase where
  | top
  | waiting
  | over
deriving DecidableEq

/-- `indexed` is a record for the specification: the projects that were indexed, in the order in which that was finished. `reports`
are the values of `projects_done` given to the callback. -/
structure St (P : Type) where
  projects : List P
  queue : List P := []
  progress : List (Progress P) := []
  workers : List (Option P)
  done : Nat := 0
  phase : Phase := .top
  indexed : List P := []
  reports : List Nat := []

inductive Act where
  /-- The head of the loop: the condition and the sending of the work (lines 84-94). -/
  | turn
  /-- `recv_timeout` gives a message (lines 99-121). -/
  | recv
  /-- `recv_timeout` times out. -/
  | timeout
  /-- Worker `w` takes work (lines 48-51). -/
  | take (w : Nat)
  /-- Worker `w` has indexed the files of its project (lines 53-57). -/
  | finish (w : Nat)

variable {P : Type}

/-- One action; `none` if it is not possible. -/
def St.step (s : St P) : Act → Option (St P)
  | .turn =>
    if s.phase = .top then
      if s.done < s.projects.length then some { s with queue := s.queue ++ s.projects, phase := .waiting } else some { s with phase := .over }
    else none
  | .recv =>
    if s.phase = .waiting then
      match s.progress with
      | [] => none
      | .begin_ _ :: r => some { s with progress := r, phase := .top, reports := s.reports ++ [s.done] }
      | .end_ _ :: r => some { s with progress := r, done := s.done + 1, phase := .top, reports := s.reports ++ [s.done + 1] }
    else none
  | .timeout => if s.phase = .waiting ∧ s.progress.isEmpty then some { s with phase := .top } else none
  | .take w =>
    match s.workers[w]?, s.queue with
    | some none, p :: q => some { s with queue := q, workers := s.workers.set w (some p), progress := s.progress ++ [.begin_ p] }
    | _, _ => none
  | .finish w =>
    match s.workers[w]? with
    | some (some p) => some { s with workers := s.workers.set w none, indexed := s.indexed ++ [p], progress := s.progress ++ [.end_ p] }
    | _ => none

def St.run (s : St P) : List Act → Option (St P)
  | [] => some s
  | a :: as => (s.step a).bind fun s' => s'.run as

def St.init (projects : List P) (workers : Nat) : St P := { projects, workers := List.replicate workers none }

end Verif.Ide.Prime
