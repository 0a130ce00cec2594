import Verif.Ide.Prime
import Verif.Lsp.OpQueue
/-!
# Model of how indexing is started and shown to the client

`main_loop.rs:304-338` (`prime_caches`), `556-580` (`handle_task`), `596-648` and `665-672,750-752` (`handle_event`), `progress.rs`. The work itself is
`Ide/Prime`, the queue of operations `Lsp/OpQueue`.

Other events of the main loop only matter in that they end a turn. A job that panics is left out (C82).
-/

namespace Verif.Lsp.Indexing

open Verif.Lsp.OpQueue (Queue)

abbrev Str := List Char

/-- `PrimeCachesProgress`: the report has the names of the projects being indexed, how many are done, and how many there are. -/
inductive Prog where
  | begin_
  | report (names : List Str) (done total : Nat)
  | end_ (cancelled : Bool)
deriving DecidableEq

/-- `Task` in the channel; everything but `PrimeCaches` is `other`. -/
inductive Task where
  | prime (p : Prog)
  | other
deriving DecidableEq

/-- What the client gets about indexing: the request to create the token, and the three kinds of progress with their message and percentage. -/
inductive Note where
  | create
  | begin_ (percentage : Nat)
  | report (message : Option Str) (percentage : Nat)
  | end_
deriving DecidableEq

/-- The job on the thread pool: there is none; it has not sent anything yet; it is indexing. -/
inductive Job (P : Type) where
  | idle
  | spawned
  | running (s : Verif.Ide.Prime.St P)

/-- `finished` records how the jobs whose end was handled ended, for the specification. -/
structure St (P : Type) where
  queue : Queue Unit := Queue.init
  job : Job P := .idle
  chan : List Task := []
  out : List Note := []
  finished : List Bool := []

/-- `handle_task` on the collected progress (main_loop.rs:568-580): a report replaces the report before it. -/
def collect (l : List Prog) : Task → List Prog
  | .other => l
  | .prime .begin_ => l ++ [.begin_]
  | .prime (.end_ c) => l ++ [.end_ c]
  | .prime (.report n d t) =>
    match l.getLast? with
    | some (.report _ _ _) => l.dropLast ++ [.report n d t]
    | _ => l ++ [.report n d t]

/-- The message of a report (main_loop.rs:614-627). -/
def message (names : List Str) (done total : Nat) : Option Str :=
  match names with
  | [] => none
  | [x] => some ((toString done).toList ++ '/' :: (toString total).toList ++ " (".toList ++ x ++ ")".toList)
  | x :: rest => some ((toString done).toList ++ '/' :: (toString total).toList ++ " (".toList ++ x ++ " + ".toList ++ (toString rest.length).toList ++ " more)".toList)

variable {P : Type}

/-- The body of the loop over the collected progress (main_loop.rs:604-647) with `report_progress`. `pct` is `(fraction * 100.0) as u32` of
`Progress::fraction` (progress.rs:11-14,31-34). `none`: an assertion fails. -/
def show_ (pct : Nat → Nat → Nat) (s : St P) : Prog → Option (St P)
  | .begin_ => some { s with out := s.out ++ [.create, .begin_ 0] }
  | .report n d t => if d ≤ t then some { s with out := s.out ++ [.report (message n d t) (pct d t)] } else none
  | .end_ c =>
    match s.queue.opCompleted with
    | none => none
    | some q => some { s with queue := if c then q.requestOp () else q, out := s.out ++ [.end_], finished := s.finished ++ [c] }

def showAll (pct : Nat → Nat → Nat) (s : St P) : List Prog → Option (St P)
  | [] => some s
  | p :: ps => (show_ pct s p).bind fun s => showAll pct s ps

/-- `should_start_op` and `prime_caches` (main_loop.rs:750-752, 304-309). -/
def start (s : St P) : St P :=
  match s.queue.shouldStartOp with
  | (q, some ()) => { s with queue := q, job := .spawned }
  | (q, none) => { s with queue := q }

inductive Act (P : Type) where
  /-- A turn of the main loop which handles the next `n` tasks (none: another event), and in which the server becomes quiescent or not
  (main_loop.rs:662-672). -/
  | turn (n : Nat) (request : Bool)
  /-- The job starts (main_loop.rs:311-314, prime_caches.rs:29-82). -/
  | begin_ (projects : List P) (workers : Nat)
  /-- A step of the job or one of its workers; after a message the names of the projects being indexed are reported (prime_caches.rs:84-123). -/
  | work (a : Verif.Ide.Prime.Act) (names : List Str)
  /-- The job ends, because it is done, its workers are gone, or it was cancelled (main_loop.rs:331-335). -/
  | finish (cancelled : Bool)

/-- One step; `none`: an assertion failed. Steps that are not possible change nothing. -/
def St.step (pct : Nat → Nat → Nat) (s : St P) : Act P → Option (St P)
  | .turn n request =>
    (showAll pct { s with chan := s.chan.drop n } ((s.chan.take n).foldl collect [])).map fun s =>
      start (if request then { s with queue := s.queue.requestOp () } else s)
  | .begin_ projects workers =>
    match s.job with
    | .spawned => some { s with chan := s.chan ++ [.prime .begin_], job := .running (.init projects workers) }
    | _ => some s
  | .work a names =>
    match s.job with
    | .running r =>
      match r.step a with
      | none => some s
      | some r' =>
        match a with
        | .recv => some { s with job := .running r', chan := s.chan ++ [.prime (.report names r'.done r'.projects.length)] }
        | _ => some { s with job := .running r' }
    | _ => some s
  | .finish c =>
    match s.job with
    | .running _ => some { s with job := .idle, chan := s.chan ++ [.prime (.end_ c)] }
    | _ => some s

/-- Other tasks may be sent at any time; they are actions of other parts and are given with the steps here. -/
inductive Step (P : Type) where
  | act (a : Act P)
  | sendOther

def St.next (pct : Nat → Nat → Nat) (s : St P) : Step P → Option (St P)
  | .act a => s.step pct a
  | .sendOther => some { s with chan := s.chan ++ [.other] }

def St.run (pct : Nat → Nat → Nat) (s : St P) : List (Step P) → Option (St P)
  | [] => some s
  | a :: as => (s.next pct a).bind fun s => s.run pct as

end Verif.Lsp.Indexing

/-! ## Specification -/
namespace Verif.Lsp.Indexing.Spec

open Verif.Lsp.Indexing

/-- What the client may be sent: the token is created, then the progress begins, then there are reports, whose percentage does not go down and is at most
100, then it ends; and again. The second argument is the percentage shown last, if the progress has begun and not ended. -/
inductive Protocol : List Note → Option Nat → Prop
  | nothing : Protocol [] none
  | begin_ {l : List Note} : Protocol l none → Protocol (l ++ [.create, .begin_ 0]) (some 0)
  | report {l : List Note} {p q : Nat} (m : Option Str) : Protocol l (some p) → p ≤ q → q ≤ 100 → Protocol (l ++ [.report m q]) (some q)
  | end_ {l : List Note} {p : Nat} : Protocol l (some p) → Protocol (l ++ [.end_]) none

/-- Percentages: of the whole at most 100, and more for more. (Division and multiplication of floating-point numbers and the conversion to an integer are
monotone.) -/
structure Percentage (pct : Nat → Nat → Nat) : Prop where
  le : ∀ d t, d ≤ t → pct d t ≤ 100
  mono : ∀ d d' t, d ≤ d' → pct d t ≤ pct d' t

end Verif.Lsp.Indexing.Spec
