import Verif.Vfs.Model
/-!
# Specification of the virtual file system: a finite map from paths to contents with a change journal

Nothing here mentions file ids or the interner.
-/

namespace Verif.Vfs.Spec
open Verif.Vfs

variable {P : Type} [DecidableEq P]

/-- The contents a user expects for `p` after a history: those of the last `set` of `p`. -/
def lastContents (p : P) (ops : List (Op P)) : Option Bytes :=
  ops.foldl (fun acc o =>
      match o with
      | .set q c => if q = p then c else acc
      | .take => acc) none

/-- Ideal state: contents by path and the journal of events not yet drained. -/
structure State (P : Type) where
  content : P → Option Bytes
  pending : List (P × ChangeKind)

def State.init : State P := ⟨fun _ => none, []⟩

/-- Ideal step: identical contents are no event; otherwise the event is a creation, deletion or modification. -/
def State.step (s : State P) : Op P → State P × List (P × ChangeKind)
  | .set p c =>
    if s.content p = c then (s, [])
    else
      let k := if s.content p = none then ChangeKind.create else if c = none then .delete else .modify
      (⟨fun q => if q = p then c else s.content q, s.pending ++ [(p, k)]⟩, [])
  | .take => ({ s with pending := [] }, s.pending)

def State.run (s : State P) : List (Op P) → State P × List (List (P × ChangeKind))
  | [] => (s, [])
  | o :: os =>
    let (s', d) := s.step o
    let r := s'.run os
    (r.1, d :: r.2)

end Verif.Vfs.Spec
