import Verif.Graph.Spec
/-!
# Model of the picture of the projects

`crates/base-db/src/graph.rs:229-275` (`to_graphviz`) and `crates/sourcepawn_lsp/src/handlers/request.rs:151-164`. The lines of the picture are
values; how they are written is in `Graph/Dot`.
-/

namespace Verif.Graph

abbrev Name := List Char

/-- A line that `to_graphviz` pushes (graph.rs:234, 240-249, 251-255, 257, 266-269, 271). -/
inductive Line where
  | start
  /-- The beginning of the cluster `i`, in the colour with this number. -/
  | cluster (i colour : Nat)
  | arrow (source target : Name)
  | diamond (name : Name)
  | stop
deriving DecidableEq

/-- The arrows of a cluster (graph.rs:250-256): the first file without a name ends the whole function. -/
def arrows (name : Nat → Option Name) : List (Nat × Nat) → Option (List Line)
  | [] => some []
  | e :: es =>
    match name e.1, name e.2 with
    | some s, some t => (arrows name es).map (.arrow s t :: ·)
    | _, _ => none

/-- The loop over the projects (graph.rs:235-258); `COLORS` has 88 entries (graph.rs:300). -/
def clusters (name : Nat → Option Name) : Nat → List SubGraph → Option (List Line)
  | _, [] => some []
  | i, s :: ss =>
    match arrows name s.edges with
    | none => none
    | some as => (clusters name (i + 1) ss).map (.cluster i (i % 88) :: as ++ .stop :: ·)

/-- The loop over the roots (graph.rs:259-270). -/
def diamonds (name : Nat → Option Name) : List SubGraph → Option (List Line)
  | [] => some []
  | s :: ss =>
    match name s.root with
    | none => none
    | some n => (diamonds name ss).map (.diamond n :: ·)

/-- The projects that are drawn (graph.rs:235-238, 259-262). -/
def Graph.drawn (g : Graph) (roots : List Nat) : List SubGraph := (g.findSubgraphs roots).filter fun s => decide (g.ext s.root = .sp)

/-- `to_graphviz` (graph.rs:229-274), with the roots in the order of the hash map. -/
def Graph.toGraphviz (g : Graph) (roots : List Nat) (name : Nat → Option Name) : Option (List Line) :=
  match clusters name 0 (g.drawn roots) with
  | none => none
  | some cs => (diamonds name (g.drawn roots)).map fun ds => .start :: cs ++ ds ++ [.stop]

/-- `name_and_extension` (vfs_path.rs) as the handler writes it (request.rs:158-162): the stem, a dot and the extension, if any. -/
def shown (parts : Option (Name × Option Name)) : Option Name := parts.map fun p => p.1 ++ '.' :: p.2.getD []

namespace Spec

/-- What a line means to someone who looks at the picture: the lines between the beginning of a cluster and its end. -/
def clusterOf (i : Nat) : List Line → Option (List Line)
  | [] => none
  | .cluster j _ :: ls => if i = j then some (ls.takeWhile fun l => decide (l ≠ .stop)) else clusterOf i ls
  | _ :: ls => clusterOf i ls

end Spec

end Verif.Graph
