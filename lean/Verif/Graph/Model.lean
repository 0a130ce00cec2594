/-!
# Model of the include graph (`crates/base-db/src/graph.rs`)

Nodes are file ids; `Node` equality looks at the id only (graph.rs:17-29). Simplification: a file has one extension (`ext`),
so the extension stored with an edge target, inferred from the text of the include, is that of the file; the code takes
either whichever was inserted first. Hash sets and hash maps are lists; wherever the code iterates over one, the order is a
parameter (the order of the list).
-/

namespace Verif.Graph

inductive Ext where
  | sp | inc
  deriving DecidableEq, Repr

/-- `Graph` (graph.rs:37-41). `edges` has no duplicates (`Graph.WF`). -/
structure Graph where
  edges : List (Nat × Nat)
  nodes : List Nat
  ext   : Nat → Ext

/-- Insertion into a hash set. -/
def insertSet {α : Type} [DecidableEq α] (x : α) (l : List α) : List α := if x ∈ l then l else l ++ [x]

/-- Inner loop of `graph_query` (graph.rs:105-115): add the includes of `source`. -/
def addIncludes (source : Nat) (g : List (Nat × Nat) × List Nat) : List Nat → List (Nat × Nat) × List Nat
  | [] => g
  | t :: ts => addIncludes source (insertSet (source, t) g.1, insertSet t g.2) ts

/-- `graph_query` (graph.rs:95-119): `docs` are the known files, `includes f` the resolved includes of `f`. -/
def addDocs (includes : Nat → List Nat) (g : List (Nat × Nat) × List Nat) : List Nat → List (Nat × Nat) × List Nat
  | [] => g
  | d :: ds => addDocs includes (addIncludes d (g.1, insertSet d g.2) (includes d)) ds

def graphQuery (docs : List Nat) (includes : Nat → List Nat) (ext : Nat → Ext) : Graph :=
  let g := addDocs includes ([], []) docs
  { edges := g.1, nodes := g.2, ext := ext }

/-- `get_adjacent_targets` (graph.rs:146-156), looked up at a node. -/
def Graph.adj (g : Graph) (n : Nat) : List Nat := (g.edges.filter (fun e => decide (e.1 = n))).map (·.2)

/-- State of `dfs` (graph.rs:277-298): `visited` and `nodes` receive the same insertions. -/
structure Dfs where
  visited : List Nat := []
  edges   : List (Nat × Nat) := []
  deriving DecidableEq

/-- `dfs` (graph.rs:277-298). `none` is running out of `fuel`, a bound on the recursion depth which the code does not have;
that enough fuel exists is part of what is proved. -/
def dfs (g : Graph) : Nat → Nat → Dfs → Option Dfs
  | 0, _, _ => none
  | fuel + 1, node, st =>
    (g.adj node).foldlM (fun st nb =>
      if nb ∈ st.visited then some st
      else dfs g fuel nb { st with edges := insertSet (node, nb) st.edges }) { st with visited := insertSet node st.visited }

/-- Recursion depth that suffices (proved). -/
def Graph.fuel (g : Graph) : Nat := (g.nodes ++ g.edges.map (·.1) ++ g.edges.map (·.2)).length + 1

/-- Keys of `adj_map` in `find_roots` (graph.rs:159-172). -/
def Graph.keys (g : Graph) : List Nat := (g.edges.flatMap (fun e => [e.1, e.2]) ++ g.nodes).eraseDups

/-- Second component of the tuple in `find_roots`: number of outgoing edges (graph.rs:161-164). -/
def Graph.outDeg (g : Graph) (n : Nat) : Nat := g.edges.countP (fun e => decide (e.1 = n))

/-- First component: number of incoming edges (graph.rs:165-168). -/
def Graph.inDeg (g : Graph) (n : Nat) : Nat := g.edges.countP (fun e => decide (e.2 = n))

/-- `find_roots` (graph.rs:158-183): `nb_source` is the first component, `nb_target` the second. -/
def Graph.findRoots (g : Graph) : List Nat := g.keys.filter (fun n => decide (g.outDeg n ≠ 0 ∨ g.inDeg n = 0))

/-- `SubGraph` (graph.rs:43-48). -/
structure SubGraph where
  root  : Nat
  nodes : List Nat
  edges : List (Nat × Nat)

/-- Loop body of `find_subgraphs` (graph.rs:203-214). -/
def Graph.subgraphOf (g : Graph) (root : Nat) : SubGraph :=
  match dfs g g.fuel root {} with
  | some st => ⟨root, st.visited, st.edges⟩
  | none => ⟨root, [], []⟩

/-- `find_subgraphs` (graph.rs:200-217), visiting the roots in the order `roots` (an iteration order of the hash map). -/
def Graph.findSubgraphs (g : Graph) (roots : List Nat) : List SubGraph := roots.map g.subgraphOf

/-- `projet_subgraph_query` (graph.rs:68-93). -/
def Graph.projectSubgraph (g : Graph) (roots : List Nat) (file : Nat) : Option SubGraph :=
  let subgraphs := g.findSubgraphs roots
  match (subgraphs.filter (fun s => decide (g.ext s.root = .sp))).find? (fun s => decide (file ∈ s.nodes)) with
  | some s => some s
  | none => (subgraphs.filter (fun s => decide (g.ext s.root = .inc))).find? (fun s => decide (file ∈ s.nodes))

/-- `get_subgraph_ids_from_root` (graph.rs:185-198). -/
def Graph.subgraphIds (g : Graph) (root : Nat) : List Nat := (g.subgraphOf root).nodes

/-- `projects_for_file` (ide/src/lib.rs:128-143). -/
def Graph.projectsForFile (g : Graph) (roots : List Nat) (file : Nat) : List Nat :=
  (g.findSubgraphs roots).filterMap (fun s => if file ∈ s.nodes then some s.root else none)

end Verif.Graph
