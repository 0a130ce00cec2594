import Verif.Graph.Graphviz
import Verif.Props.Graph
/-!
# C90: the picture of the projects
-/

namespace Verif.Props.Graphviz
open Verif.Graph Verif.Graph.Spec Verif.Props.Graph

/-! ## The arrows of a project are a tree -/

/-- The state of a search from `root`: the edges taken so far make a tree of the files visited so far. -/
structure Tree (g : Graph) (root : Nat) (visited : List Nat) (edges : List (Nat × Nat)) : Prop where
  start : root ∈ visited
  ends : ∀ u v, (u, v) ∈ edges → u ∈ visited ∧ v ∈ visited ∧ v ≠ root ∧ (u, v) ∈ g.edges
  fed : ∀ v ∈ visited, v ≠ root → ∃ u, (u, v) ∈ edges
  one : ∀ u u' v, (u, v) ∈ edges → (u', v) ∈ edges → u = u'
  reach : ∀ v ∈ visited, Reach (fun a b => (a, b) ∈ edges) root v
  nodup : edges.Nodup

theorem reach_mono {r s : Nat → Nat → Prop} (h : ∀ a b, r a b → s a b) {a b : Nat} (hr : Reach r a b) : Reach s a b := by
  induction hr with
  | refl => exact .refl _
  | step h1 _ ih => exact .step (h _ _ h1) ih

theorem insertSet_nodup {α : Type} [DecidableEq α] {x : α} {l : List α} (h : l.Nodup) : (insertSet x l).Nodup := by
  unfold insertSet
  split
  · exact h
  · next hx =>
    rw [List.nodup_append]
    exact ⟨h, by simp, fun a ha b hb => by simp at hb; subst hb; exact fun e => hx (e ▸ ha)⟩

theorem tree_grow {g : Graph} {root node nb : Nat} {st : Dfs} (h : Tree g root st.visited st.edges) (hn : node ∈ st.visited) (hb : nb ∉ st.visited) (he : (node, nb) ∈ g.edges) :
    Tree g root (insertSet nb st.visited) (insertSet (node, nb) st.edges) := by
  refine ⟨mem_insertSet.2 (.inr h.start), ?_, ?_, ?_, ?_, insertSet_nodup h.nodup⟩
  · intro u v huv
    rcases mem_insertSet.1 huv with e | huv
    · cases e
      exact ⟨mem_insertSet.2 (.inr hn), mem_insertSet.2 (.inl rfl), fun e => hb (e ▸ h.start), he⟩
    · obtain ⟨h1, h2, h3, h4⟩ := h.ends u v huv
      exact ⟨mem_insertSet.2 (.inr h1), mem_insertSet.2 (.inr h2), h3, h4⟩
  · intro v hv hr
    rcases mem_insertSet.1 hv with e | hv
    · exact ⟨node, mem_insertSet.2 (.inl (by rw [e]))⟩
    · obtain ⟨u, hu⟩ := h.fed v hv hr
      exact ⟨u, mem_insertSet.2 (.inr hu)⟩
  · intro u u' v h1 h2
    rcases mem_insertSet.1 h1 with e1 | h1 <;> rcases mem_insertSet.1 h2 with e2 | h2
    · cases e1; cases e2; rfl
    · cases e1; exact absurd (h.ends _ _ h2).2.1 hb
    · cases e2; exact absurd (h.ends _ _ h1).2.1 hb
    · exact h.one _ _ _ h1 h2
  · intro v hv
    rcases mem_insertSet.1 hv with e | hv
    · subst e
      exact Reach.tail (reach_mono (fun a b hab => mem_insertSet.2 (.inr hab)) (h.reach node hn)) (mem_insertSet.2 (.inl rfl))
    · exact reach_mono (fun a b hab => mem_insertSet.2 (.inr hab)) (h.reach v hv)

theorem tree_loop {g : Graph} {root fuel node : Nat}
    (ih : ∀ n st st', Tree g root (insertSet n st.visited) st.edges → dfs g fuel n st = some st' → Tree g root st'.visited st'.edges) :
    ∀ (nbs : List Nat) (st st' : Dfs), (∀ n ∈ nbs, (node, n) ∈ g.edges) → node ∈ st.visited → Tree g root st.visited st.edges →
      nbs.foldlM (fun st nb => if nb ∈ st.visited then some st
        else dfs g fuel nb { st with edges := insertSet (node, nb) st.edges }) st = some st' →
      Tree g root st'.visited st'.edges := by
  intro nbs
  induction nbs with
  | nil =>
    intro st st' _ _ ht h
    simp only [List.foldlM_nil, Option.pure_def, Option.some.injEq] at h
    exact h ▸ ht
  | cons n ns ihn =>
    intro st st' hadj hn ht h
    simp only [List.foldlM_cons] at h
    have hns : ∀ m ∈ ns, (node, m) ∈ g.edges := fun m hm => hadj m (List.mem_cons_of_mem _ hm)
    by_cases hv : n ∈ st.visited
    · simp only [hv, if_true, Option.bind_eq_bind, Option.bind_some] at h
      exact ihn st st' hns hn ht h
    · simp only [hv, if_false, Option.bind_eq_bind, Option.bind_eq_some_iff] at h
      obtain ⟨st1, h1, h2⟩ := h
      have a := ih _ _ _ (tree_grow ht hn hv (hadj n (by simp))) h1
      exact ihn st1 st' hns ((dfs_ok g _ _ _ _ h1).mono _ hn) a h2

theorem tree_dfs (g : Graph) (root : Nat) : ∀ (fuel node : Nat) (st st' : Dfs), Tree g root (insertSet node st.visited) st.edges → dfs g fuel node st = some st' →
    Tree g root st'.visited st'.edges := by
  intro fuel
  induction fuel with
  | zero => intro node st st' _ h; simp [dfs] at h
  | succ fuel ih =>
    intro node st st' ht h
    simp only [dfs] at h
    exact tree_loop ih (g.adj node) _ _ (fun n hn => mem_adj.1 hn) (mem_insertSet.2 (.inl rfl)) ht h

theorem project_tree (g : Graph) (root : Nat) : Tree g root (g.subgraphOf root).nodes (g.subgraphOf root).edges := by
  obtain ⟨st, h⟩ := fuel_enough g root
  simp only [Graph.subgraphOf, h]
  refine tree_dfs g root _ root {} st ⟨by simp [insertSet], by simp, ?_, by simp, ?_, List.nodup_nil⟩ h
  · intro v hv hr
    simp [insertSet] at hv
    exact absurd hv hr
  · intro v hv
    simp [insertSet] at hv
    subst hv
    exact .refl _

/-! ## The lines -/

theorem arrows_some {name : Nat → Option Name} {nm : Nat → Name} : ∀ es : List (Nat × Nat), (∀ e ∈ es, name e.1 = some (nm e.1) ∧ name e.2 = some (nm e.2)) →
    arrows name es = some (es.map fun e => .arrow (nm e.1) (nm e.2))
  | [], _ => rfl
  | e :: es, h => by
    obtain ⟨h1, h2⟩ := h e (by simp)
    simp [arrows, h1, h2, arrows_some es fun e' he => h e' (by simp [he])]

/-- The lines of a project. -/
def block (nm : Nat → Name) (i : Nat) (s : SubGraph) : List Line := .cluster i (i % 88) :: (s.edges.map fun e => .arrow (nm e.1) (nm e.2)) ++ [.stop]

/-- The lines of projects, numbered from `i`. -/
def blocks (nm : Nat → Name) : Nat → List SubGraph → List Line
  | _, [] => []
  | i, s :: ss => block nm i s ++ blocks nm (i + 1) ss

theorem clusters_some {name : Nat → Option Name} {nm : Nat → Name} : ∀ (ss : List SubGraph) (i : Nat),
    (∀ s ∈ ss, ∀ e ∈ s.edges, name e.1 = some (nm e.1) ∧ name e.2 = some (nm e.2)) → clusters name i ss = some (blocks nm i ss)
  | [], _, _ => rfl
  | s :: ss, i, h => by
    rw [clusters, arrows_some s.edges (h s (by simp)), clusters_some ss (i + 1) fun t ht => h t (by simp [ht])]
    simp [blocks, block]

theorem diamonds_some {name : Nat → Option Name} {nm : Nat → Name} : ∀ (ss : List SubGraph), (∀ s ∈ ss, name s.root = some (nm s.root)) →
    diamonds name ss = some (ss.map fun s => .diamond (nm s.root))
  | [], _ => rfl
  | s :: ss, h => by simp [diamonds, h s (by simp), diamonds_some ss fun t ht => h t (by simp [ht])]

theorem picture {g : Graph} {roots : List Nat} {name : Nat → Option Name} {nm : Nat → Name}
    (h : ∀ s ∈ g.drawn roots, ∀ f ∈ s.nodes, name f = some (nm f)) :
    g.toGraphviz roots name = some (.start :: blocks nm 0 (g.drawn roots) ++ ((g.drawn roots).map fun s => .diamond (nm s.root)) ++ [.stop]) := by
  have hs : ∀ s ∈ g.drawn roots, Tree g s.root s.nodes s.edges := by
    intro s hs
    simp only [Graph.drawn, Graph.findSubgraphs, List.mem_filter, List.mem_map] at hs
    obtain ⟨⟨r, _, rfl⟩, _⟩ := hs
    have : (g.subgraphOf r).root = r := by unfold Graph.subgraphOf; split <;> rfl
    rw [this]
    exact project_tree g r
  unfold Graph.toGraphviz
  rw [clusters_some (nm := nm) _ 0 fun s hm e he => ⟨h s hm _ ((hs s hm).ends e.1 e.2 he).1, h s hm _ ((hs s hm).ends e.1 e.2 he).2.1⟩,
    diamonds_some (nm := nm) _ fun s hm => h s hm _ (hs s hm).start]
  rfl

theorem clusterOf_skip {i : Nat} {ls : List Line} : ∀ (l : List Line), (∀ x ∈ l, ∀ j c, x ≠ .cluster j c) → clusterOf i (l ++ ls) = clusterOf i ls
  | [], _ => rfl
  | x :: l, h => by
    have := h x (by simp)
    have ih := clusterOf_skip (i := i) (ls := ls) l fun y hy => h y (by simp [hy])
    cases x with
    | cluster j c => exact absurd rfl (this j c)
    | start | arrow | diamond | stop => simpa [clusterOf] using ih

theorem clusterOf_block {nm : Nat → Name} {i : Nat} {s : SubGraph} {ls : List Line} :
    clusterOf i (block nm i s ++ ls) = some (s.edges.map fun e => .arrow (nm e.1) (nm e.2)) := by
  have key : ∀ es : List (Nat × Nat), ((es.map fun e => Line.arrow (nm e.1) (nm e.2)) ++ .stop :: ls).takeWhile (fun l => decide (l ≠ .stop)) =
      es.map fun e => .arrow (nm e.1) (nm e.2) := by
    intro es
    induction es with
    | nil => simp
    | cons e es ih => simpa [List.takeWhile_cons] using ih
  simp only [block, List.cons_append, List.append_assoc, List.nil_append, clusterOf, if_true]
  rw [key]

theorem clusterOf_blocks {nm : Nat → Name} {ls : List Line} : ∀ (ss : List SubGraph) (i k : Nat) (s : SubGraph), ss[k]? = some s →
    clusterOf (i + k) (blocks nm i ss ++ ls) = some (s.edges.map fun e => .arrow (nm e.1) (nm e.2))
  | [], _, _, _, h => by simp at h
  | t :: ss, i, 0, s, h => by
    simp at h
    subst h
    rw [blocks, List.append_assoc]
    exact clusterOf_block
  | t :: ss, i, k + 1, s, h => by
    have h : ss[k]? = some s := by simpa using h
    have ih := clusterOf_blocks (nm := nm) (ls := ls) ss (i + 1) k s h
    have hne : ¬ i + (k + 1) = i := by omega
    rw [blocks, List.append_assoc, block]
    simp only [List.cons_append, clusterOf, hne, if_false]
    rw [clusterOf_skip]
    · rw [show i + (k + 1) = i + 1 + k by omega]
      exact ih
    · intro x hx j c
      simp only [List.mem_append, List.mem_map, List.mem_singleton] at hx
      rcases hx with ⟨_, _, rfl⟩ | rfl <;> simp

theorem clusterOf_beyond {nm : Nat → Name} {ls : List Line} (hl : ∀ x ∈ ls, ∀ j c, x ≠ .cluster j c) : ∀ (ss : List SubGraph) (i k : Nat), k < i ∨ i + ss.length ≤ k →
    clusterOf k (blocks nm i ss ++ ls) = none
  | [], i, k, _ => by
    have := clusterOf_skip (i := k) (ls := []) ls hl
    simpa [blocks, clusterOf] using this
  | t :: ss, i, k, h => by
    have hne : ¬ k = i := by simp only [List.length_cons] at h; omega
    rw [blocks, List.append_assoc, block]
    simp only [List.cons_append, clusterOf, hne, if_false]
    rw [clusterOf_skip]
    · exact clusterOf_beyond hl ss (i + 1) k (by simp only [List.length_cons] at h; omega)
    · intro x hx j c
      simp only [List.mem_append, List.mem_map, List.mem_singleton] at hx
      rcases hx with ⟨_, _, rfl⟩ | rfl <;> simp

/-! ## The claims -/

/-- The arrows `as` are a picture of the project of `r`: each is an inclusion between its files, each of its files other than `r` is led to by
an arrow, and `r` leads to all of them. -/
structure Shows (g : Graph) (nm : Nat → Name) (r : Nat) (as : List Line) : Prop where
  true_ : ∀ l ∈ as, ∃ u v, l = .arrow (nm u) (nm v) ∧ (u, v) ∈ g.edges ∧ Reach (fun a b => (a, b) ∈ g.edges) r u
  all : ∀ f, Reach (fun a b => (a, b) ∈ g.edges) r f → f ≠ r → ∃ u, (u, f) ∈ g.edges ∧ .arrow (nm u) (nm f) ∈ as
  led : ∀ f, Reach (fun a b => (a, b) ∈ g.edges) r f → Reach (fun a b => .arrow (nm a) (nm b) ∈ as) r f

/-- A main file: one that the projects start from, with the extension of plugins. -/
def Main (g : Graph) (r : Nat) : Prop := r ∈ g.findRoots ∧ g.ext r = .sp

theorem subgraph_root (g : Graph) (r : Nat) : (g.subgraphOf r).root = r := by unfold Graph.subgraphOf; split <;> rfl

theorem drawn_main {g : Graph} {roots : List Nat} (ho : IsOrderOf roots g.findRoots) (s : SubGraph) : s ∈ g.drawn roots ↔ ∃ r, Main g r ∧ s = g.subgraphOf r := by
  simp only [Graph.drawn, Graph.findSubgraphs, List.mem_filter, List.mem_map, decide_eq_true_eq, Main]
  constructor
  · rintro ⟨⟨r, hr, rfl⟩, he⟩
    rw [subgraph_root] at he
    exact ⟨r, ⟨(ho.2 r).1 hr, he⟩, rfl⟩
  · rintro ⟨r, ⟨h1, h2⟩, rfl⟩
    exact ⟨⟨r, (ho.2 r).2 h1, rfl⟩, by rw [subgraph_root]; exact h2⟩

theorem shows_of (g : Graph) (nm : Nat → Name) (r : Nat) : Shows g nm r ((g.subgraphOf r).edges.map fun e => .arrow (nm e.1) (nm e.2)) := by
  have ht := project_tree g r
  have hr := fun f => project_is_reachable g r f
  refine ⟨fun l hl => ?_, fun f hf hne => ?_, fun f hf => ?_⟩
  · simp only [List.mem_map] at hl
    obtain ⟨e, he, rfl⟩ := hl
    obtain ⟨h1, h2, h3, h4⟩ := ht.ends e.1 e.2 he
    exact ⟨e.1, e.2, rfl, h4, (hr e.1).1 h1⟩
  · obtain ⟨u, hu⟩ := ht.fed f ((hr f).2 hf) hne
    exact ⟨u, (ht.ends u f hu).2.2.2, List.mem_map.2 ⟨(u, f), hu, rfl⟩⟩
  · exact reach_mono (fun a b hab => List.mem_map.2 ⟨(a, b), hab, rfl⟩) (ht.reach f ((hr f).2 hf))

/-- **C90, all but that every inclusion is drawn**: if the files of the projects have names, there is a picture; each main file has a
cluster that shows its project and is drawn as a diamond; and there are no other clusters and diamonds. -/
theorem picture_partial {g : Graph} {roots : List Nat} (ho : IsOrderOf roots g.findRoots) {name : Nat → Option Name} {nm : Nat → Name}
    (hn : ∀ r, Main g r → ∀ f, Reach (fun a b => (a, b) ∈ g.edges) r f → name f = some (nm f)) :
    ∃ ls, g.toGraphviz roots name = some ls ∧
      (∀ r, Main g r → (∃ i as, clusterOf i ls = some as ∧ Shows g nm r as) ∧ .diamond (nm r) ∈ ls) ∧
      (∀ i as, clusterOf i ls = some as → ∃ r, Main g r ∧ Shows g nm r as) ∧
      (∀ x, .diamond x ∈ ls → ∃ r, Main g r ∧ x = nm r) := by
  have hd := drawn_main ho
  refine ⟨_, picture (nm := nm) fun s hs f hf => ?_, fun r hr => ⟨?_, ?_⟩, fun i as h => ?_, fun x hx => ?_⟩
  · obtain ⟨r, hr, rfl⟩ := (hd s).1 hs
    exact hn r hr f ((project_is_reachable g r f).1 hf)
  · obtain ⟨k, hk⟩ := List.mem_iff_getElem?.1 ((hd _).2 ⟨r, hr, rfl⟩)
    refine ⟨k, _, ?_, shows_of g nm r⟩
    have := clusterOf_blocks (nm := nm) (ls := ((g.drawn roots).map fun s => Line.diamond (nm s.root)) ++ [.stop]) (g.drawn roots) 0 k _ hk
    simpa [clusterOf] using this
  · have := List.mem_map_of_mem (f := fun s : SubGraph => Line.diamond (nm s.root)) ((hd _).2 ⟨r, hr, rfl⟩)
    rw [subgraph_root] at this
    simp only [List.mem_append, List.mem_cons]
    exact .inl (.inr this)
  · have hl : ∀ x ∈ ((g.drawn roots).map fun s => Line.diamond (nm s.root)) ++ [.stop], ∀ j c, x ≠ Line.cluster j c := by
      intro x hx j c
      simp only [List.mem_append, List.mem_map, List.mem_singleton] at hx
      rcases hx with ⟨_, _, rfl⟩ | rfl <;> simp
    have h' : clusterOf i (blocks nm 0 (g.drawn roots) ++ (((g.drawn roots).map fun s => Line.diamond (nm s.root)) ++ [.stop])) = some as := by
      simpa [clusterOf] using h
    cases hk : (g.drawn roots)[i]? with
    | none =>
      rw [clusterOf_beyond hl _ 0 i (.inr (by have := List.getElem?_eq_none_iff.1 hk; omega))] at h'
      cases h'
    | some s =>
      have := clusterOf_blocks (nm := nm) (ls := ((g.drawn roots).map fun s => Line.diamond (nm s.root)) ++ [.stop]) (g.drawn roots) 0 i s hk
      rw [Nat.zero_add, h'] at this
      obtain ⟨r, hr, rfl⟩ := (hd s).1 (List.mem_of_getElem? hk)
      simp only [Option.some.injEq] at this
      exact ⟨r, hr, this ▸ shows_of g nm r⟩
  · have hb : ∀ (ss : List SubGraph) (i : Nat), .diamond x ∉ blocks nm i ss := by
      intro ss
      induction ss with
      | nil => simp [blocks]
      | cons s ss ih => intro i; simp [blocks, block, ih]
    have hb := hb (g.drawn roots) 0
    simp only [List.mem_append, List.mem_cons, List.mem_map, List.not_mem_nil, reduceCtorEq, or_false, false_or] at hx
    rcases hx with hx | ⟨s, hs, e⟩
    · exact absurd hx hb
    · obtain ⟨r, hr, rfl⟩ := (hd s).1 hs
      rw [subgraph_root] at e
      exact ⟨r, hr, by injection e with e; exact e.symm⟩

theorem cluster_exact {g : Graph} {roots : List Nat} (ho : IsOrderOf roots g.findRoots) {name : Nat → Option Name} {nm : Nat → Name}
    (hn : ∀ r, Main g r → ∀ f, Reach (fun a b => (a, b) ∈ g.edges) r f → name f = some (nm f)) {ls as : List Line} {i : Nat}
    (h : g.toGraphviz roots name = some ls) (hc : clusterOf i ls = some as) :
    ∃ r, Main g r ∧ as = (g.subgraphOf r).edges.map fun e => .arrow (nm e.1) (nm e.2) := by
  have hd := drawn_main ho
  have hp := picture (g := g) (roots := roots) (name := name) (nm := nm) fun s hs f hf => by
    obtain ⟨r, hr, rfl⟩ := (hd s).1 hs
    exact hn r hr f ((project_is_reachable g r f).1 hf)
  rw [h, Option.some.injEq] at hp
  subst hp
  have hl : ∀ x ∈ ((g.drawn roots).map fun s => Line.diamond (nm s.root)) ++ [.stop], ∀ j c, x ≠ Line.cluster j c := by
    intro x hx j c
    simp only [List.mem_append, List.mem_map, List.mem_singleton] at hx
    rcases hx with ⟨_, _, rfl⟩ | rfl <;> simp
  have h' : clusterOf i (blocks nm 0 (g.drawn roots) ++ (((g.drawn roots).map fun s => Line.diamond (nm s.root)) ++ [.stop])) = some as := by
    simpa [clusterOf] using hc
  cases hk : (g.drawn roots)[i]? with
  | none =>
    rw [clusterOf_beyond hl _ 0 i (.inr (by have := List.getElem?_eq_none_iff.1 hk; omega))] at h'
    cases h'
  | some s =>
    have := clusterOf_blocks (nm := nm) (ls := ((g.drawn roots).map fun s => Line.diamond (nm s.root)) ++ [.stop]) (g.drawn roots) 0 i s hk
    rw [Nat.zero_add, h'] at this
    obtain ⟨r, hr, rfl⟩ := (hd s).1 (List.mem_of_getElem? hk)
    simp only [Option.some.injEq] at this
    exact ⟨r, hr, this⟩

/-- **Not every inclusion is drawn**: of the files of a project that include the same file, one has an arrow to it in the cluster and all
others have none, if the files have different names. An inclusion of the main file itself is never drawn. -/
theorem arrow_refuted {g : Graph} {roots : List Nat} (ho : IsOrderOf roots g.findRoots) {name : Nat → Option Name} {nm : Nat → Name}
    (hn : ∀ r, Main g r → ∀ f, Reach (fun a b => (a, b) ∈ g.edges) r f → name f = some (nm f)) (hinj : ∀ a b, nm a = nm b → a = b) {ls as : List Line} {i : Nat}
    (h : g.toGraphviz roots name = some ls) (hc : clusterOf i ls = some as) :
    (∀ u u' f, .arrow (nm u) (nm f) ∈ as → .arrow (nm u') (nm f) ∈ as → u = u') ∧ ∃ r, Main g r ∧ ∀ u, .arrow (nm u) (nm r) ∉ as := by
  obtain ⟨r, hr, rfl⟩ := cluster_exact ho hn h hc
  have ht := project_tree g r
  have key : ∀ u f, .arrow (nm u) (nm f) ∈ (g.subgraphOf r).edges.map (fun e => Line.arrow (nm e.1) (nm e.2)) → (u, f) ∈ (g.subgraphOf r).edges := by
    intro u f h
    simp only [List.mem_map, Line.arrow.injEq] at h
    obtain ⟨⟨a, b⟩, he, h1, h2⟩ := h
    rw [← hinj _ _ h1, ← hinj _ _ h2]
    exact he
  exact ⟨fun u u' f h1 h2 => ht.one u u' f (key u f h1) (key u' f h2), r, hr, fun u h => (ht.ends u r (key u r h)).2.2.1 rfl⟩

theorem arrows_named {name : Nat → Option Name} : ∀ (es : List (Nat × Nat)) (as : List Line), arrows name es = some as → ∀ e ∈ es, (name e.1).isSome ∧ (name e.2).isSome
  | [], _, _ => by simp
  | e :: es, as, h => by
    rw [arrows] at h
    split at h
    · next s t h1 h2 =>
      rw [Option.map_eq_some_iff] at h
      obtain ⟨as', h3, _⟩ := h
      intro e' he
      rcases List.mem_cons.1 he with rfl | he
      · simp [h1, h2]
      · exact arrows_named es as' h3 e' he
    · cases h

theorem clusters_named {name : Nat → Option Name} : ∀ (ss : List SubGraph) (i : Nat) (ls : List Line), clusters name i ss = some ls →
    ∀ s ∈ ss, ∀ e ∈ s.edges, (name e.1).isSome ∧ (name e.2).isSome
  | [], _, _, _ => by simp
  | s :: ss, i, ls, h => by
    rw [clusters] at h
    split at h
    · cases h
    · next as has =>
      rw [Option.map_eq_some_iff] at h
      obtain ⟨ls', h3, _⟩ := h
      intro t ht
      rcases List.mem_cons.1 ht with rfl | ht
      · exact arrows_named _ _ has
      · exact clusters_named ss (i + 1) ls' h3 t ht

theorem diamonds_named {name : Nat → Option Name} : ∀ (ss : List SubGraph) (ls : List Line), diamonds name ss = some ls → ∀ s ∈ ss, (name s.root).isSome
  | [], _, _ => by simp
  | s :: ss, ls, h => by
    rw [diamonds] at h
    split at h
    · cases h
    · next n hn =>
      rw [Option.map_eq_some_iff] at h
      obtain ⟨ls', h3, _⟩ := h
      intro t ht
      rcases List.mem_cons.1 ht with rfl | ht
      · simp [hn]
      · exact diamonds_named ss ls' h3 t ht

/-- **There is a picture exactly if every file of a project of a main file has a name.** -/
theorem picture_iff {g : Graph} {roots : List Nat} (ho : IsOrderOf roots g.findRoots) (name : Nat → Option Name) :
    (g.toGraphviz roots name).isSome = true ↔ ∀ r, Main g r → ∀ f, Reach (fun a b => (a, b) ∈ g.edges) r f → (name f).isSome = true := by
  constructor
  · intro h r hr f hf
    have hs := (drawn_main ho _).2 ⟨r, hr, rfl⟩
    unfold Graph.toGraphviz at h
    split at h
    · cases h
    · next cs hcs =>
      cases hds : diamonds name (g.drawn roots) with
      | none => rw [hds] at h; cases h
      | some ds =>
        by_cases hfr : f = r
        · have := diamonds_named _ _ hds _ hs
          rw [subgraph_root] at this
          rw [hfr]
          exact this
        · obtain ⟨u, hu⟩ := (project_tree g r).fed f ((project_is_reachable g r f).2 hf) hfr
          exact (clusters_named _ _ _ hcs _ hs _ hu).2
  · intro h
    obtain ⟨ls, hls, _⟩ := picture_partial ho (name := name) (nm := fun f => (name f).getD []) fun r hr f hf => by
      obtain ⟨n, hn⟩ := Option.isSome_iff_exists.1 (h r hr f hf)
      rw [hn]; rfl
    rw [hls]; rfl

/-- No colour beyond the table of 88 is asked for, however many projects there are. -/
theorem colours {g : Graph} {roots : List Nat} {name : Nat → Option Name} {ls : List Line} (h : g.toGraphviz roots name = some ls) (i c : Nat) (hc : .cluster i c ∈ ls) : c < 88 := by
  have ha : ∀ (es : List (Nat × Nat)) (as : List Line), arrows name es = some as → .cluster i c ∉ as := by
    intro es
    induction es with
    | nil => intro as h; cases h; simp
    | cons e es ih =>
      intro as h
      rw [arrows] at h
      split at h
      · rw [Option.map_eq_some_iff] at h
        obtain ⟨as', h3, rfl⟩ := h
        simp [ih as' h3]
      · cases h
  have hcl : ∀ (ss : List SubGraph) (j : Nat) (ls : List Line), clusters name j ss = some ls → .cluster i c ∈ ls → c < 88 := by
    intro ss
    induction ss with
    | nil => intro j ls h hm; cases h; simp at hm
    | cons s ss ih =>
      intro j ls h hm
      rw [clusters] at h
      split at h
      · cases h
      · next as has =>
        rw [Option.map_eq_some_iff] at h
        obtain ⟨ls', h3, rfl⟩ := h
        simp only [List.cons_append, List.mem_cons, List.mem_append, Line.cluster.injEq, reduceCtorEq, false_or] at hm
        rcases hm with hm | hm | hm
        · omega
        · exact absurd hm (ha _ _ has)
        · exact ih _ _ h3 hm
  have hdm : ∀ (ss : List SubGraph) (ls : List Line), diamonds name ss = some ls → .cluster i c ∉ ls := by
    intro ss
    induction ss with
    | nil => intro ls h; cases h; simp
    | cons s ss ih =>
      intro ls h
      rw [diamonds] at h
      split at h
      · cases h
      · rw [Option.map_eq_some_iff] at h
        obtain ⟨ls', h3, rfl⟩ := h
        simp [ih ls' h3]
  unfold Graph.toGraphviz at h
  split at h
  · cases h
  · next cs hcs =>
    rw [Option.map_eq_some_iff] at h
    obtain ⟨ds, hds, rfl⟩ := h
    simp only [List.cons_append, List.mem_cons, List.mem_append, reduceCtorEq, false_or, List.not_mem_nil, or_false] at hc
    rcases hc with hc | hc
    · exact hcl _ _ _ hcs hc
    · exact absurd hc (hdm _ _ hds)

/-! ## A sample -/

/-- `a.sp` includes `b.inc` and `c.inc`, `b.inc` includes `c.inc`; `d.sp` is alone. -/
def sample : Graph := graphQuery [0, 1, 2, 3] (fun f => if f = 0 then [1, 2] else if f = 1 then [2] else []) fun f => if f = 0 ∨ f = 3 then .sp else .inc

def sampleName (f : Nat) : Option Name := shown (if f = 0 then some (['a'], some ['s', 'p']) else if f = 1 then some (['b'], some ['i', 'n', 'c'])
  else if f = 2 then some (['c'], some ['i', 'n', 'c']) else some (['d'], some ['s', 'p']))

/-- The picture of the sample has no arrow from `a.sp` to `c.inc`. -/
example : sample.findRoots = [0, 1, 3] ∧ (0, 2) ∈ sample.edges ∧ sample.toGraphviz [0, 1, 3] sampleName = some [.start,
    .cluster 0 0, .arrow "a.sp".toList "b.inc".toList, .arrow "b.inc".toList "c.inc".toList, .stop, .cluster 1 1, .stop,
    .diamond "a.sp".toList, .diamond "d.sp".toList, .stop] := by decide +kernel

example : IsOrderOf [0, 1, 3] sample.findRoots ∧ Main sample 0 ∧ ∀ f, f < 4 → (sampleName f).isSome = true := by
  have h : sample.findRoots = [0, 1, 3] := by decide +kernel
  unfold Main
  rw [h]
  exact ⟨⟨by decide, by simp⟩, ⟨by simp, by decide +kernel⟩, by decide +kernel⟩

end Verif.Props.Graphviz
