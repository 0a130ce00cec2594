import Verif.Graph.Spec
/-! # C13 (reachability), C14 (every file has a project), C15 (roots) -/

namespace Verif.Props.Graph
open Verif.Graph Verif.Graph.Spec

theorem mem_insertSet {α : Type} [DecidableEq α] {x y : α} {l : List α} : y ∈ insertSet x l ↔ y = x ∨ y ∈ l := by
  simp only [insertSet]
  split
  · next h => exact ⟨Or.inr, fun h' => h'.elim (fun e => e ▸ h) id⟩
  · simp [or_comm]

theorem mem_adj {g : Graph} {n m : Nat} : m ∈ g.adj n ↔ (n, m) ∈ g.edges := by
  simp only [Graph.adj, List.mem_map, List.mem_filter, decide_eq_true_eq]
  constructor
  · rintro ⟨⟨a, b⟩, ⟨h1, h2⟩, h3⟩
    subst h2 h3; exact h1
  · intro h; exact ⟨(n, m), ⟨h, rfl⟩, rfl⟩

/-! ### The graph is the include relation -/

theorem mem_addIncludes (s : Nat) (ts : List Nat) : ∀ g : List (Nat × Nat) × List Nat,
    (∀ e, e ∈ (addIncludes s g ts).1 ↔ e ∈ g.1 ∨ (e.1 = s ∧ e.2 ∈ ts)) ∧
    (∀ n, n ∈ (addIncludes s g ts).2 ↔ n ∈ g.2 ∨ n ∈ ts) := by
  induction ts with
  | nil => intro g; simp [addIncludes]
  | cons t ts ih =>
    intro g
    obtain ⟨h1, h2⟩ := ih (insertSet (s, t) g.1, insertSet t g.2)
    simp only [addIncludes]
    constructor
    · rintro ⟨a, b⟩
      simp only [h1, mem_insertSet, Prod.mk.injEq, List.mem_cons]
      constructor
      · rintro ((⟨rfl, rfl⟩ | h) | ⟨h, h'⟩) <;> simp [*]
      · rintro (h | ⟨h, (h' | h')⟩) <;> simp [*]
    · intro n
      simp only [h2, mem_insertSet, List.mem_cons]
      constructor
      · rintro ((h | h) | h) <;> simp [*]
      · rintro (h | h | h) <;> simp [*]

theorem mem_addDocs (inc : Nat → List Nat) (ds : List Nat) : ∀ g : List (Nat × Nat) × List Nat,
    (∀ e, e ∈ (addDocs inc g ds).1 ↔ e ∈ g.1 ∨ (e.1 ∈ ds ∧ e.2 ∈ inc e.1)) ∧
    (∀ n, n ∈ (addDocs inc g ds).2 ↔ n ∈ g.2 ∨ n ∈ ds ∨ ∃ d ∈ ds, n ∈ inc d) := by
  induction ds with
  | nil => intro g; simp [addDocs]
  | cons d ds ih =>
    intro g
    obtain ⟨h1, h2⟩ := ih (addIncludes d (g.1, insertSet d g.2) (inc d))
    obtain ⟨k1, k2⟩ := mem_addIncludes d (inc d) (g.1, insertSet d g.2)
    simp only [addDocs]
    constructor
    · rintro ⟨a, b⟩
      simp only [h1, k1, List.mem_cons]
      constructor
      · rintro ((h | ⟨rfl, h⟩) | ⟨h, h'⟩) <;> simp [*]
      · rintro (h | ⟨(rfl | h), h'⟩) <;> simp [*]
    · intro n
      simp only [h2, k2, mem_insertSet, List.mem_cons]
      constructor
      · rintro (((h | h) | h) | h | ⟨e, he, h⟩)
        · simp [h]
        · simp [h]
        · exact Or.inr (Or.inr ⟨d, Or.inl rfl, h⟩)
        · simp [h]
        · exact Or.inr (Or.inr ⟨e, Or.inr he, h⟩)
      · rintro (h | (h | h) | ⟨e, (rfl | he), h⟩)
        · simp [h]
        · simp [h]
        · simp [h]
        · simp [h]
        · exact Or.inr (Or.inr ⟨e, he, h⟩)

/-- The graph has exactly the resolved includes of the known files as edges, and the known files and their includes as nodes. -/
theorem graph_is_include_relation (docs : List Nat) (inc : Nat → List Nat) (ext : Nat → Ext) :
    (∀ a b, (a, b) ∈ (graphQuery docs inc ext).edges ↔ a ∈ docs ∧ b ∈ inc a) ∧
    (∀ n, n ∈ (graphQuery docs inc ext).nodes ↔ n ∈ docs ∨ ∃ d ∈ docs, n ∈ inc d) := by
  obtain ⟨h1, h2⟩ := mem_addDocs inc docs ([], [])
  exact ⟨fun a b => by simp [graphQuery, h1], fun n => by simp [graphQuery, h2]⟩

/-! ### Depth-first search -/

/-- The include relation of the graph. -/
abbrev R (g : Graph) : Nat → Nat → Prop := fun a b => (a, b) ∈ g.edges

theorem Reach.tail {inc : Nat → Nat → Prop} {a b c : Nat} (h : Reach inc a b) (h' : inc b c) : Reach inc a c := by
  induction h with
  | refl => exact .step h' (.refl _)
  | step h1 _ ih => exact .step h1 (ih h')

theorem Reach.trans {inc : Nat → Nat → Prop} {a b c : Nat} (h : Reach inc a b) (h' : Reach inc b c) : Reach inc a c := by
  induction h with
  | refl => exact h'
  | step h1 _ ih => exact .step h1 (ih h')

/-- What one call of `dfs` does. -/
structure DfsOk (g : Graph) (node : Nat) (st st' : Dfs) : Prop where
  mono   : ∀ x ∈ st.visited, x ∈ st'.visited
  self   : node ∈ st'.visited
  sound  : ∀ x ∈ st'.visited, x ∈ st.visited ∨ Reach (R g) node x
  closed : ∀ x ∈ st'.visited, x ∉ st.visited → ∀ y, R g x y → y ∈ st'.visited
  esound : ∀ e ∈ st'.edges, e ∈ st.edges ∨ (e ∈ g.edges ∧ Reach (R g) node e.1)

/-- What the loop over neighbours does. -/
structure LoopOk (g : Graph) (node : Nat) (nbs : List Nat) (st st' : Dfs) : Prop where
  mono   : ∀ x ∈ st.visited, x ∈ st'.visited
  sound  : ∀ x ∈ st'.visited, x ∈ st.visited ∨ Reach (R g) node x
  closed : ∀ x ∈ st'.visited, x ∉ st.visited → ∀ y, R g x y → y ∈ st'.visited
  all    : ∀ n ∈ nbs, n ∈ st'.visited
  esound : ∀ e ∈ st'.edges, e ∈ st.edges ∨ (e ∈ g.edges ∧ Reach (R g) node e.1)

theorem loop_ok {g : Graph} {fuel node : Nat}
    (ih : ∀ n st st', dfs g fuel n st = some st' → DfsOk g n st st') :
    ∀ (nbs : List Nat) (st st' : Dfs), (∀ n ∈ nbs, R g node n) →
      nbs.foldlM (fun st nb => if nb ∈ st.visited then some st
        else dfs g fuel nb { st with edges := insertSet (node, nb) st.edges }) st = some st' →
      LoopOk g node nbs st st' := by
  intro nbs
  induction nbs with
  | nil =>
    intro st st' _ h
    simp only [List.foldlM_nil, Option.pure_def, Option.some.injEq] at h
    subst h
    exact ⟨fun _ h => h, fun _ h => Or.inl h, fun x h h' => absurd h h', by simp, fun _ h => Or.inl h⟩
  | cons n ns ihn =>
    intro st st' hadj h
    simp only [List.foldlM_cons] at h
    have hns : ∀ m ∈ ns, R g node m := fun m hm => hadj m (List.mem_cons_of_mem _ hm)
    by_cases hv : n ∈ st.visited
    · simp only [hv, if_true, Option.bind_eq_bind, Option.bind_some] at h
      have := ihn st st' hns h
      exact ⟨this.mono, this.sound, this.closed, by
        intro m hm
        rcases List.mem_cons.1 hm with rfl | hm
        · exact this.mono _ hv
        · exact this.all m hm, this.esound⟩
    · simp only [hv, if_false, Option.bind_eq_bind, Option.bind_eq_some_iff] at h
      obtain ⟨st1, h1, h2⟩ := h
      have a := ih _ _ _ h1
      have b := ihn st1 st' hns h2
      have hn := hadj n List.mem_cons_self
      refine ⟨fun x hx => b.mono x (a.mono x hx), ?_, ?_, ?_, ?_⟩
      · intro x hx
        rcases b.sound x hx with hx | hx
        · rcases a.sound x hx with hx | hx
          · exact Or.inl hx
          · exact Or.inr (.step hn hx)
        · exact Or.inr hx
      · intro x hx hnx y hy
        by_cases h1 : x ∈ st1.visited
        · exact b.mono y (a.closed x h1 hnx y hy)
        · exact b.closed x hx h1 y hy
      · intro m hm
        rcases List.mem_cons.1 hm with rfl | hm
        · exact b.mono _ a.self
        · exact b.all m hm
      · intro e he
        rcases b.esound e he with he | he
        · rcases a.esound e he with he | ⟨he, hr⟩
          · rcases mem_insertSet.1 he with rfl | he
            · exact Or.inr ⟨hn, .refl _⟩
            · exact Or.inl he
          · exact Or.inr ⟨he, .step hn hr⟩
        · exact Or.inr he

theorem dfs_ok (g : Graph) : ∀ (fuel node : Nat) (st st' : Dfs), dfs g fuel node st = some st' → DfsOk g node st st' := by
  intro fuel
  induction fuel with
  | zero => intro node st st' h; simp [dfs] at h
  | succ fuel ih =>
    intro node st st' h
    simp only [dfs] at h
    have := loop_ok ih (g.adj node) _ _ (fun n hn => mem_adj.1 hn) h
    refine ⟨fun x hx => this.mono x (mem_insertSet.2 (Or.inr hx)), this.mono _ (mem_insertSet.2 (Or.inl rfl)), ?_, ?_, this.esound⟩
    · intro x hx
      rcases this.sound x hx with hx | hx
      · rcases mem_insertSet.1 hx with rfl | hx
        · exact Or.inr (.refl _)
        · exact Or.inl hx
      · exact Or.inr hx
    · intro x hx hnx y hy
      by_cases hxn : x = node
      · subst hxn; exact this.all y (mem_adj.2 hy)
      · refine this.closed x hx ?_ y hy
        intro h
        rcases mem_insertSet.1 h with h | h
        · exact hxn h
        · exact hnx h

/-! ### Termination -/

/-- Number of nodes of `u` not yet visited. -/
def unvisited (u visited : List Nat) : Nat := u.countP (fun x => decide (x ∉ visited))

theorem unvisited_mono (u v w : List Nat) (h : ∀ x ∈ v, x ∈ w) : unvisited u w ≤ unvisited u v := by
  apply List.countP_mono_left
  intro x _ hx
  simp only [decide_eq_true_eq] at hx ⊢
  exact fun hv => hx (h x hv)

theorem unvisited_insert (u v : List Nat) (n : Nat) (hu : n ∈ u) (hv : n ∉ v) :
    unvisited u (insertSet n v) < unvisited u v := by
  induction u with
  | nil => simp at hu
  | cons a as ih =>
    have hmono : unvisited as (insertSet n v) ≤ unvisited as v :=
      unvisited_mono _ _ _ (fun x hx => mem_insertSet.2 (Or.inr hx))
    by_cases ha : a = n
    · subst ha
      have h1 : unvisited (a :: as) (insertSet a v) = unvisited as (insertSet a v) := by
        simp only [unvisited]
        rw [List.countP_cons_of_neg]
        simp [mem_insertSet]
      have h2 : unvisited (a :: as) v = unvisited as v + 1 := by
        simp only [unvisited]
        rw [List.countP_cons_of_pos]
        simpa using hv
      omega
    · have ih := ih (by rcases List.mem_cons.1 hu with h | h; exact absurd h.symm ha; exact h)
      simp only [unvisited, List.countP_cons] at ih ⊢
      have : (decide (a ∉ insertSet n v)) = decide (a ∉ v) := by
        simp [mem_insertSet, ha]
      rw [this]; omega

/-- Every node that can occur. -/
def allNodes (g : Graph) (root : Nat) : List Nat := root :: g.edges.map (·.2)

theorem dfs_terminates (g : Graph) (root : Nat) : ∀ (fuel node : Nat) (st : Dfs), node ∈ allNodes g root → node ∉ st.visited →
    unvisited (allNodes g root) st.visited ≤ fuel → ∃ st', dfs g fuel node st = some st' := by
  intro fuel
  induction fuel with
  | zero =>
    intro node st hu hv hle
    have := unvisited_insert _ _ _ hu hv
    omega
  | succ fuel ih =>
    intro node st hu hv hle
    have hlt := unvisited_insert _ _ _ hu hv
    simp only [dfs]
    have : ∀ (nbs : List Nat) (st : Dfs), (∀ n ∈ nbs, n ∈ allNodes g root) → unvisited (allNodes g root) st.visited ≤ fuel →
        ∃ st', nbs.foldlM (fun st nb => if nb ∈ st.visited then some st
          else dfs g fuel nb { st with edges := insertSet (node, nb) st.edges }) st = some st' := by
      intro nbs
      induction nbs with
      | nil => intro st _ _; exact ⟨st, rfl⟩
      | cons n ns ihn =>
        intro st hadj hle
        have hns : ∀ m ∈ ns, m ∈ allNodes g root := fun m hm => hadj m (List.mem_cons_of_mem _ hm)
        simp only [List.foldlM_cons]
        by_cases hn : n ∈ st.visited
        · simp only [hn, if_true, Option.bind_eq_bind, Option.bind_some]
          exact ihn st hns hle
        · simp only [hn, if_false]
          obtain ⟨st1, h1⟩ := ih n { st with edges := insertSet (node, n) st.edges } (hadj n List.mem_cons_self) hn hle
          rw [h1]
          simp only [Option.bind_eq_bind, Option.bind_some]
          exact ihn st1 hns (Nat.le_trans (unvisited_mono _ _ _ (dfs_ok g _ _ _ _ h1).mono) hle)
    apply this
    · intro n hn
      exact List.mem_cons_of_mem _ (List.mem_map.2 ⟨(node, n), mem_adj.1 hn, rfl⟩)
    · simp only; omega

theorem fuel_enough (g : Graph) (root : Nat) : ∃ st, dfs g g.fuel root {} = some st := by
  apply dfs_terminates g root
  · exact List.mem_cons_self
  · simp
  · refine Nat.le_trans List.countP_le_length ?_
    simp only [allNodes, Graph.fuel, List.length_cons, List.length_append, List.length_map]
    omega

/-- **C13**. The files of the project rooted at `root` are exactly the files reached from it by following includes, for every
include graph, cyclic or not. -/
theorem project_is_reachable (g : Graph) (root file : Nat) :
    file ∈ (g.subgraphOf root).nodes ↔ Reach (fun a b => (a, b) ∈ g.edges) root file := by
  obtain ⟨st, h⟩ := fuel_enough g root
  simp only [Graph.subgraphOf, h]
  have ok := dfs_ok g _ _ _ _ h
  constructor
  · intro hf
    rcases ok.sound file hf with h | h
    · simp at h
    · exact h
  · intro hr
    have : ∀ a b, Reach (R g) a b → a ∈ st.visited → b ∈ st.visited := by
      intro a b hab
      induction hab with
      | refl => exact id
      | step h1 _ ih => intro ha; exact ih (ok.closed _ ha (by simp) _ h1)
    exact this _ _ hr ok.self

/-- **C13, termination**. The search ends, at a recursion depth of at most one plus the number of nodes and edges ends, and
gives the same result with any larger bound. -/
theorem search_terminates (g : Graph) (root : Nat) (fuel : Nat) (h : g.fuel ≤ fuel) :
    ∃ st, dfs g fuel root {} = some st ∧ ∀ f, f ∈ st.visited ↔ Reach (fun a b => (a, b) ∈ g.edges) root f := by
  obtain ⟨st, hst⟩ : ∃ st, dfs g fuel root {} = some st := by
    apply dfs_terminates g root
    · exact List.mem_cons_self
    · simp
    · refine Nat.le_trans List.countP_le_length (Nat.le_trans ?_ h)
      simp only [allNodes, Graph.fuel, List.length_cons, List.length_append, List.length_map]
      omega
  refine ⟨st, hst, ?_⟩
  have ok := dfs_ok g _ _ _ _ hst
  intro f
  constructor
  · intro hf
    rcases ok.sound f hf with h | h
    · simp at h
    · exact h
  · intro hr
    have : ∀ a b, Reach (R g) a b → a ∈ st.visited → b ∈ st.visited := by
      intro a b hab
      induction hab with
      | refl => exact id
      | step h1 _ ih => intro ha; exact ih (ok.closed _ ha (by simp) _ h1)
    exact this _ _ hr ok.self

/-- The edges of a project are include edges between its files. -/
theorem project_edges_sound (g : Graph) (root : Nat) (e : Nat × Nat) (he : e ∈ (g.subgraphOf root).edges) :
    e ∈ g.edges ∧ e.1 ∈ (g.subgraphOf root).nodes ∧ e.2 ∈ (g.subgraphOf root).nodes := by
  have hr1 : ∀ x, x ∈ (g.subgraphOf root).nodes ↔ Reach (R g) root x := project_is_reachable g root
  rw [hr1, hr1]
  obtain ⟨st, h⟩ := fuel_enough g root
  simp only [Graph.subgraphOf, h] at he
  have ok := dfs_ok g _ _ _ _ h
  rcases ok.esound e he with h | ⟨h1, h2⟩
  · simp at h
  · exact ⟨h1, h2, Reach.tail h2 h1⟩

/-! ### C15 -/

theorem mem_keys {g : Graph} {n : Nat} : n ∈ g.keys ↔ n ∈ g.nodes ∨ ∃ m, (n, m) ∈ g.edges ∨ (m, n) ∈ g.edges := by
  simp only [Graph.keys, List.mem_eraseDups, List.mem_append, List.mem_flatMap]
  constructor
  · rintro (⟨⟨a, b⟩, h, h'⟩ | h)
    · simp only [List.mem_cons, List.not_mem_nil, or_false] at h'
      rcases h' with rfl | rfl
      · exact Or.inr ⟨b, Or.inl h⟩
      · exact Or.inr ⟨a, Or.inr h⟩
    · exact Or.inl h
  · rintro (h | ⟨m, (h | h)⟩)
    · exact Or.inr h
    · exact Or.inl ⟨_, h, by simp⟩
    · exact Or.inl ⟨_, h, by simp⟩

theorem outDeg_ne {g : Graph} {n : Nat} : g.outDeg n ≠ 0 ↔ ∃ m, (n, m) ∈ g.edges := by
  simp only [Graph.outDeg, ne_eq, List.countP_eq_zero, decide_eq_true_eq]
  constructor
  · intro h
    refine Classical.byContradiction fun hc => h ?_
    rintro ⟨a, b⟩ hab rfl
    exact hc ⟨b, hab⟩
  · rintro ⟨m, hm⟩ h
    exact h _ hm rfl

theorem inDeg_zero {g : Graph} {n : Nat} : g.inDeg n = 0 ↔ ∀ m, (m, n) ∉ g.edges := by
  simp only [Graph.inDeg, List.countP_eq_zero, decide_eq_true_eq]
  constructor
  · intro h m hm; exact h _ hm rfl
  · rintro h ⟨a, b⟩ hab rfl; exact h a hab

/-- **C15, what holds**. The roots are the nodes nobody includes *and also* every node that includes something; all true roots
are among them. Missing: that included files are not roots, which is false (next theorem). -/
theorem roots_partial (g : Graph) (n : Nat) :
    n ∈ g.findRoots ↔ n ∈ g.keys ∧ ((∀ m, (m, n) ∉ g.edges) ∨ ∃ m, (n, m) ∈ g.edges) := by
  simp only [Graph.findRoots, List.mem_filter, decide_eq_true_eq, outDeg_ne, inDeg_zero]
  constructor
  · rintro ⟨h, h' | h'⟩
    · exact ⟨h, Or.inr h'⟩
    · exact ⟨h, Or.inl h'⟩
  · rintro ⟨h, h' | h'⟩
    · exact ⟨h, Or.inr h'⟩
    · exact ⟨h, Or.inl h'⟩

/-- **C15, refuted**. In the chain `0 → 1 → 2`, file 1 is included by file 0 and is reported as a root. -/
theorem roots_refuted : ∃ (g : Graph) (n m : Nat), (m, n) ∈ g.edges ∧ n ∈ g.findRoots :=
  ⟨graphQuery [0, 1, 2] (fun n => if n = 0 then [1] else if n = 1 then [2] else []) (fun _ => .sp), 1, 0, by decide, by decide⟩

/-! ### C14 -/

theorem find_filter_some {α : Type} {l : List α} {p q : α → Bool} {x : α} (hx : x ∈ l) (hp : p x = true) (hq : q x = true) :
    ∃ y, (l.filter p).find? q = some y ∧ p y = true ∧ q y = true ∧ y ∈ l := by
  have h1 : x ∈ l.filter p := List.mem_filter.2 ⟨hx, hp⟩
  cases h : (l.filter p).find? q with
  | none => exact absurd hq (by simpa using List.find?_eq_none.1 h x h1)
  | some y =>
    have hy := List.mem_of_find?_eq_some h
    have := List.mem_filter.1 hy
    exact ⟨y, rfl, this.2, List.find?_some h, this.1⟩

/-- **C14**. For every file of the graph, and whatever the iteration order of the roots, the server finds a project: rooted at
a root, containing the file, and rooted at a `.sp` file whenever some `.sp` root reaches the file. -/
theorem every_file_has_project (g : Graph) (roots : List Nat) (hord : IsOrderOf roots g.findRoots) (file : Nat)
    (hf : file ∈ g.nodes) :
    ∃ s, g.projectSubgraph roots file = some s ∧ s.root ∈ g.findRoots ∧ file ∈ s.nodes ∧
      (∀ f, f ∈ s.nodes ↔ Reach (fun a b => (a, b) ∈ g.edges) s.root f) ∧
      ((∃ r ∈ g.findRoots, g.ext r = .sp ∧ Reach (fun a b => (a, b) ∈ g.edges) r file) → g.ext s.root = .sp) := by
  have hsub : ∀ s, s ∈ g.findSubgraphs roots → s.root ∈ g.findRoots ∧ ∀ f, f ∈ s.nodes ↔ Reach (R g) s.root f := by
    intro s hs
    obtain ⟨r, hr, rfl⟩ := List.mem_map.1 hs
    have hroot : (g.subgraphOf r).root = r := by
      obtain ⟨st, h⟩ := fuel_enough g r
      simp [Graph.subgraphOf, h]
    rw [hroot]
    exact ⟨(hord.2 r).1 hr, fun f => project_is_reachable g r f⟩
  have hmk : ∀ r ∈ g.findRoots, Reach (R g) r file → ∃ s ∈ g.findSubgraphs roots, s.root = r ∧ file ∈ s.nodes := by
    intro r hr hreach
    refine ⟨g.subgraphOf r, List.mem_map.2 ⟨r, (hord.2 r).2 hr, rfl⟩, ?_, (project_is_reachable g r file).2 hreach⟩
    obtain ⟨st, h⟩ := fuel_enough g r
    simp [Graph.subgraphOf, h]
  -- some root reaches the file
  have hex : ∃ r ∈ g.findRoots, Reach (R g) r file := by
    by_cases hin : ∀ m, (m, file) ∉ g.edges
    · exact ⟨file, (roots_partial g file).2 ⟨mem_keys.2 (Or.inl hf), Or.inl hin⟩, .refl _⟩
    · obtain ⟨m, hm⟩ := Classical.not_forall.1 hin
      have hm := Classical.not_not.1 hm
      exact ⟨m, (roots_partial g m).2 ⟨mem_keys.2 (Or.inr ⟨file, Or.inl hm⟩), Or.inr ⟨file, hm⟩⟩, .step hm (.refl _)⟩
  simp only [Graph.projectSubgraph]
  by_cases hsp : ∃ r ∈ g.findRoots, g.ext r = .sp ∧ Reach (R g) r file
  · obtain ⟨r, hr, hext, hreach⟩ := hsp
    obtain ⟨s, hs, hroot, hmem⟩ := hmk r hr hreach
    obtain ⟨y, hy, hp, hq, hyl⟩ := find_filter_some (p := fun s : SubGraph => decide (g.ext s.root = .sp)) (q := fun s : SubGraph => decide (file ∈ s.nodes)) hs
      (by simp [hroot, hext]) (by simpa using hmem)
    rw [hy]
    obtain ⟨h1, h2⟩ := hsub y hyl
    exact ⟨y, rfl, h1, by simpa using hq, h2, fun _ => by simpa using hp⟩
  · obtain ⟨r, hr, hreach⟩ := hex
    have hext : g.ext r = .inc := by
      cases h : g.ext r with
      | sp => exact absurd ⟨r, hr, h, hreach⟩ hsp
      | inc => rfl
    obtain ⟨s, hs, hroot, hmem⟩ := hmk r hr hreach
    have hnone : ((g.findSubgraphs roots).filter (fun s => decide (g.ext s.root = .sp))).find? (fun s => decide (file ∈ s.nodes)) = none := by
      rw [List.find?_eq_none]
      intro x hx
      obtain ⟨hx1, hx2⟩ := List.mem_filter.1 hx
      obtain ⟨h1, h2⟩ := hsub x hx1
      intro hc
      exact hsp ⟨x.root, h1, by simpa using hx2, (h2 file).1 (by simpa using hc)⟩
    rw [hnone]
    obtain ⟨y, hy, hp, hq, hyl⟩ := find_filter_some (p := fun s : SubGraph => decide (g.ext s.root = .inc)) (q := fun s : SubGraph => decide (file ∈ s.nodes)) hs
      (by simp [hroot, hext]) (by simpa using hmem)
    rw [hy]
    obtain ⟨h1, h2⟩ := hsub y hyl
    exact ⟨y, rfl, h1, by simpa using hq, h2, fun h => absurd h hsp⟩

/-- **C14, the chosen project is not determined**. Because of the wrong roots, two iteration orders of the same hash map choose
different projects for one file: in `0 → 1 → 2`, file 2 belongs to the project of 0 or to that of 1. -/
theorem project_depends_on_order_refuted : ∃ (g : Graph) (r1 r2 : List Nat) (file : Nat),
    IsOrderOf r1 g.findRoots ∧ IsOrderOf r2 g.findRoots ∧ file ∈ g.nodes ∧
    (g.projectSubgraph r1 file).map (·.root) ≠ (g.projectSubgraph r2 file).map (·.root) := by
  refine ⟨graphQuery [0, 1, 2] (fun n => if n = 0 then [1] else if n = 1 then [2] else []) (fun _ => .sp), [0, 1], [1, 0], 2, ?_, ?_, ?_, ?_⟩
  · have : (graphQuery [0, 1, 2] (fun n => if n = 0 then [1] else if n = 1 then [2] else []) (fun _ => .sp)).findRoots = [0, 1] := by decide
    rw [this]; exact ⟨by decide, by simp⟩
  · have : (graphQuery [0, 1, 2] (fun n => if n = 0 then [1] else if n = 1 then [2] else []) (fun _ => .sp)).findRoots = [0, 1] := by decide
    rw [this]; exact ⟨by decide, by simp [or_comm]⟩
  · decide
  · decide

/-- `projects_for_file` lists exactly the roots that reach the file. -/
theorem projects_for_file_correct (g : Graph) (roots : List Nat) (hord : IsOrderOf roots g.findRoots) (file r : Nat) :
    r ∈ g.projectsForFile roots file ↔ r ∈ g.findRoots ∧ Reach (fun a b => (a, b) ∈ g.edges) r file := by
  simp only [Graph.projectsForFile, Graph.findSubgraphs, List.mem_filterMap, List.mem_map]
  have hroot : ∀ x, (g.subgraphOf x).root = x := by
    intro x
    obtain ⟨st, h⟩ := fuel_enough g x
    simp [Graph.subgraphOf, h]
  constructor
  · rintro ⟨s, ⟨x, hx, rfl⟩, h⟩
    split at h
    · next hm =>
      simp only [Option.some.injEq, hroot] at h
      subst h
      exact ⟨(hord.2 x).1 hx, (project_is_reachable g x file).1 hm⟩
    · simp at h
  · rintro ⟨hr, hreach⟩
    exact ⟨g.subgraphOf r, ⟨r, (hord.2 r).2 hr, rfl⟩, by simp [(project_is_reachable g r file).2 hreach, hroot]⟩

/-- A cyclic graph with a file reached only through a cycle. -/
example : ((graphQuery [0, 1, 2, 3] (fun n => if n = 0 then [1] else if n = 1 then [2, 0] else []) (fun _ => .sp)).subgraphOf 0).nodes
    = [0, 1, 2] := by decide

end Verif.Props.Graph
