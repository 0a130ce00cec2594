import Verif.Hir.Tree
/-!
# C42, C43: pointers to nodes and ids of items
-/

namespace Verif.Props.Tree
open Verif.Hir Verif.Hir.Spec

theorem wfIn_le : ∀ (cs : List Node) (s e : Nat), WFIn s e cs → s ≤ e := by
  intro cs
  induction cs with
  | nil => intro s e h; simpa [WFIn] using h
  | cons c cs ih =>
    intro s e h
    simp only [WFIn] at h
    have h1 := ih _ _ h.2.2
    have h2 : c.s ≤ c.e := by
      obtain ⟨k, s', e', cs'⟩ := c
      have := h.2.1
      simp only [Node.WF] at this
      exact this.1
    omega

theorem wfIn_get : ∀ (cs : List Node) (s e : Nat), WFIn s e cs → ∀ (i : Nat) (c : Node), cs[i]? = some c → Node.WF c ∧ s ≤ c.s ∧ c.e ≤ e := by
  intro cs
  induction cs with
  | nil => intro s e _ i c h; simp at h
  | cons d cs ih =>
    intro s e h i c hc
    simp only [WFIn] at h
    have hle := wfIn_le _ _ _ h.2.2
    have hd : d.s ≤ d.e := by
      obtain ⟨k, s', e', cs'⟩ := d
      have := h.2.1
      simp only [Node.WF] at this
      exact this.1
    cases i with
    | zero =>
      simp only [List.getElem?_cons_zero, Option.some.injEq] at hc
      subst hc
      exact ⟨h.2.1, h.1, hle⟩
    | succ i =>
      obtain ⟨h1, h2, h3⟩ := ih _ _ h.2.2 i c (by simpa using hc)
      exact ⟨h1, by omega, h3⟩

theorem at_inside {r n : Node} {path : List Nat} (h : At r path n) : Node.WF r → Node.WF n ∧ r.s ≤ n.s ∧ n.e ≤ r.e := by
  induction h with
  | here => intro hw; exact ⟨hw, Nat.le_refl _, Nat.le_refl _⟩
  | @child r c n i path hc _ ih =>
    intro hw
    obtain ⟨k, s, e, cs⟩ := r
    simp only [Node.WF] at hw
    obtain ⟨h1, h2, h3⟩ := wfIn_get _ _ _ hw.2 i c hc
    obtain ⟨h4, h5, h6⟩ := ih h1
    exact ⟨h4, by show s ≤ n.s; omega, by show n.e ≤ e; omega⟩

mutual
theorem toNode_sound (p : Ptr) : ∀ (r m : Node), p.toNode r = some m → m.ptr = p ∧ ∃ path, At r path m
  | .mk k s e cs, m, h => by
    simp only [Ptr.toNode] at h
    split at h
    · next hc =>
      simp only [Option.some.injEq] at h
      subst h
      obtain ⟨h1, h2, h3⟩ := hc
      refine ⟨?_, [], .here⟩
      cases p
      simp_all [Node.ptr, Node.kind, Node.s, Node.e]
    · obtain ⟨h1, i, c, path, h2, h3⟩ := toNodeIn_sound p cs m h
      exact ⟨h1, i :: path, .child h2 h3⟩

theorem toNodeIn_sound (p : Ptr) : ∀ (cs : List Node) (m : Node), p.toNodeIn cs = some m → m.ptr = p ∧ ∃ (i : Nat) (c : Node) (path : List Nat), cs[i]? = some c ∧ At c path m
  | [], m, h => by simp [Ptr.toNodeIn] at h
  | c :: cs, m, h => by
    simp only [Ptr.toNodeIn] at h
    split at h
    · obtain ⟨h1, path, h2⟩ := toNode_sound p c m h
      exact ⟨h1, 0, c, path, rfl, h2⟩
    · obtain ⟨h1, i, d, path, h2, h3⟩ := toNodeIn_sound p cs m h
      exact ⟨h1, i + 1, d, path, by simpa using h2, h3⟩
end

theorem toNodeIn_child (p : Ptr) (hp : p.s < p.e) : ∀ (cs : List Node) (s e i : Nat) (c : Node), WFIn s e cs → cs[i]? = some c →
    c.s ≤ p.s → p.e ≤ c.e → p.toNodeIn cs = p.toNode c := by
  intro cs
  induction cs with
  | nil => intro s e i c _ h; simp at h
  | cons d cs ih =>
    intro s e i c hw hc h1 h2
    simp only [WFIn] at hw
    cases i with
    | zero =>
      simp only [List.getElem?_cons_zero, Option.some.injEq] at hc
      subst hc
      simp [Ptr.toNodeIn, h1, h2]
    | succ i =>
      have hc' : cs[i]? = some c := by simpa using hc
      obtain ⟨-, h3, -⟩ := wfIn_get _ _ _ hw.2.2 i c hc'
      have : ¬ (d.s ≤ p.s ∧ d.e ≥ p.e) := by omega
      rw [Ptr.toNodeIn, if_neg this]
      exact ih _ _ i c hw.2.2 hc' h1 h2

theorem toNode_complete {r n : Node} {path : List Nat} (h : At r path n) (hn : n.s < n.e) : Node.WF r → ∃ m, n.ptr.toNode r = some m := by
  induction h with
  | @here n =>
    intro _
    obtain ⟨k, s, e, cs⟩ := n
    exact ⟨.mk k s e cs, by simp [Ptr.toNode, Node.ptr, Node.kind, Node.s, Node.e]⟩
  | @child r c n i path hc ha ih =>
    intro hw
    obtain ⟨k, s, e, cs⟩ := r
    simp only [Node.WF] at hw
    obtain ⟨h1, -, -⟩ := wfIn_get _ _ _ hw.2 i c hc
    obtain ⟨-, h5, h6⟩ := at_inside ha h1
    obtain ⟨m, hm⟩ := ih hn h1
    rw [Ptr.toNode]
    split
    · exact ⟨_, rfl⟩
    · rw [toNodeIn_child n.ptr hn cs s e i c hw.2 hc h5 h6]
      exact ⟨m, hm⟩

/-- **C42 for nodes that are not empty**: a pointer made from a node of the tree leads to a node of the tree with the same kind and
range. Missing: nodes of length zero, for which `pointer_refuted` shows that it can fail. -/
theorem pointer_partial (root n : Node) (path : List Nat) (hw : Node.WF root) (h : At root path n) (hn : n.s < n.e) :
    ∃ m path', n.ptr.toNode root = some m ∧ At root path' m ∧ m.kind = n.kind ∧ m.s = n.s ∧ m.e = n.e := by
  obtain ⟨m, hm⟩ := toNode_complete h hn hw
  obtain ⟨h1, path', h2⟩ := toNode_sound _ _ _ hm
  simp only [Node.ptr, Ptr.mk.injEq] at h1
  exact ⟨m, path', hm, h2, h1.1, h1.2.1, h1.2.2⟩

/-- Whatever the pointer, a node that is returned has the kind and the range of the pointer. -/
theorem pointer_sound (root m : Node) (p : Ptr) (h : p.toNode root = some m) : m.kind = p.kind ∧ m.s = p.s ∧ m.e = p.e ∧ ∃ path, At root path m := by
  obtain ⟨h1, h2⟩ := toNode_sound _ _ _ h
  rw [← h1]
  exact ⟨rfl, rfl, rfl, h2⟩

/-- A file with two functions, the second with an empty parameter list and a block. -/
def sample : Node := .mk .source_file 0 40
  [.mk .function_definition 0 18 [.mk (.other 1) 0 5 [], .mk .parameter_declarations 5 7 [], .mk .block 8 18 [.mk (.other 2) 9 17 []]],
   .mk .function_definition 19 40 [.mk (.other 1) 19 24 [], .mk .block 24 40 [.mk .variable_declaration_statement 25 39
     [.mk (.other 3) 25 28 [], .mk .variable_declaration 29 33 [], .mk .variable_declaration 35 38 []]]]]

example : Node.WF sample ∧ At sample [1, 1, 0, 2] (.mk .variable_declaration 35 38 []) :=
  ⟨by simp [sample, Node.WF, WFIn, Node.s, Node.e], .child rfl (.child rfl (.child rfl (.child rfl .here)))⟩

/-- **C42 is violated** for nodes of length zero, which the parser makes for missing tokens: the node before it, which ends where the
empty node is, takes the search into a dead end and the server panics. -/
theorem pointer_refuted : ∃ root n path, Node.WF root ∧ At root path n ∧ n.ptr.toNode root = none :=
  ⟨.mk .source_file 0 4 [.mk (.other 1) 0 4 [], .mk (.other 2) 4 4 []], .mk (.other 2) 4 4 [], [1], by simp [Node.WF, WFIn, Node.s, Node.e],
    .child rfl .here, by simp [Node.ptr, Node.kind, Node.s, Node.e, Ptr.toNode, Ptr.toNodeIn]⟩

/-! ## C43 -/

/-- The table is consistent. -/
structure Ok (m : AstIdMap) : Prop where
  back : ∀ p i, m.map.lookup p = some i → m.arena[i]? = some p
  all : ∀ p ∈ m.arena, ∃ i, m.map.lookup p = some i

theorem ok_alloc {m : AstIdMap} (h : Ok m) (p : Ptr) : Ok (m.alloc p) := by
  constructor
  · intro q i hq
    simp only [AstIdMap.alloc, List.lookup_cons] at hq ⊢
    cases hb : q == p with
    | true =>
      simp only [hb, Option.some.injEq] at hq
      subst hq
      rw [List.getElem?_append_right (Nat.le_refl _)]
      simp at hb
      simp [hb]
    | false =>
      simp only [hb] at hq
      have := h.back q i hq
      rw [List.getElem?_append_left (by
        rw [List.getElem?_eq_some_iff] at this
        exact this.1)]
      exact this
  · intro q hq
    simp only [AstIdMap.alloc, List.lookup_cons] at hq ⊢
    cases hb : q == p with
    | true => exact ⟨_, rfl⟩
    | false =>
      have hne : q ≠ p := by simpa using hb
      have : q ∈ m.arena := by simpa [hne] using hq
      exact h.all q this

theorem allocs (cs : List Node) : ∀ (m : AstIdMap), Ok m → Ok (cs.foldl (fun m c => m.alloc c.ptr) m) ∧
    (cs.foldl (fun m c => m.alloc c.ptr) m).arena = m.arena ++ cs.map (·.ptr) := by
  induction cs with
  | nil => intro m h; exact ⟨h, by simp⟩
  | cons c cs ih =>
    intro m h
    obtain ⟨h1, h2⟩ := ih (m.alloc c.ptr) (ok_alloc h _)
    exact ⟨h1, by rw [List.foldl_cons, h2]; simp [AstIdMap.alloc]⟩

/-- The pointers the visitor records for one node. -/
def visited (n : Node) : List Ptr :=
  if n.kind = .source_file then [] else if n.kind.isDeclList then (n.children.filter (·.kind.isDecl)).map (·.ptr) else [n.ptr]

theorem visit_arena {m : AstIdMap} (h : Ok m) (n : Node) : Ok (m.visit n) ∧ (m.visit n).arena = m.arena ++ visited n := by
  unfold AstIdMap.visit visited
  split
  · exact ⟨h, by simp⟩
  · split
    · exact allocs _ m h
    · exact ⟨ok_alloc h _, rfl⟩

theorem visits_arena (cs : List Node) : ∀ {m : AstIdMap}, Ok m → Ok (cs.foldl AstIdMap.visit m) ∧
    (cs.foldl AstIdMap.visit m).arena = m.arena ++ cs.flatMap visited := by
  induction cs with
  | nil => intro m h; exact ⟨h, by simp⟩
  | cons c cs ih =>
    intro m h
    obtain ⟨h1, h2⟩ := visit_arena h c
    obtain ⟨h3, h4⟩ := ih h1
    exact ⟨h3, by rw [List.foldl_cons, h4, h2]; simp⟩

mutual
/-- All pointers recorded below a node. -/
def entries : Node → List Ptr
  | .mk _ _ _ cs => cs.flatMap visited ++ entriesIn cs
def entriesIn : List Node → List Ptr
  | [] => []
  | c :: cs => (if c.kind.expands then entries c else []) ++ entriesIn cs
end

mutual
theorem bdfs_arena : ∀ (n : Node) {m : AstIdMap}, Ok m → Ok (m.bdfs n) ∧ (m.bdfs n).arena = m.arena ++ entries n
  | .mk _ _ _ cs, m, h => by
    rw [AstIdMap.bdfs, entries]
    obtain ⟨h1, h2⟩ := visits_arena cs h
    obtain ⟨h3, h4⟩ := bdfsIn_arena cs h1
    exact ⟨h3, by rw [h4, h2, List.append_assoc]⟩
theorem bdfsIn_arena : ∀ (cs : List Node) {m : AstIdMap}, Ok m → Ok (m.bdfsIn cs) ∧ (m.bdfsIn cs).arena = m.arena ++ entriesIn cs
  | [], m, h => by rw [AstIdMap.bdfsIn, entriesIn]; exact ⟨h, by simp⟩
  | c :: cs, m, h => by
    rw [AstIdMap.bdfsIn, entriesIn]
    by_cases hc : c.kind.expands = true
    · obtain ⟨h1, h2⟩ := bdfs_arena c h
      obtain ⟨h3, h4⟩ := bdfsIn_arena cs h1
      rw [if_pos hc, if_pos hc]
      exact ⟨h3, by rw [h4, h2, List.append_assoc]⟩
    · obtain ⟨h3, h4⟩ := bdfsIn_arena cs h
      rw [if_neg hc, if_neg hc]
      exact ⟨h3, by rw [h4]; simp⟩
end

theorem ofTree_arena (root : Node) : Ok (AstIdMap.ofTree root) ∧ (AstIdMap.ofTree root).arena = entries root := by
  have h : Ok ({} : AstIdMap) := ⟨fun p i h => by simp at h, fun p h => by simp at h⟩
  obtain ⟨h1, h2⟩ := bdfs_arena root h
  exact ⟨h1, h2⟩

theorem mem_visited_in {r n : Node} {p : Ptr} {i : Nat} (h : r.children[i]? = some n) (hp : p ∈ visited n) : p ∈ entries r := by
  obtain ⟨k, s, e, cs⟩ := r
  rw [entries]
  exact List.mem_append_left _ (List.mem_flatMap.2 ⟨n, List.mem_of_getElem? h, hp⟩)

theorem mem_entriesIn {cs : List Node} {c : Node} {p : Ptr} : ∀ {i : Nat}, cs[i]? = some c → c.kind.expands = true → p ∈ entries c → p ∈ entriesIn cs := by
  induction cs with
  | nil => intro i h; simp at h
  | cons d cs ih =>
    intro i h he hp
    rw [entriesIn]
    cases i with
    | zero =>
      simp only [List.getElem?_cons_zero, Option.some.injEq] at h
      subst h
      rw [if_pos he]
      exact List.mem_append_left _ hp
    | succ i => exact List.mem_append_right _ (ih (by simpa using h) he hp)

theorem isDeclList_iff (k : Kind) : k.isDeclList = true ↔ k ∈ declLists := by cases k <;> simp [Kind.isDeclList, declLists]

theorem isDecl_iff (k : Kind) : k.isDecl = true ↔ k ∈ decls := by cases k <;> simp [Kind.isDecl, decls]

theorem expands_iff (k : Kind) : k.expands = true ↔ k ∈ holders := by cases k <;> simp [Kind.expands, holders]

theorem recorded_entry {r n : Node} {path : List Nat} (h : Recorded r path n) : n.ptr ∈ entries r := by
  induction h with
  | item h1 h2 h3 => exact mem_visited_in h1 (by simp [visited, h2, isDeclList_iff, h3])
  | @decl r d n i j h1 h2 h3 h4 =>
    refine mem_visited_in h1 ?_
    have : d.kind ≠ .source_file := by intro e; rw [e] at h2; simp [declLists] at h2
    simp only [visited, this, if_false, (isDeclList_iff _).2 h2, if_true, List.mem_map, List.mem_filter]
    exact ⟨n, ⟨List.mem_of_getElem? h3, (isDecl_iff _).2 h4⟩, rfl⟩
  | @inside r c n i path h1 h2 _ ih =>
    obtain ⟨k, s, e, cs⟩ := r
    rw [entries]
    exact List.mem_append_right _ (mem_entriesIn h1 ((expands_iff _).2 h2) ih)

theorem recorded_at {r n : Node} {path : List Nat} (h : Recorded r path n) : At r path n := by
  induction h with
  | item h1 => exact .child h1 .here
  | decl h1 _ h2 => exact .child h1 (.child h2 .here)
  | inside h1 _ _ ih => exact .child h1 ih

/-- **C43, first half**: a recorded node has an id and the id gives back the pointer of the node. -/
theorem id_found (root n : Node) (path : List Nat) (h : Recorded root path n) :
    ∃ id, (AstIdMap.ofTree root).idOf n = some id ∧ (AstIdMap.ofTree root).get id = some n.ptr := by
  obtain ⟨h1, h2⟩ := ofTree_arena root
  obtain ⟨id, hid⟩ := h1.all n.ptr (by rw [h2]; exact recorded_entry h)
  exact ⟨id, hid, h1.back _ _ hid⟩

/-- From the id back to a node of the same kind at the same place, for nodes that are not empty. -/
theorem id_to_node (root n : Node) (path : List Nat) (h : Recorded root path n) (hw : Node.WF root) (hn : n.s < n.e) :
    ∃ id p m, (AstIdMap.ofTree root).idOf n = some id ∧ (AstIdMap.ofTree root).get id = some p ∧ p.toNode root = some m ∧
      m.kind = n.kind ∧ m.s = n.s ∧ m.e = n.e := by
  obtain ⟨id, h1, h2⟩ := id_found root n path h
  obtain ⟨m, -, h3, -, h4⟩ := pointer_partial root n path hw (recorded_at h) hn
  exact ⟨id, _, m, h1, h2, h3, h4⟩

theorem wfIn_order : ∀ (cs : List Node) (s e : Nat), WFIn s e cs → ∀ (i j : Nat) (c d : Node), i < j → cs[i]? = some c → cs[j]? = some d → c.e ≤ d.s := by
  intro cs
  induction cs with
  | nil => intro s e _ i j c d _ h; simp at h
  | cons x cs ih =>
    intro s e hw i j c d hij hc hd
    simp only [WFIn] at hw
    cases j with
    | zero => omega
    | succ j =>
      have hd' : cs[j]? = some d := by simpa using hd
      cases i with
      | zero =>
        simp only [List.getElem?_cons_zero, Option.some.injEq] at hc
        subst hc
        exact (wfIn_get _ _ _ hw.2.2 j d hd').2.1
      | succ i => exact ih _ _ hw.2.2 i j c d (by omega) (by simpa using hc) hd'

/-- Nodes of which none is inside the other do not overlap. -/
theorem disjoint_of {r a : Node} {pa : List Nat} (ha : At r pa a) : ∀ {pb : List Nat} {b : Node}, At r pb b → Node.WF r → ¬ pa <+: pb → ¬ pb <+: pa →
    a.e ≤ b.s ∨ b.e ≤ a.s := by
  induction ha with
  | here => intro pb b _ _ h; exact absurd (List.nil_prefix) h
  | @child r c a i pa hc hca ih =>
    intro pb b hb hw h1 h2
    obtain ⟨k, s, e, cs⟩ := r
    have hw' := hw
    simp only [Node.WF] at hw'
    cases hb with
    | here => exact absurd List.nil_prefix h2
    | @child _ d _ j pb hd hdb =>
      obtain ⟨wc, -, -⟩ := wfIn_get _ _ _ hw'.2 i c hc
      obtain ⟨wd, -, -⟩ := wfIn_get _ _ _ hw'.2 j d hd
      obtain ⟨-, a1, a2⟩ := at_inside hca wc
      obtain ⟨-, b1, b2⟩ := at_inside hdb wd
      rcases Nat.lt_trichotomy i j with hij | hij | hij
      · have := wfIn_order _ _ _ hw'.2 i j c d hij hc hd
        exact .inl (by omega)
      · subst hij
        have : some c = some d := hc.symm.trans hd
        simp only [Option.some.injEq] at this
        subst this
        exact ih hdb wc (fun h => h1 ((List.prefix_cons_inj i).2 h)) (fun h => h2 ((List.prefix_cons_inj i).2 h))
      · have := wfIn_order _ _ _ hw'.2 j i d c hij hd hc
        exact .inr (by omega)

/-- **C43, second half, for nodes that are not empty**: different items have different ids. Two nodes one of which is inside the other
must differ in kind or in range (they are items of different kinds, or one has more text). Missing: nodes of length zero, see
`ids_distinct_refuted`. -/
theorem ids_distinct_partial (root a b : Node) (pa pb : List Nat) (hw : Node.WF root) (ha : Recorded root pa a) (hb : Recorded root pb b)
    (hne : a.s < a.e) (hd : (¬ pa <+: pb ∧ ¬ pb <+: pa) ∨ a.kind ≠ b.kind ∨ (a.s, a.e) ≠ (b.s, b.e)) :
    (AstIdMap.ofTree root).idOf a ≠ (AstIdMap.ofTree root).idOf b := by
  intro e
  obtain ⟨i, h1, h2⟩ := id_found root a pa ha
  obtain ⟨j, h3, h4⟩ := id_found root b pb hb
  rw [h1, h3, Option.some.injEq] at e
  subst e
  rw [h2, Option.some.injEq] at h4
  simp only [Node.ptr, Ptr.mk.injEq] at h4
  rcases hd with ⟨d1, d2⟩ | hd | hd
  · rcases disjoint_of (recorded_at ha) (recorded_at hb) hw d1 d2 with h | h <;> omega
  · exact hd h4.1
  · exact hd (by rw [h4.2.1, h4.2.2])

/-- Recorded nodes of the sample, one of them a variable of a declaration inside a function. -/
example : Recorded sample [1, 1, 0, 2] (.mk .variable_declaration 35 38 []) ∧ Recorded sample [1, 1, 0, 1] (.mk .variable_declaration 29 33 []) ∧
    Recorded sample [0] (.mk .function_definition 0 18 [.mk (.other 1) 0 5 [], .mk .parameter_declarations 5 7 [], .mk .block 8 18 [.mk (.other 2) 9 17 []]]) :=
  ⟨.inside rfl (by decide) (.inside rfl (by decide) (.decl rfl (by decide) rfl (by decide))),
   .inside rfl (by decide) (.inside rfl (by decide) (.decl rfl (by decide) rfl (by decide))), .item rfl (by decide) (by decide)⟩

/-- **C43 is violated** for nodes of length zero: two missing tokens of one kind at one place have the same id. -/
theorem ids_distinct_refuted : ∃ root a b pa pb, Node.WF root ∧ Recorded root pa a ∧ Recorded root pb b ∧ ¬ pa <+: pb ∧ ¬ pb <+: pa ∧
    (AstIdMap.ofTree root).idOf a = (AstIdMap.ofTree root).idOf b :=
  ⟨.mk .source_file 0 4 [.mk .enum_ 0 4 [.mk (.other 1) 0 4 [], .mk (.other 2) 4 4 [], .mk (.other 2) 4 4 []]], .mk (.other 2) 4 4 [],
    .mk (.other 2) 4 4 [], [0, 1], [0, 2], by simp [Node.WF, WFIn, Node.s, Node.e], .inside rfl (by decide) (.item rfl (by decide) (by decide)),
    .inside rfl (by decide) (.item rfl (by decide) (by decide)), by decide, by decide, rfl⟩

end Verif.Props.Tree
