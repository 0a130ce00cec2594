import Verif.Hir.NameDef
import Verif.Props.Tree
import Verif.Props.ItemTree

/-!
# From the name in a declaration to the declaration (C87)
-/

namespace Verif.Props.NameDef

open Verif.Hir Verif.Hir.Spec Verif.Hir.Items Verif.Hir.Items.Spec Verif.Hir.NameDef Verif.Hir.NameDef.Spec
open Verif.Props.ItemTree (item_tree_partial anonOf)

/-! ## Finding a node again -/

/-- The way down from `r`, whose ancestors are `acc`, to `n`, whose ancestors are `anc`. -/
inductive Down : Node → List Node → List Node → Node → Prop where
  | here {r : Node} {acc : List Node} : Down r acc acc r
  | child {r c n : Node} {acc anc : List Node} : c ∈ r.children → Down c (r :: acc) anc n → Down r acc anc n

theorem Down.snoc {r n : Node} {acc anc : List Node} (h : Down r acc anc n) : ∀ {c : Node}, c ∈ n.children → Down r acc (n :: anc) c := by
  induction h with
  | here => intro c hc; exact .child hc .here
  | child h1 _ ih => intro c hc; exact .child h1 (ih hc)

theorem down_of_below {root n : Node} {anc : List Node} (h : Below root anc n) : Down root [] anc n := by
  induction h with
  | root => exact .here
  | child _ hc ih => exact ih.snoc hc

theorem Down.acc {r n : Node} {acc anc : List Node} (h : Down r acc anc n) : ∀ a ∈ acc, a ∈ anc := by
  induction h with
  | here => intro a ha; exact ha
  | child _ _ ih => intro a ha; exact ih a (List.mem_cons_of_mem _ ha)

theorem Down.at_ {r n : Node} {acc anc : List Node} (h : Down r acc anc n) : ∃ path, At r path n := by
  induction h with
  | here => exact ⟨[], .here⟩
  | child hc _ ih =>
    obtain ⟨path, hp⟩ := ih
    obtain ⟨i, hi⟩ := List.getElem?_of_mem hc
    exact ⟨i :: path, .child hi hp⟩

theorem locateIn_child (p : Ptr) (hp : p.s < p.e) (acc : List Node) : ∀ (cs : List Node) (s e i : Nat) (c : Node), WFIn s e cs → cs[i]? = some c →
    c.s ≤ p.s → p.e ≤ c.e → locateIn p acc cs = locate p acc c := by
  intro cs
  induction cs with
  | nil => intro s e i c _ h; simp at h
  | cons d cs ih =>
    intro s e i c hw hc h1 h2
    have hw' := hw
    simp only [WFIn] at hw
    rw [locateIn]
    cases i with
    | zero =>
      simp only [List.getElem?_cons_zero, Option.some.injEq] at hc
      subst hc
      rw [if_pos ⟨h1, h2⟩]
    | succ i =>
      simp only [List.getElem?_cons_succ] at hc
      have ho := Verif.Props.Tree.wfIn_order (d :: cs) s e hw' 0 (i + 1) d c (by omega) rfl (by simpa using hc)
      rw [if_neg (by omega)]
      exact ih _ _ i c hw.2.2 hc h1 h2

theorem locate_down {r n : Node} {acc anc : List Node} (h : Down r acc anc n) (hn : n.s < n.e) : Node.WF r → (∀ a ∈ anc, a.ptr ≠ n.ptr) →
    locate n.ptr acc r = some (n, anc) := by
  induction h with
  | @here n acc =>
    intro _ _
    obtain ⟨k, s, e, cs⟩ := n
    simp [locate, Node.ptr, Node.kind, Node.s, Node.e]
  | @child r c n acc anc hc hd ih =>
    intro hw hne
    have hr : r.ptr ≠ n.ptr := hne r (hd.acc r (List.mem_cons_self))
    obtain ⟨path, hp⟩ := hd.at_
    obtain ⟨i, hi⟩ := List.getElem?_of_mem hc
    obtain ⟨k, s, e, cs⟩ := r
    simp only [Node.WF] at hw
    obtain ⟨hwc, _, _⟩ := Verif.Props.Tree.wfIn_get cs s e hw.2 i c hi
    obtain ⟨_, h1, h2⟩ := Verif.Props.Tree.at_inside hp hwc
    rw [locate, if_neg (by rintro ⟨a, b, c'⟩; exact hr (by simp only [Node.ptr, Node.kind, Node.s, Node.e] at a b c' ⊢; rw [a, b, c']))]
    rw [locateIn_child n.ptr hn _ cs s e i c hw.2 hi h1 h2]
    exact ih hn hwc hne

mutual
theorem locate_toNode (p : Ptr) : ∀ (r : Node) (acc : List Node), (locate p acc r).map Prod.fst = p.toNode r
  | .mk k s e cs, acc => by
    rw [locate, Ptr.toNode]
    split
    · rfl
    · exact locateIn_toNode p cs _

theorem locateIn_toNode (p : Ptr) : ∀ (cs : List Node) (acc : List Node), (locateIn p acc cs).map Prod.fst = p.toNodeIn cs
  | [], _ => rfl
  | c :: cs, acc => by
    rw [locateIn, Ptr.toNodeIn]
    split
    · exact locate_toNode p c acc
    · exact locateIn_toNode p cs acc
end

/-- A node whose kind none of the nodes around it has. -/
theorem located {root n : Node} {anc : List Node} (h : Below root anc n) (hw : Node.WF root) (hn : n.s < n.e) (hk : ∀ a ∈ anc, a.kind ≠ n.kind) :
    locate n.ptr [] root = some (n, anc) ∧ n.ptr.toNode root = some n := by
  have := locate_down (down_of_below h) hn hw (fun a ha e => hk a ha (congrArg Ptr.kind e))
  exact ⟨this, by rw [← locate_toNode n.ptr root [], this]; rfl⟩

/-- Two children of the root with the same range are the same. -/
theorem child_eq {root a b : Node} (hw : Node.WF root) (ha : a ∈ root.children) (hb : b ∈ root.children) (hn : a.s < a.e) (h : a.ptr = b.ptr) : a = b := by
  obtain ⟨i, hi⟩ := List.getElem?_of_mem ha
  obtain ⟨j, hj⟩ := List.getElem?_of_mem hb
  obtain ⟨k, s, e, cs⟩ := root
  simp only [Node.WF] at hw
  simp only [Node.ptr, Ptr.mk.injEq] at h
  rcases Nat.lt_trichotomy i j with hij | hij | hij
  · have := Verif.Props.Tree.wfIn_order cs s e hw.2 i j a b hij hi hj
    omega
  · subst hij; rw [hi] at hj; exact Option.some.inj hj
  · have := Verif.Props.Tree.wfIn_order cs s e hw.2 j i b a hij hj hi
    omega

/-! ## Maps -/

theorem inserts_ok (f : File) : ∀ (L : List (Key × Nat)) (m0 : Map), (∀ x ∈ L, ∃ p, f.ptrOf x.1 x.2 = some p) →
    ∃ m, L.foldlM f.insert m0 = some m ∧
      (∀ x ∈ L, ∀ p, f.ptrOf x.1 x.2 = some p → ∃ j, (x.1, j) ∈ L ∧ f.ptrOf x.1 j = some p ∧ m.lookup (x.1, p) = some (.item x.1 j)) ∧
      (∀ k p, (∀ x ∈ L, x.1 = k → f.ptrOf x.1 x.2 ≠ some p) → m.lookup (k, p) = m0.lookup (k, p)) := by
  intro L
  induction L with
  | nil => intro m0 _; exact ⟨m0, rfl, by simp, fun _ _ _ => rfl⟩
  | cons x L ih =>
    intro m0 h
    obtain ⟨p, hp⟩ := h x (List.mem_cons_self)
    obtain ⟨m, h1, h2, h3⟩ := ih (((x.1, p), .item x.1 x.2) :: m0) (fun y hy => h y (List.mem_cons_of_mem _ hy))
    refine ⟨m, ?_, ?_, ?_⟩
    · simp only [List.foldlM_cons, File.insert, hp, Option.map_some, Option.bind_eq_bind, Option.bind_some]; exact h1
    · intro y hy q hq
      rcases List.mem_cons.1 hy with rfl | hy
      · rw [hp] at hq; obtain rfl := Option.some.inj hq
        by_cases hz : ∃ z ∈ L, z.1 = y.1 ∧ f.ptrOf z.1 z.2 = some p
        · obtain ⟨z, hz, hk, hq⟩ := hz
          obtain ⟨j, a, b, c⟩ := h2 z hz p hq
          rw [hk] at a b c
          exact ⟨j, List.mem_cons_of_mem _ a, b, c⟩
        · refine ⟨y.2, List.mem_cons_self, hp, ?_⟩
          rw [h3 y.1 p (fun z hzL hk hq => hz ⟨z, hzL, hk, hq⟩)]
          simp [List.lookup_cons]
      · obtain ⟨j, a, b, c⟩ := h2 y hy q hq
        exact ⟨j, List.mem_cons_of_mem _ a, b, c⟩
    · intro k q hq
      rw [h3 k q (fun z hz => hq z (List.mem_cons_of_mem _ hz)), List.lookup_cons]
      have : ((k, q) == (x.1, p)) = false := by
        rw [beq_eq_false_iff_ne]
        rintro ⟨⟩
        exact hq x (List.mem_cons_self) rfl hp
      rw [this]

/-! ## What the item tree says -/

theorem all_mem {α β : Type} {g : α → Option β} : ∀ {as : List α} {bs : List β}, all g as = some bs → ∀ a ∈ as, ∃ b ∈ bs, g a = some b := by
  intro as
  induction as with
  | nil => intro bs _ a ha; simp at ha
  | cons x as ih =>
    intro bs h a ha
    simp only [all, Option.bind_eq_bind, Option.bind_eq_some_iff] at h
    obtain ⟨b, hb, l, hl, e⟩ := h
    simp only [Option.some.injEq] at e
    subst e
    rcases List.mem_cons.1 ha with rfl | ha
    · exact ⟨b, List.mem_cons_self, hb⟩
    · obtain ⟨b', h1, h2⟩ := ih hl a ha
      exact ⟨b', List.mem_cons_of_mem _ h1, h2⟩

theorem all_mem' {α β : Type} {g : α → Option β} : ∀ {as : List α} {bs : List β}, all g as = some bs → ∀ b ∈ bs, ∃ a ∈ as, g a = some b := by
  intro as
  induction as with
  | nil => intro bs h b hb; simp only [all, Option.some.injEq] at h; subst h; simp at hb
  | cons x as ih =>
    intro bs h b hb
    simp only [all, Option.bind_eq_bind, Option.bind_eq_some_iff] at h
    obtain ⟨c, hc, l, hl, e⟩ := h
    simp only [Option.some.injEq] at e
    subst e
    rcases List.mem_cons.1 hb with rfl | hb
    · exact ⟨x, List.mem_cons_self, hc⟩
    · obtain ⟨a, h1, h2⟩ := ih hl b hb
      exact ⟨a, List.mem_cons_of_mem _ h1, h2⟩

/-- Map and node of a declaration. -/
def declKey : Decl → Key
  | .function _ => .function
  | .global .. => .global
  | .enum .. => .enum
  | .variant _ => .variant
  | .enumStruct .. => .enumStruct
  | .methodmap .. => .methodmap
  | .typedef _ => .typedef
  | .typeset .. => .typeset
  | .functag _ => .functag
  | .funcenum .. => .funcenum
  | .macroDef .. => .macroDef

def declAt : Decl → Ptr
  | .function f => f.at_
  | .global _ _ _ p => p
  | .enum _ _ p => p
  | .variant v => v.at_
  | .enumStruct _ _ p => p
  | .methodmap _ _ _ p => p
  | .typedef s => s.at_
  | .typeset _ _ p => p
  | .functag s => s.at_
  | .funcenum _ _ p => p
  | .macroDef _ p => p

theorem seeFn_ptr {f : File} {i : Nat} {d : DFn} (h : seeFn f.ids f.tree i = some d) : f.ptrOf .function i = some d.at_ := by
  simp only [seeFn, Option.bind_eq_bind, Option.bind_eq_some_iff] at h
  obtain ⟨x, hx, _, _, p, hp, e⟩ := h
  simp only [Option.some.injEq] at e
  subst e
  simp [File.ptrOf, astOf, hx, hp]

/-- The declaration an item stands for has the key and the node of the item. -/
theorem see_ptr {f : File} {it : FileItem} {d : Decl} (h : see f.ids f.tree it = some d) :
    (keyOf it).1 = declKey d ∧ f.ptrOf (keyOf it).1 (keyOf it).2 = some (declAt d) := by
  cases it with
  | function i =>
    simp only [see, Option.map_eq_some_iff] at h
    obtain ⟨x, hx, rfl⟩ := h
    exact ⟨rfl, seeFn_ptr hx⟩
  | global i =>
    simp only [see, Option.bind_eq_bind, Option.bind_eq_some_iff] at h
    obtain ⟨x, hx, p, hp, e⟩ := h
    simp only [Option.some.injEq] at e
    subst e
    exact ⟨rfl, by simp [keyOf, File.ptrOf, astOf, hx, hp, declAt]⟩
  | enum i =>
    simp only [see, Option.bind_eq_bind, Option.bind_eq_some_iff] at h
    obtain ⟨x, hx, _, _, p, hp, e⟩ := h
    simp only [Option.some.injEq] at e
    subst e
    exact ⟨rfl, by simp [keyOf, File.ptrOf, astOf, hx, hp, declAt]⟩
  | variant i =>
    simp only [see, Option.map_eq_some_iff, seeVariant, Option.bind_eq_bind, Option.bind_eq_some_iff] at h
    obtain ⟨v, ⟨x, hx, p, hp, e⟩, rfl⟩ := h
    simp only [Option.some.injEq] at e
    subst e
    exact ⟨rfl, by simp [keyOf, File.ptrOf, astOf, hx, hp, declAt]⟩
  | enumStruct i =>
    simp only [see, Option.bind_eq_bind, Option.bind_eq_some_iff] at h
    obtain ⟨x, hx, _, _, p, hp, e⟩ := h
    simp only [Option.some.injEq] at e
    subst e
    exact ⟨rfl, by simp [keyOf, File.ptrOf, astOf, hx, hp, declAt]⟩
  | methodmap i =>
    simp only [see, Option.bind_eq_bind, Option.bind_eq_some_iff] at h
    obtain ⟨x, hx, _, _, p, hp, e⟩ := h
    simp only [Option.some.injEq] at e
    subst e
    exact ⟨rfl, by simp [keyOf, File.ptrOf, astOf, hx, hp, declAt]⟩
  | typedef i =>
    simp only [see, Option.map_eq_some_iff, seeTypedef, Option.bind_eq_bind, Option.bind_eq_some_iff] at h
    obtain ⟨v, ⟨x, hx, _, _, p, hp, e⟩, rfl⟩ := h
    simp only [Option.some.injEq] at e
    subst e
    exact ⟨rfl, by simp [keyOf, File.ptrOf, astOf, hx, hp, declAt]⟩
  | typeset i =>
    simp only [see, Option.bind_eq_bind, Option.bind_eq_some_iff] at h
    obtain ⟨x, hx, _, _, p, hp, e⟩ := h
    simp only [Option.some.injEq] at e
    subst e
    exact ⟨rfl, by simp [keyOf, File.ptrOf, astOf, hx, hp, declAt]⟩
  | functag i =>
    simp only [see, Option.map_eq_some_iff, seeFunctag, Option.bind_eq_bind, Option.bind_eq_some_iff] at h
    obtain ⟨v, ⟨x, hx, _, _, p, hp, e⟩, rfl⟩ := h
    simp only [Option.some.injEq] at e
    subst e
    exact ⟨rfl, by simp [keyOf, File.ptrOf, astOf, hx, hp, declAt]⟩
  | funcenum i =>
    simp only [see, Option.bind_eq_bind, Option.bind_eq_some_iff] at h
    obtain ⟨x, hx, _, _, p, hp, e⟩ := h
    simp only [Option.some.injEq] at e
    subst e
    exact ⟨rfl, by simp [keyOf, File.ptrOf, astOf, hx, hp, declAt]⟩
  | macroDef i =>
    simp only [see, Option.bind_eq_bind, Option.bind_eq_some_iff] at h
    obtain ⟨x, hx, p, hp, e⟩ := h
    simp only [Option.some.injEq] at e
    subst e
    exact ⟨rfl, by simp [keyOf, File.ptrOf, astOf, hx, hp, declAt]⟩

/-- The declarations of a file that are type definitions have a name. -/
def named : Decl → Prop
  | .typedef s => s.name.isSome
  | .functag s => s.name.isSome
  | _ => True

theorem see_declared {f : File} {it : FileItem} {d : Decl} (h : see f.ids f.tree it = some d) (hn : named d) : declared f.tree it = true := by
  cases it with
  | typedef i =>
    simp only [see, Option.map_eq_some_iff, seeTypedef, Option.bind_eq_bind, Option.bind_eq_some_iff] at h
    obtain ⟨v, ⟨x, hx, _, _, p, hp, e⟩, rfl⟩ := h
    simp only [Option.some.injEq] at e
    subst e
    simpa [declared, hx, named] using hn
  | functag i =>
    simp only [see, Option.map_eq_some_iff, seeFunctag, Option.bind_eq_bind, Option.bind_eq_some_iff] at h
    obtain ⟨v, ⟨x, hx, _, _, p, hp, e⟩, rfl⟩ := h
    simp only [Option.some.injEq] at e
    subst e
    simpa [declared, hx, named] using hn
  | _ => rfl

variable {f : File}

def fileDecls (f : File) : List Decl := Items.Spec.decls f.syn (anonOf (AstIdMap.ofTree f.root)) f.root

theorem ready_seen (h : Ready f) : all (see f.ids f.tree) f.tree.top = some (fileDecls f) := by
  obtain ⟨t, h1, h2⟩ := item_tree_partial f.syn f.root h.grammar h.placed
  rw [h.lowered] at h1
  obtain rfl := Option.some.inj h1
  exact h2

/-- Where the declarations of the file come from. -/
theorem decl_source {d : Decl} (h : d ∈ fileDecls f) :
    (∃ c ∈ f.root.children, d ∈ declsOf f.syn (anonOf (AstIdMap.ofTree f.root)) c) ∨ ∃ c ∈ macroDefs f.root, macroOf f.syn c = some d := by
  simp only [fileDecls, Items.Spec.decls, List.mem_append, List.mem_flatMap, List.mem_filterMap] at h
  exact h

theorem decl_named {d : Decl} (h : d ∈ fileDecls f) : named d := by
  rcases decl_source h with ⟨c, _, hd⟩ | ⟨c, _, hd⟩
  · unfold declsOf at hd
    split at hd
    case h_8 =>
      simp only [Option.mem_toList, Option.bind_eq_some_iff, Option.map_eq_some_iff] at hd
      obtain ⟨_, _, _, _, _, _, rfl⟩ := hd
      rfl
    case h_10 =>
      simp only [Option.mem_toList, Option.map_eq_some_iff] at hd
      obtain ⟨_, _, rfl⟩ := hd
      rfl
    all_goals
      simp only [Option.mem_toList, Option.map_eq_some_iff, List.mem_append, List.mem_map, List.mem_singleton, List.mem_filterMap, varOf, List.not_mem_nil] at hd <;>
      first
        | (rcases hd with ⟨_, _, rfl⟩ | rfl <;> trivial)
        | (obtain ⟨_, _, rfl⟩ := hd; trivial)
        | (obtain ⟨_, _, _, _, rfl⟩ := hd; trivial)
  · simp only [macroOf, Option.map_eq_some_iff] at hd
    obtain ⟨_, _, rfl⟩ := hd
    trivial

/-- Every declaration of the file is found in the map of the file under its node. -/
theorem file_lookup (h : Ready f) : ∃ m, f.fileMap = some m ∧ ∀ d ∈ fileDecls f, ∃ it ∈ f.tree.top, ∃ d' ∈ fileDecls f,
    see f.ids f.tree it = some d' ∧ keyOf it = (declKey d, (keyOf it).2) ∧ declAt d' = declAt d ∧
    f.ptrOf (declKey d) (keyOf it).2 = some (declAt d) ∧ m.lookup (declKey d, declAt d) = some (.item (declKey d) (keyOf it).2) := by
  have hs := ready_seen h
  obtain ⟨m, h1, h2, _⟩ := inserts_ok f ((f.tree.top.filter (declared f.tree)).map keyOf) [] (by
    intro x hx
    obtain ⟨it, hit, rfl⟩ := List.mem_map.1 hx
    obtain ⟨d, _, hd⟩ := all_mem hs it ((List.mem_filter.1 hit).1)
    exact ⟨_, (see_ptr hd).2⟩)
  refine ⟨m, h1, ?_⟩
  intro d hd
  obtain ⟨it, hit, hsee⟩ := all_mem' hs d hd
  obtain ⟨hk, hp⟩ := see_ptr hsee
  obtain ⟨j, hj, hjp, hl⟩ := h2 (keyOf it) (List.mem_map.2 ⟨it, List.mem_filter.2 ⟨hit, see_declared hsee (decl_named hd)⟩, rfl⟩) _ hp
  rw [hk] at hj hjp hl
  obtain ⟨it', hit', e⟩ := List.mem_map.1 hj
  obtain ⟨d', hd', hsee'⟩ := all_mem hs it' ((List.mem_filter.1 hit').1)
  obtain ⟨hk', hp'⟩ := see_ptr hsee'
  refine ⟨it', (List.mem_filter.1 hit').1, d', hd', hsee', by rw [e], ?_, by rw [e]; exact hjp, by rw [e]; exact hl⟩
  rw [e] at hp'
  rw [hjp] at hp'
  exact (Option.some.inj hp').symm

/-! ## Containers -/

/-- The way from a node to the definition and back. -/
def Found (f : File) (fuel : Nat) (k : Key) (n : Node) : Prop := ∃ id, f.toDef fuel k n.ptr = .ok id ∧ f.source id = .ok n

theorem source_item {k : Key} {i : Nat} {n : Node} (hp : f.ptrOf k i = some n.ptr) (hn : n.ptr.toNode f.root = some n) :
    f.source (.item k i) = .ok n := by
  simp [File.source, hp, hn, Out.expect]

theorem findContainer_climb {n : Node} {anc : List Node} (hl : locate n.ptr [] f.root = some (n, anc)) (fuel : Nat) :
    f.findContainer (fuel + 1) n.ptr = climb (f.toDefWith (f.findContainer fuel)) anc := by
  rw [File.findContainer, hl]

/-- A declaration that belongs to the file itself. -/
theorem toDef_file (h : Ready f) {n : Node} {anc : List Node} (hl : locate n.ptr [] f.root = some (n, anc)) (fuel : Nat)
    (hc : climb (f.toDefWith (f.findContainer fuel)) anc = .ok .file) {d : Decl} (hd : d ∈ fileDecls f) (hat : declAt d = n.ptr) :
    ∃ it ∈ f.tree.top, ∃ d' ∈ fileDecls f, see f.ids f.tree it = some d' ∧ keyOf it = (declKey d, (keyOf it).2) ∧ declAt d' = n.ptr ∧
      f.ptrOf (declKey d) (keyOf it).2 = some n.ptr ∧ f.toDef (fuel + 1) (declKey d) n.ptr = .ok (.item (declKey d) (keyOf it).2) := by
  obtain ⟨m, h1, h2⟩ := file_lookup h
  obtain ⟨it, hit, d', hd', hs, hk, ha, hp, hlk⟩ := h2 d hd
  rw [hat] at ha hp hlk
  refine ⟨it, hit, d', hd', hs, hk, ha, hp, ?_⟩
  simp [File.toDef, File.toDefWith, findContainer_climb hl, hc, Out.bind, File.mapOf, h1, Out.expect, hlk, Out.ofOption]

theorem found_file (h : Ready f) {n : Node} {anc : List Node} (hl : locate n.ptr [] f.root = some (n, anc)) (hn : n.ptr.toNode f.root = some n)
    (fuel : Nat) (hc : climb (f.toDefWith (f.findContainer fuel)) anc = .ok .file) {d : Decl} (hd : d ∈ fileDecls f) (hat : declAt d = n.ptr) :
    Found f (fuel + 1) (declKey d) n := by
  obtain ⟨it, _, _, _, _, _, _, hp, ht⟩ := toDef_file h hl fuel hc hd hat
  exact ⟨_, ht, source_item hp hn⟩

theorem below_child {root c : Node} (h : c ∈ root.children) : Below root [root] c := .child .root h

theorem climb_root (h : Ready f) (todef : Key → Ptr → Out Id) : climb todef [f.root] = .ok .file := by
  simp [climb, h.root, roleOf]

theorem mem_fileDecls {c : Node} {d : Decl} (hc : c ∈ f.root.children) (hd : d ∈ declsOf f.syn (anonOf (AstIdMap.ofTree f.root)) c) : d ∈ fileDecls f := by
  simp only [fileDecls, Items.Spec.decls, List.mem_append, List.mem_flatMap]
  exact .inl ⟨c, hc, hd⟩

/-- A methodmap declared in the file is found with its own members. -/
theorem methodmap_found (h : Ready f) {e en : Node} (he : e ∈ f.root.children) (hk : e.kind = .methodmap) (hnm : f.syn.field .name e = some en)
    (hne : e.s < e.e) (fuel : Nat) : ∃ j x, f.toDef (fuel + 1) .methodmap e.ptr = .ok (.item .methodmap j) ∧ f.tree.methodmaps[j]? = some x ∧
      all (seeMmItem f.ids f.tree) x.items = some (e.children.filterMap (mmMemberOf f.syn)) := by
  obtain ⟨hl, _⟩ := located (below_child he) h.wf hne (by intro a ha; simp only [List.mem_singleton] at ha; subst ha; rw [h.root, hk]; decide)
  obtain ⟨it, hit, d', hd', hs, hkey, hat, hptr, ht⟩ := toDef_file h hl fuel (climb_root h _)
    (d := .methodmap (f.syn.text en) ((f.syn.field .inherits e).map f.syn.text) (e.children.filterMap (mmMemberOf f.syn)) e.ptr)
    (mem_fileDecls he (by simp [declsOf, hk, hnm])) rfl
  cases it <;> simp only [keyOf, declKey, Prod.mk.injEq, reduceCtorEq, false_and] at hkey
  case methodmap j =>
    refine ⟨j, ?_⟩
    simp only [see, Option.bind_eq_bind, Option.bind_eq_some_iff] at hs
    obtain ⟨x, hx, ms, hms, p, hp, e'⟩ := hs
    simp only [Option.some.injEq] at e'
    refine ⟨x, ht, hx, ?_⟩
    rw [hms]
    subst e'
    simp only [declAt] at hat
    subst hat
    rcases decl_source hd' with ⟨c, hc, hcd⟩ | ⟨c, _, hcd⟩
    · unfold declsOf at hcd
      split at hcd
      case h_7 =>
        simp only [Option.mem_toList, Option.map_eq_some_iff, Decl.methodmap.injEq] at hcd
        obtain ⟨_, _, _, _, hmem, hpc⟩ := hcd
        rw [← hmem, child_eq h.wf he hc hne hpc.symm]
      all_goals
        simp only [Option.mem_toList, Option.map_eq_some_iff, Option.bind_eq_some_iff, List.mem_append, List.mem_map, List.mem_singleton, List.mem_filterMap, varOf,
          List.not_mem_nil, reduceCtorEq, and_false, exists_false, or_false] at hcd
    · simp [macroOf] at hcd

/-- An enum struct declared in the file is found with its own members. -/
theorem enumStruct_found (h : Ready f) {e en : Node} (he : e ∈ f.root.children) (hk : e.kind = .enum_struct) (hnm : f.syn.field .name e = some en)
    (hne : e.s < e.e) (fuel : Nat) : ∃ j x, f.toDef (fuel + 1) .enumStruct e.ptr = .ok (.item .enumStruct j) ∧ f.tree.enumStructs[j]? = some x ∧
      all (seeEsItem f.ids f.tree) x.items = some (e.children.filterMap (esMemberOf f.syn)) := by
  obtain ⟨hl, _⟩ := located (below_child he) h.wf hne (by intro a ha; simp only [List.mem_singleton] at ha; subst ha; rw [h.root, hk]; decide)
  obtain ⟨it, hit, d', hd', hs, hkey, hat, hptr, ht⟩ := toDef_file h hl fuel (climb_root h _)
    (d := .enumStruct (f.syn.text en) (e.children.filterMap (esMemberOf f.syn)) e.ptr)
    (mem_fileDecls he (by simp [declsOf, hk, hnm])) rfl
  cases it <;> simp only [keyOf, declKey, Prod.mk.injEq, reduceCtorEq, false_and] at hkey
  case enumStruct j =>
    refine ⟨j, ?_⟩
    simp only [see, Option.bind_eq_bind, Option.bind_eq_some_iff] at hs
    obtain ⟨x, hx, ms, hms, p, hp, e'⟩ := hs
    simp only [Option.some.injEq] at e'
    refine ⟨x, ht, hx, ?_⟩
    rw [hms]
    subst e'
    simp only [declAt] at hat
    subst hat
    rcases decl_source hd' with ⟨c, hc, hcd⟩ | ⟨c, _, hcd⟩
    · unfold declsOf at hcd
      split at hcd
      case h_6 =>
        simp only [Option.mem_toList, Option.map_eq_some_iff, Decl.enumStruct.injEq] at hcd
        obtain ⟨_, _, _, hmem, hpc⟩ := hcd
        rw [← hmem, child_eq h.wf he hc hne hpc.symm]
      all_goals
        simp only [Option.mem_toList, Option.map_eq_some_iff, Option.bind_eq_some_iff, List.mem_append, List.mem_map, List.mem_singleton, List.mem_filterMap, varOf,
          List.not_mem_nil, reduceCtorEq, and_false, exists_false, or_false] at hcd
    · simp [macroOf] at hcd

theorem inherit_ok (h : Ready f) (i : Nat) : ∃ m, (f.inherited i).foldlM f.inherit [] = some m := by
  have : ∀ (l : List Inherited) (m : Map), (∀ x ∈ l, x.ast < f.ids.arena.length) → ∃ m', l.foldlM f.inherit m = some m' := by
    intro l
    induction l with
    | nil => intro m _; exact ⟨m, rfl⟩
    | cons x l ih =>
      intro m hx
      have hlt := hx x (List.mem_cons_self)
      have : f.ids.get x.ast = some f.ids.arena[x.ast] := by simp [AstIdMap.get, hlt]
      obtain ⟨m', hm⟩ := ih (((x.key, f.ids.arena[x.ast]), .foreign x.id) :: m) (fun y hy => hx y (List.mem_cons_of_mem _ hy))
      exact ⟨m', by simp only [List.foldlM_cons, File.inherit, this, Option.map_some, Option.bind_eq_bind, Option.bind_some]; exact hm⟩
  exact this _ _ (h.fits i)

theorem seeMm_inserts {it : MmItem} {d : DMmMember} (h : seeMmItem f.ids f.tree it = some d) : ∀ x ∈ mmInserts f.tree it, ∃ p, f.ptrOf x.1 x.2 = some p := by
  intro x hx
  cases it with
  | method i =>
    simp only [seeMmItem, Option.map_eq_some_iff] at h
    obtain ⟨d, hd, _⟩ := h
    simp only [mmInserts, List.mem_singleton] at hx
    subst hx
    exact ⟨_, seeFn_ptr hd⟩
  | property i =>
    simp only [seeMmItem, Option.bind_eq_bind, Option.bind_eq_some_iff] at h
    obtain ⟨y, hy, fs, hfs, p, hp, _⟩ := h
    simp only [mmInserts, hy, Option.map_some, Option.getD_some, List.mem_append, List.mem_map, List.mem_singleton] at hx
    rcases hx with ⟨j, hj, rfl⟩ | rfl
    · obtain ⟨d, _, hd⟩ := all_mem hfs j hj
      exact ⟨_, seeFn_ptr hd⟩
    · exact ⟨p, by simp [File.ptrOf, astOf, hy, hp]⟩

/-- A member of a methodmap is found in the map of the methodmap. -/
theorem mm_lookup (h : Ready f) {e : Node} {j : Nat} {x : Methodmap} (hx : f.tree.methodmaps[j]? = some x)
    (ha : all (seeMmItem f.ids f.tree) x.items = some (e.children.filterMap (mmMemberOf f.syn))) : ∃ m, f.mmMap j = some m ∧
      ∀ it ∈ x.items, ∀ y ∈ mmInserts f.tree it, ∀ p, f.ptrOf y.1 y.2 = some p →
        ∃ i, f.ptrOf y.1 i = some p ∧ m.lookup (y.1, p) = some (.item y.1 i) := by
  obtain ⟨m0, h0⟩ := inherit_ok h j
  obtain ⟨m, h1, h2, _⟩ := inserts_ok f (x.items.flatMap (mmInserts f.tree)) m0 (by
    intro y hy
    obtain ⟨it, hit, hy⟩ := List.mem_flatMap.1 hy
    obtain ⟨d, _, hd⟩ := all_mem ha it hit
    exact seeMm_inserts hd y hy)
  refine ⟨m, by simp [File.mmMap, hx, h0, h1], ?_⟩
  intro it hit y hy p hp
  obtain ⟨i, _, h3, h4⟩ := h2 y (List.mem_flatMap.2 ⟨it, hit, hy⟩) p hp
  exact ⟨i, h3, h4⟩

/-- A definition inside a methodmap, when its map has an entry for its node. -/
theorem found_mm (h : Ready f) {e en n : Node} {anc : List Node} (he : e ∈ f.root.children) (hk : e.kind = .methodmap)
    (hnm : f.syn.field .name e = some en) (hne : e.s < e.e) (fuel : Nat) (hl : locate n.ptr [] f.root = some (n, anc)) (hn : n.ptr.toNode f.root = some n)
    (hc : ∀ todef, climb todef anc = (todef .methodmap e.ptr).bind container) (k : Key)
    (hm : ∀ items, all (seeMmItem f.ids f.tree) items = some (e.children.filterMap (mmMemberOf f.syn)) →
      ∃ it ∈ items, ∃ i, (k, i) ∈ mmInserts f.tree it ∧ f.ptrOf k i = some n.ptr) : Found f (fuel + 2) k n := by
  obtain ⟨j, x, hj, hx, ha⟩ := methodmap_found h he hk hnm hne fuel
  obtain ⟨m, h1, h2⟩ := mm_lookup h hx ha
  obtain ⟨it, hit, i, hi, hp⟩ := hm _ ha
  obtain ⟨i', hp', hlk⟩ := h2 it hit (k, i) hi _ hp
  refine ⟨.item k i', ?_, source_item hp' hn⟩
  have hj' : f.toDefWith (f.findContainer (fuel + 1)) .methodmap e.ptr = .ok (.item .methodmap j) := hj
  rw [File.toDef, File.toDefWith, findContainer_climb hl, hc, hj']
  simp [Out.bind, container, File.mapOf, h1, Out.expect, hlk, Out.ofOption]

/-! ## Enum structs -/

theorem esFirst_ok {es : Nat} {src : List Ptr} : ∀ (items : List EsItem) (idx k : Nat) (m : Map), f.childSource items = some (src.drop k) →
    (∀ i, EsItem.method i ∈ items → ∃ p, f.ptrOf .function i = some p) → ∃ m', f.esFirst es src items idx k m = some m' ∧
      (∀ i, EsItem.method i ∈ items → ∀ p, f.ptrOf .function i = some p →
        ∃ j, EsItem.method j ∈ items ∧ f.ptrOf .function j = some p ∧ m'.lookup (.function, p) = some (.item .function j)) ∧
      (∀ p, (∀ i, EsItem.method i ∈ items → f.ptrOf .function i ≠ some p) → m'.lookup (.function, p) = m.lookup (.function, p)) := by
  intro items
  induction items with
  | nil => intro idx k m _ _; exact ⟨m, rfl, by simp, fun _ _ => rfl⟩
  | cons it items ih =>
    intro idx k m hs hm
    cases it with
    | field i =>
      simp only [File.childSource, Option.bind_eq_bind, Option.bind_eq_some_iff, Option.some.injEq] at hs
      obtain ⟨p, hp, ps, hps, e⟩ := hs
      have hk : src[k]? = some p := by
        have := congrArg (fun l : List Ptr => l[0]?) e
        simpa using this.symm
      have hd : ps = src.drop (k + 1) := by
        have := congrArg List.tail e
        simpa using this
      obtain ⟨m', h1, h2, h3⟩ := ih (idx + 1) (k + 1) (((.field, p), .field es idx) :: m) (hd ▸ hps) (fun i hi => hm i (List.mem_cons_of_mem _ hi))
      refine ⟨m', by simp [File.esFirst, hk, h1], ?_, ?_⟩
      · intro i hi q hq
        rcases List.mem_cons.1 hi with hi | hi
        · cases hi
        · obtain ⟨j, a, b, c⟩ := h2 i hi q hq
          exact ⟨j, List.mem_cons_of_mem _ a, b, c⟩
      · intro q hq
        rw [h3 q (fun i hi => hq i (List.mem_cons_of_mem _ hi)), List.lookup_cons]
        rfl
    | method i =>
      simp only [File.childSource] at hs
      obtain ⟨p, hp⟩ := hm i (List.mem_cons_self)
      obtain ⟨m', h1, h2, h3⟩ := ih (idx + 1) k (((.function, p), .item .function i) :: m) hs (fun i hi => hm i (List.mem_cons_of_mem _ hi))
      refine ⟨m', by simp [File.esFirst, File.insert, hp, h1], ?_, ?_⟩
      · intro i' hi q hq
        rcases List.mem_cons.1 hi with hi | hi
        · cases hi
          rw [hp] at hq; obtain rfl := Option.some.inj hq
          by_cases hz : ∃ z, EsItem.method z ∈ items ∧ f.ptrOf .function z = some p
          · obtain ⟨z, hz, hzp⟩ := hz
            obtain ⟨j, a, b, c⟩ := h2 z hz p hzp
            exact ⟨j, List.mem_cons_of_mem _ a, b, c⟩
          · refine ⟨i, List.mem_cons_self, hp, ?_⟩
            rw [h3 p (fun z hzi hzp => hz ⟨z, hzi, hzp⟩)]
            simp [List.lookup_cons]
        · obtain ⟨j, a, b, c⟩ := h2 i' hi q hq
          exact ⟨j, List.mem_cons_of_mem _ a, b, c⟩
      · intro q hq
        rw [h3 q (fun i hi => hq i (List.mem_cons_of_mem _ hi)), List.lookup_cons]
        have : ((Key.function, q) == (Key.function, p)) = false := by
          rw [beq_eq_false_iff_ne]
          rintro ⟨⟩
          exact hq i (List.mem_cons_self) hp
        rw [this]

theorem esSecond_ok (es : Nat) : ∀ (ps : List Ptr) (k : Nat) (m : Map),
    (∀ p, (esSecond es ps k m).lookup (.function, p) = m.lookup (.function, p)) ∧
    (∀ p, p ∉ ps → (esSecond es ps k m).lookup (.field, p) = m.lookup (.field, p)) ∧
    (∀ p ∈ ps, ∃ j, ps[j]? = some p ∧ (esSecond es ps k m).lookup (.field, p) = some (.field es (k + j))) := by
  intro ps
  induction ps with
  | nil => intro k m; exact ⟨fun _ => rfl, fun _ _ => rfl, by simp⟩
  | cons q ps ih =>
    intro k m
    obtain ⟨h1, h2, h3⟩ := ih (k + 1) (((.field, q), .field es k) :: m)
    refine ⟨?_, ?_, ?_⟩
    · intro p; rw [esSecond, h1, List.lookup_cons]; rfl
    · intro p hp
      simp only [List.mem_cons, not_or] at hp
      rw [esSecond, h2 p hp.2, List.lookup_cons]
      have : ((Key.field, p) == (Key.field, q)) = false := by
        rw [beq_eq_false_iff_ne]
        rintro ⟨⟩
        exact hp.1 rfl
      rw [this]
    · intro p hp
      by_cases hps : p ∈ ps
      · obtain ⟨j, a, b⟩ := h3 p hps
        exact ⟨j + 1, by simpa using a, by rw [esSecond, b]; congr 2; omega⟩
      · rcases List.mem_cons.1 hp with rfl | hp
        · exact ⟨0, rfl, by rw [esSecond, h2 p hps]; simp [List.lookup_cons]⟩
        · exact absurd hp hps

theorem childSource_ok : ∀ (items : List EsItem), (∀ i, EsItem.field i ∈ items → ∃ p, f.ptrOf .field i = some p) →
    ∃ src, f.childSource items = some src ∧ ∀ i, EsItem.field i ∈ items → ∀ p, f.ptrOf .field i = some p → p ∈ src := by
  intro items
  induction items with
  | nil => intro _; exact ⟨[], rfl, by simp⟩
  | cons it items ih =>
    intro h
    obtain ⟨src, h1, h2⟩ := ih (fun i hi => h i (List.mem_cons_of_mem _ hi))
    cases it with
    | method i =>
      refine ⟨src, by simp [File.childSource, h1], ?_⟩
      intro j hj p hp
      rcases List.mem_cons.1 hj with hj | hj
      · cases hj
      · exact h2 j hj p hp
    | field i =>
      obtain ⟨p, hp⟩ := h i (List.mem_cons_self)
      refine ⟨p :: src, by simp [File.childSource, hp, h1], ?_⟩
      intro j hj q hq
      rcases List.mem_cons.1 hj with hj | hj
      · cases hj
        rw [hp] at hq
        obtain rfl := Option.some.inj hq
        exact List.mem_cons_self
      · exact List.mem_cons_of_mem _ (h2 j hj q hq)

theorem seeEs_field {i : Nat} {d : DEsMember} (h : seeEsItem f.ids f.tree (.field i) = some d) : ∃ nm ty p, d = .field nm ty p ∧ f.ptrOf .field i = some p := by
  simp only [seeEsItem, Option.bind_eq_bind, Option.bind_eq_some_iff, Option.some.injEq] at h
  obtain ⟨x, hx, p, hp, e⟩ := h
  exact ⟨_, _, p, e.symm, by simp [File.ptrOf, astOf, hx, hp]⟩

theorem seeEs_method {i : Nat} {d : DEsMember} (h : seeEsItem f.ids f.tree (.method i) = some d) : ∃ g, d = .method g ∧ f.ptrOf .function i = some g.at_ := by
  simp only [seeEsItem, Option.map_eq_some_iff] at h
  obtain ⟨g, hg, e⟩ := h
  exact ⟨g, e.symm, seeFn_ptr hg⟩

/-- The members of an enum struct are found in its map. -/
theorem es_lookup {ms : List DEsMember} {j : Nat} {x : EnumStruct} (hx : f.tree.enumStructs[j]? = some x)
    (ha : all (seeEsItem f.ids f.tree) x.items = some ms) : ∃ m, f.esMap j = some m ∧
      (∀ g, DEsMember.method g ∈ ms → ∃ i, f.ptrOf .function i = some g.at_ ∧ m.lookup (.function, g.at_) = some (.item .function i)) ∧
      (∀ nm ty p, DEsMember.field nm ty p ∈ ms → ∃ i, m.lookup (.field, p) = some (.field j i) ∧
        ((f.tree.enumStructs[j]?).bind fun e => f.childSource e.items).bind (fun src => src[i]?) = some p) := by
  obtain ⟨src, h1, h2⟩ := childSource_ok (f := f) x.items (by
    intro i hi
    obtain ⟨d, _, hd⟩ := all_mem ha _ hi
    obtain ⟨_, _, p, _, hp⟩ := seeEs_field hd
    exact ⟨p, hp⟩)
  obtain ⟨m, h3, h4, _⟩ := esFirst_ok (f := f) (es := j) (src := src) x.items 0 0 [] (by simpa using h1) (by
    intro i hi
    obtain ⟨d, _, hd⟩ := all_mem ha _ hi
    obtain ⟨g, _, hg⟩ := seeEs_method hd
    exact ⟨_, hg⟩)
  obtain ⟨h5, _, h6⟩ := esSecond_ok j src 0 m
  refine ⟨esSecond j src 0 m, by simp [File.esMap, hx, h1, h3], ?_, ?_⟩
  · intro g hg
    obtain ⟨it, hit, hs⟩ := all_mem' ha _ hg
    cases it with
    | field i => obtain ⟨_, _, _, e, _⟩ := seeEs_field hs; cases e
    | method i =>
      obtain ⟨g', e, hp⟩ := seeEs_method hs
      cases e
      obtain ⟨i', _, hp', hl⟩ := h4 i hit _ hp
      exact ⟨i', hp', by rw [h5]; exact hl⟩
  · intro nm ty p hp
    obtain ⟨it, hit, hs⟩ := all_mem' ha _ hp
    cases it with
    | method i => obtain ⟨_, e, _⟩ := seeEs_method hs; cases e
    | field i =>
      obtain ⟨_, _, q, e, hq⟩ := seeEs_field hs
      cases e
      obtain ⟨i', hi', hl⟩ := h6 p (h2 i hit p hq)
      exact ⟨i', by rw [hl, Nat.zero_add], by simp [hx, h1, hi']⟩

/-! ## Declarations -/

theorem mem_nonempty {root n e : Node} (hw : Node.WF root) (he : e ∈ root.children) {path : List Nat} (h : At e path n) (hn : n.s < n.e) : e.s < e.e := by
  obtain ⟨i, hi⟩ := List.getElem?_of_mem he
  obtain ⟨k, s, e', cs⟩ := root
  simp only [Node.WF] at hw
  obtain ⟨hwc, _, _⟩ := Verif.Props.Tree.wfIn_get cs s e' hw.2 i e hi
  obtain ⟨_, h1, h2⟩ := Verif.Props.Tree.at_inside h hwc
  omega

theorem at_child {e n : Node} (h : n ∈ e.children) : ∃ path, At e path n := by
  obtain ⟨i, hi⟩ := List.getElem?_of_mem h
  exact ⟨[i], .child hi .here⟩

theorem isName_self {syn : Syn} {n nm : Node} (h : syn.field .name n = some nm) : isName syn nm n = true := by simp [isName, h]

/-- `n` is found from the node with its name. -/
def Leads (f : File) (fuel : Nat) (name : Node) (anc : List Node) (n : Node) : Prop :=
  ∃ id, f.findNameDef fuel name anc = .ok (.item id) ∧ f.source id = .ok n

theorem leads_of_found {n nm : Node} {anc : List Node} {fuel : Nat} {k : Key} (hnm : f.syn.field .name n = some nm)
    (hk : nameRole n.kind = .def_ k) (hs : n.kind ≠ .methodmap_property_setter ∧ n.kind ≠ .methodmap_property_getter) (h : Found f fuel k n) :
    Leads f fuel nm (n :: anc) n := by
  obtain ⟨id, h1, h2⟩ := h
  refine ⟨id, ?_, h2⟩
  simp [File.findNameDef, isName_self hnm, hs.1, hs.2, File.nameDef, hk, h1, Out.bind]

theorem mem_mm {items : List MmItem} {e n : Node} {d : DMmMember} (ha : all (seeMmItem f.ids f.tree) items = some (e.children.filterMap (mmMemberOf f.syn)))
    (hn : n ∈ e.children) (hm : mmMemberOf f.syn n = some d) : ∃ it ∈ items, seeMmItem f.ids f.tree it = some d :=
  all_mem' ha d (List.mem_filterMap.2 ⟨n, hn, hm⟩)

theorem seeMm_method {it : MmItem} {g : DFn} (h : seeMmItem f.ids f.tree it = some (.method g)) :
    ∃ i, (Key.function, i) ∈ mmInserts f.tree it ∧ f.ptrOf .function i = some g.at_ := by
  cases it with
  | method i =>
    simp only [seeMmItem, Option.map_eq_some_iff, DMmMember.method.injEq] at h
    obtain ⟨_, hg, rfl⟩ := h
    exact ⟨i, List.mem_singleton.2 rfl, seeFn_ptr hg⟩
  | property i =>
    simp only [seeMmItem, Option.bind_eq_bind, Option.bind_eq_some_iff, Option.some.injEq, reduceCtorEq, and_false, exists_false] at h

theorem seeMm_property {it : MmItem} {nm : String} {ty : TypeRef} {fs : List DFn} {p : Ptr} (h : seeMmItem f.ids f.tree it = some (.property nm ty fs p)) :
    (∃ i, (Key.property, i) ∈ mmInserts f.tree it ∧ f.ptrOf .property i = some p) ∧
    ∀ g ∈ fs, ∃ i, (Key.function, i) ∈ mmInserts f.tree it ∧ f.ptrOf .function i = some g.at_ := by
  cases it with
  | method i => simp [seeMmItem] at h
  | property i =>
    simp only [seeMmItem, Option.bind_eq_bind, Option.bind_eq_some_iff, Option.some.injEq, DMmMember.property.injEq] at h
    obtain ⟨y, hy, fs', hfs, q, hq, _, _, rfl, rfl⟩ := h
    refine ⟨⟨i, by simp [mmInserts], by simp [File.ptrOf, astOf, hy, hq]⟩, ?_⟩
    intro g hg
    obtain ⟨j, hj, hs⟩ := all_mem' hfs g hg
    exact ⟨j, by simp only [mmInserts, hy, Option.map_some, Option.getD_some, List.mem_append, List.mem_map]; exact .inl ⟨j, hj, rfl⟩, seeFn_ptr hs⟩

theorem mmMember_at {n nm : Node} (hk : n.kind ∈ methodKinds) (hnm : f.syn.field .name n = some nm) :
    ∃ g, mmMemberOf f.syn n = some (.method g) ∧ g.at_ = n.ptr := by
  simp only [methodKinds, List.mem_cons, List.not_mem_nil, or_false] at hk
  rcases hk with hk | hk | hk | hk | hk | hk <;> exact ⟨_, by simp only [mmMemberOf, hk, methodOf, fnOf, hnm, Option.map_some]; rfl, rfl⟩

mutual
theorem mem_nodes_self : ∀ n : Node, n ∈ nodes n
  | .mk k s e cs => by rw [nodes]; exact List.mem_cons_self
end

theorem mem_nodesIn {c x : Node} : ∀ {cs : List Node}, c ∈ cs → x ∈ nodes c → x ∈ nodesIn cs := by
  intro cs
  induction cs with
  | nil => intro h; simp at h
  | cons d cs ih =>
    intro h hx
    rw [nodesIn]
    rcases List.mem_cons.1 h with rfl | h
    · exact List.mem_append_left _ hx
    · exact List.mem_append_right _ (ih h hx)

theorem mem_nodes_child {r c x : Node} (h : c ∈ r.children) (hx : x ∈ nodes c) : x ∈ nodes r := by
  obtain ⟨k, s, e, cs⟩ := r
  rw [nodes]
  exact List.mem_cons_of_mem _ (mem_nodesIn h hx)

theorem down_nodes {r n : Node} {acc anc : List Node} (h : Down r acc anc n) : n ∈ nodes r := by
  induction h with
  | here => exact mem_nodes_self _
  | child hc _ ih => exact mem_nodes_child hc ih

theorem below_last {root n : Node} {anc : List Node} (h : Below root anc n) : anc = [] ∧ n = root ∨ ∃ l, anc = l ++ [root] := by
  induction h with
  | root => exact .inl ⟨rfl, rfl⟩
  | @child anc n c _ _ ih =>
    rcases ih with ⟨rfl, rfl⟩ | ⟨l, rfl⟩
    · exact .inr ⟨[], rfl⟩
    · exact .inr ⟨n :: l, rfl⟩

theorem climb_plain (todef : Key → Ptr → Out Id) (last : Node) (hl : last.kind = .source_file) : ∀ (l : List Node), (∀ a ∈ l, roleOf a.kind = .other) →
    climb todef (l ++ [last]) = .ok .file := by
  intro l
  induction l with
  | nil => intro _; simp [climb, hl, roleOf]
  | cons a l ih =>
    intro h
    rw [List.cons_append, climb.eq_def]
    simp only [h a (List.mem_cons_self)]
    exact ih (fun b hb => h b (List.mem_cons_of_mem _ hb))

theorem role_other {k : Kind} (h : k ∉ walls) (h' : k ≠ .source_file) : roleOf k = .other := by
  cases k <;> first | rfl | (exact absurd rfl h') | (exact absurd (by decide) h)

/-- From the name in a declaration of a file, going to the definition leads to this declaration: functions, global variables, enums and
their entries, enum structs with their fields and methods, methodmaps with their methods and properties, type definitions, macros. It is
partial: the declaration has to stand where the item tree looks for it (`Declares`; a macro inside a function: `name_refuted`), and the
members other files pass on must not point outside of the table of nodes of this one (C59). -/
theorem declaration_partial (f : File) (h : Ready f) {n nm : Node} {anc : List Node} (hd : Declares f.syn f.root n anc nm) (hn : n.s < n.e) (fuel : Nat) :
    ∃ id, f.findNameDef (fuel + 2) nm (n :: anc) = .ok (.item id) ∧ f.source id = .ok n := by
  cases hd with
  | item hc hk hnm =>
    have hkr : ∀ a ∈ [f.root], a.kind ≠ n.kind := by
      intro a ha e
      simp only [List.mem_singleton] at ha
      subst ha
      rw [h.root] at e
      rw [← e] at hk
      exact absurd hk (by decide)
    obtain ⟨hl, ht⟩ := located (below_child hc) h.wf hn hkr
    simp only [topKinds, List.mem_cons, List.not_mem_nil, or_false] at hk
    have key : ∀ d, d ∈ declsOf f.syn (anonOf (AstIdMap.ofTree f.root)) n → declAt d = n.ptr → Found f (fuel + 1 + 1) (declKey d) n := fun d hd hat =>
      found_file h hl ht (fuel + 1) (climb_root h _) (mem_fileDecls hc hd) hat
    rcases hk with hk | hk | hk | hk | hk | hk | hk | hk
    · exact leads_of_found hnm (by rw [hk]; rfl) (by rw [hk]; decide) (key (.function _) (by simp [declsOf, hk, fnOf, hnm]; rfl) rfl)
    · exact leads_of_found hnm (by rw [hk]; rfl) (by rw [hk]; decide) (key (.function _) (by simp [declsOf, hk, fnOf, hnm]; rfl) rfl)
    · exact leads_of_found hnm (by rw [hk]; rfl) (by rw [hk]; decide) (key (.enum _ _ n.ptr) (by simp [declsOf, hk]; exact ⟨rfl, rfl⟩) rfl)
    · exact leads_of_found hnm (by rw [hk]; rfl) (by rw [hk]; decide) (key (.enumStruct _ _ n.ptr) (by simp [declsOf, hk, hnm]; exact ⟨rfl, rfl⟩) rfl)
    · exact leads_of_found hnm (by rw [hk]; rfl) (by rw [hk]; decide) (key (.methodmap _ _ _ n.ptr) (by simp [declsOf, hk, hnm]; exact ⟨rfl, rfl, rfl⟩) rfl)
    · exact leads_of_found hnm (by rw [hk]; rfl) (by rw [hk]; decide) (key (.typeset _ _ n.ptr) (by simp [declsOf, hk, hnm]; exact ⟨rfl, rfl⟩) rfl)
    · exact leads_of_found hnm (by rw [hk]; rfl) (by rw [hk]; decide) (key (.functag _) (by simp [declsOf, hk, hnm]; rfl) rfl)
    · exact leads_of_found hnm (by rw [hk]; rfl) (by rw [hk]; decide) (key (.funcenum _ _ n.ptr) (by simp [declsOf, hk, hnm]; exact ⟨rfl, rfl⟩) rfl)
  | typedef hc hk hex hty hnm =>
    obtain ⟨ty, hty⟩ := Option.isSome_iff_exists.1 hty
    obtain ⟨hl, ht⟩ := located (below_child hc) h.wf hn (by intro a ha; simp only [List.mem_singleton] at ha; subst ha; rw [h.root, hk]; decide)
    exact leads_of_found hnm (by rw [hk]; rfl) (by rw [hk]; decide)
      (found_file h hl ht (fuel + 1) (climb_root h _) (d := .typedef _) (mem_fileDecls hc (by simp [declsOf, hk, hnm, hex, hty]; rfl)) rfl)
  | @global d _ _ hc hcn hk hnm =>
    obtain ⟨hl, ht⟩ := located (.child (below_child hc) hcn) h.wf hn (by
      intro a ha
      simp only [List.mem_cons, List.not_mem_nil, or_false] at ha
      rcases hk with ⟨hk, hk'⟩ | ⟨hk, hk'⟩ <;> rcases ha with rfl | rfl <;> simp [hk, hk', h.root])
    have hcl : ∀ todef, climb todef [d, f.root] = .ok .file := by
      intro todef
      refine climb_plain todef f.root h.root [d] ?_
      intro a ha
      simp only [List.mem_singleton] at ha
      subst ha
      rcases hk with ⟨hk, _⟩ | ⟨hk, _⟩ <;> rw [hk] <;> rfl
    have hfd : ∃ nm' vis ty, Decl.global nm' vis ty n.ptr ∈ fileDecls f := by
      rcases hk with ⟨hk, hk'⟩ | ⟨hk, hk'⟩
      · exact ⟨_, _, _, mem_fileDecls hc (by simp only [declsOf, hk]; exact List.mem_filterMap.2 ⟨n, List.mem_filter.2 ⟨hcn, by simp [hk']⟩, by simp only [varOf, hnm, Option.map_some]; rfl⟩)⟩
      · exact ⟨_, _, _, mem_fileDecls hc (by simp only [declsOf, hk]; exact List.mem_filterMap.2 ⟨n, List.mem_filter.2 ⟨hcn, by simp [hk']⟩, by simp only [varOf, hnm, Option.map_some]; rfl⟩)⟩
    obtain ⟨nm', vis, ty, hfd⟩ := hfd
    obtain ⟨id, h1, h2⟩ := found_file h hl ht (fuel + 1) (hcl _) hfd rfl
    refine ⟨id, ?_, h2⟩
    simp only [declKey] at h1
    rcases hk with ⟨hk, hk'⟩ | ⟨hk, hk'⟩
    · simp [File.findNameDef, isName_self hnm, hk', hk, File.nameDef, nameRole, h1, Out.bind]
    · simp [File.findNameDef, isName_self hnm, hk', hk, File.nameDef, nameRole, h1, Out.bind]
  | @entry e en _ _ hc hk hen hcn hkn hnm =>
    have hken := h.grammar.entries _ _ hen
    obtain ⟨hl, ht⟩ := located (.child (.child (below_child hc) (h.grammar.child _ _ _ hen)) hcn) h.wf hn (by
      intro a ha
      simp only [List.mem_cons, List.not_mem_nil, or_false] at ha
      rcases ha with rfl | rfl | rfl <;> simp [hk, hkn, h.root, hken])
    have hcl : ∀ todef, climb todef [en, e, f.root] = .ok .file := by
      intro todef
      refine climb_plain todef f.root h.root [en, e] ?_
      intro a ha
      simp only [List.mem_cons, List.not_mem_nil, or_false] at ha
      rcases ha with rfl | rfl
      · rw [hken]; rfl
      · rw [hk]; rfl
    refine leads_of_found hnm (by rw [hkn]; rfl) (by rw [hkn]; decide)
      (found_file h hl ht (fuel + 1) (hcl _) (d := .variant ⟨f.syn.text nm, n.ptr⟩) (mem_fileDecls hc ?_) rfl)
    simp only [declsOf, hk, List.mem_append, List.mem_map, variantsOf, hen, Option.map_some, Option.getD_some]
    exact .inl ⟨_, List.mem_filterMap.2 ⟨n, List.mem_filter.2 ⟨hcn, by simp [hkn]⟩, by simp [variantOf, hnm]⟩, rfl⟩
  | @field e en _ _ hc hk hen hcn hkn hty hnm =>
    obtain ⟨ty, hty⟩ := Option.isSome_iff_exists.1 hty
    obtain ⟨hl, ht⟩ := located (.child (below_child hc) hcn) h.wf hn (by
      intro a ha
      simp only [List.mem_cons, List.not_mem_nil, or_false] at ha
      rcases ha with rfl | rfl <;> simp [hk, hkn, h.root])
    obtain ⟨path, hp⟩ := at_child hcn
    obtain ⟨j, x, hj, hx, ha⟩ := enumStruct_found h hc hk hen (mem_nonempty h.wf hc hp hn) fuel
    obtain ⟨m, h1, _, h2⟩ := es_lookup hx ha
    obtain ⟨i, hlk, hsrc⟩ := h2 (f.syn.text nm) ty n.ptr (List.mem_filterMap.2 ⟨n, hcn, by simp [esMemberOf, hkn, hnm, hty]⟩)
    refine leads_of_found hnm (k := .field) (by rw [hkn]; rfl) (by rw [hkn]; decide) ⟨.field j i, ?_, ?_⟩
    · have hj' : f.toDefWith (f.findContainer (fuel + 1)) .enumStruct e.ptr = .ok (.item .enumStruct j) := hj
      rw [File.toDef, File.toDefWith, findContainer_climb hl]
      simp [climb, hk, roleOf, hj', Out.bind, container, File.mapOf, h1, Out.expect, hlk, Out.ofOption]
    · rw [File.source]
      simp only [Option.bind_eq_some_iff] at hsrc
      obtain ⟨src, ⟨y, hy, hys⟩, hsi⟩ := hsrc
      simp [hy, hys, hsi, ht, Out.expect]
  | @esMethod e en _ _ hc hk hen hcn hkn hnm =>
    obtain ⟨hl, ht⟩ := located (.child (below_child hc) hcn) h.wf hn (by
      intro a ha
      simp only [List.mem_cons, List.not_mem_nil, or_false] at ha
      rcases ha with rfl | rfl <;> simp [hk, hkn, h.root])
    obtain ⟨path, hp⟩ := at_child hcn
    obtain ⟨j, x, hj, hx, ha⟩ := enumStruct_found h hc hk hen (mem_nonempty h.wf hc hp hn) fuel
    obtain ⟨m, h1, h2, _⟩ := es_lookup hx ha
    obtain ⟨i, hptr, hlk⟩ := h2 _ (List.mem_filterMap.2 ⟨n, hcn, by simp only [esMemberOf, hkn, fnOf, hnm, Option.map_some]; rfl⟩)
    refine leads_of_found hnm (k := .function) (by rw [hkn]; rfl) (by rw [hkn]; decide) ⟨.item .function i, ?_, source_item hptr ht⟩
    have hj' : f.toDefWith (f.findContainer (fuel + 1)) .enumStruct e.ptr = .ok (.item .enumStruct j) := hj
    rw [File.toDef, File.toDefWith, findContainer_climb hl]
    simp only at hlk
    simp [climb, hk, roleOf, hj', Out.bind, container, File.mapOf, h1, Out.expect, hlk, Out.ofOption]
  | @method e en _ _ hc hk hen hcn hkn hnm =>
    obtain ⟨hl, ht⟩ := located (.child (below_child hc) hcn) h.wf hn (by
      intro a ha e
      simp only [List.mem_cons, List.not_mem_nil, or_false] at ha
      rw [← e] at hkn
      rcases ha with rfl | rfl
      · rw [hk] at hkn; exact absurd hkn (by decide)
      · rw [h.root] at hkn; exact absurd hkn (by decide))
    obtain ⟨path, hp⟩ := at_child hcn
    obtain ⟨g, hg, hat⟩ := mmMember_at hkn hnm
    refine leads_of_found hnm (k := .function) ?_ ?_ (found_mm h hc hk hen (mem_nonempty h.wf hc hp hn) fuel hl ht (fun todef => by simp [climb, hk, roleOf]) .function ?_)
    · simp only [methodKinds, List.mem_cons, List.not_mem_nil, or_false] at hkn
      rcases hkn with hk | hk | hk | hk | hk | hk <;> rw [hk] <;> rfl
    · simp only [methodKinds, List.mem_cons, List.not_mem_nil, or_false] at hkn
      rcases hkn with hk | hk | hk | hk | hk | hk <;> rw [hk] <;> decide
    · intro items ha
      obtain ⟨it, hit, hs⟩ := mem_mm ha hcn hg
      obtain ⟨i, hi, hpi⟩ := seeMm_method hs
      exact ⟨it, hit, i, hi, by rw [hpi, hat]⟩
  | @property e en _ _ hc hk hen hcn hkn hty hnm =>
    obtain ⟨ty, hty⟩ := Option.isSome_iff_exists.1 hty
    obtain ⟨hl, ht⟩ := located (.child (below_child hc) hcn) h.wf hn (by
      intro a ha
      simp only [List.mem_cons, List.not_mem_nil, or_false] at ha
      rcases ha with rfl | rfl <;> simp [hk, hkn, h.root])
    obtain ⟨path, hp⟩ := at_child hcn
    refine leads_of_found hnm (k := .property) (by rw [hkn]; rfl) (by rw [hkn]; decide)
      (found_mm h hc hk hen (mem_nonempty h.wf hc hp hn) fuel hl ht (fun todef => by simp [climb, hk, roleOf]) .property ?_)
    intro items ha
    obtain ⟨it, hit, hs⟩ := mem_mm ha hcn (show mmMemberOf f.syn n = some (.property (f.syn.text nm) ty (n.children.flatMap (accessorsOf f.syn ty)) n.ptr) by
      simp [mmMemberOf, hkn, propertyOf, hnm, hty])
    obtain ⟨⟨i, hi, hpi⟩, _⟩ := seeMm_property hs
    exact ⟨it, hit, i, hi, hpi⟩
  | macroDef hb hk hw hsf hnm =>
    have hmac : n.kind ∈ walls := by rcases hk with hk | hk <;> rw [hk] <;> decide
    obtain ⟨hl, ht⟩ := located hb h.wf hn (fun a ha e => hw a ha (by rw [e]; exact hmac))
    rcases below_last hb with ⟨_, rfl⟩ | ⟨l, rfl⟩
    · rw [h.root] at hk; simp at hk
    · have hcl : ∀ todef, climb todef (l ++ [f.root]) = .ok .file := fun todef =>
        climb_plain todef f.root h.root l (fun a ha => role_other (hw a (List.mem_append_left _ ha)) (hsf a (by simpa using ha)))
      have hmem : Decl.macroDef (f.syn.text nm) n.ptr ∈ fileDecls f := by
        simp only [fileDecls, Items.Spec.decls, List.mem_append, List.mem_filterMap]
        exact .inr ⟨n, List.mem_filter.2 ⟨down_nodes (down_of_below hb), by rcases hk with hk | hk <;> simp [hk]⟩, by simp [macroOf, hnm]⟩
      exact leads_of_found hnm (by rcases hk with hk | hk <;> rw [hk] <;> rfl) (by rcases hk with hk | hk <;> rw [hk] <;> decide)
        (found_file h hl ht (fuel + 1) (hcl _) hmem rfl)

/-- The same for the getters and setters of properties. -/
theorem accessor_found (h : Ready f) {n g nm : Node} {anc : List Node} (hd : Accessor f.syn f.root n anc g nm) (hn : n.s < n.e) (fuel : Nat) :
    Found f (fuel + 2) .function n := by
  cases hd with
  | @mk e en p pn _ _ _ hc hk hen hcp hkp hty hpn hcn hkn hcg hkg hnm =>
    obtain ⟨ty, hty⟩ := Option.isSome_iff_exists.1 hty
    obtain ⟨hl, ht⟩ := located (.child (.child (below_child hc) hcp) hcn) h.wf hn (by
      intro a ha
      simp only [List.mem_cons, List.not_mem_nil, or_false] at ha
      rcases hkn with hkn | hkn <;> rcases ha with rfl | rfl | rfl <;> simp [hk, hkp, hkn, h.root])
    have hpath : ∃ path, At e path n := by
      obtain ⟨i, hi⟩ := List.getElem?_of_mem hcp
      obtain ⟨path, hp⟩ := at_child hcn
      exact ⟨i :: path, .child hi hp⟩
    obtain ⟨path, hp⟩ := hpath
    refine found_mm h hc hk hen (mem_nonempty h.wf hc hp hn) fuel hl ht (fun todef => by simp [climb, hkp, hk, roleOf]) .function ?_
    intro items ha
    obtain ⟨it, hit, hs⟩ := mem_mm ha hcp (show mmMemberOf f.syn p = some (.property (f.syn.text pn) ty (p.children.flatMap (accessorsOf f.syn ty)) p.ptr) by
      simp [mmMemberOf, hkp, propertyOf, hpn, hty])
    obtain ⟨_, h2⟩ := seeMm_property hs
    have hacc : ∃ d, d ∈ p.children.flatMap (accessorsOf f.syn ty) ∧ d.at_ = n.ptr := by
      have : ∀ kind, ∃ d, accessorOf f.syn ty kind n g = some d ∧ d.at_ = n.ptr := by
        intro kind
        rcases hkg with hkg | ⟨hkg, hpar⟩
        · exact ⟨_, by simp only [accessorOf, hkg, if_true]; rfl, rfl⟩
        · obtain ⟨q, hq⟩ := Option.isSome_iff_exists.1 hpar
          exact ⟨_, by simp only [accessorOf, hkg, if_true, hq, Option.map_some, reduceCtorEq, if_false]; rfl, rfl⟩
      rcases hkn with hkn | hkn
      · obtain ⟨d, hd, hat⟩ := this .definition
        exact ⟨d, List.mem_flatMap.2 ⟨n, hcn, by simp only [accessorsOf, hkn, if_true]; exact List.mem_filterMap.2 ⟨g, hcg, hd⟩⟩, hat⟩
      · obtain ⟨d, hd, hat⟩ := this .native
        exact ⟨d, List.mem_flatMap.2 ⟨n, hcn, by simp only [accessorsOf, hkn, reduceCtorEq, if_false, if_true]; exact List.mem_filterMap.2 ⟨g, hcg, hd⟩⟩, hat⟩
    obtain ⟨d, hd, hat⟩ := hacc
    obtain ⟨i, hi, hpi⟩ := h2 d hd
    exact ⟨it, hit, i, hi, by rw [hpi, hat]⟩

/-- From the word `get` or `set` of an accessor, going to the definition leads to this accessor. -/
theorem accessor_partial (f : File) (h : Ready f) {n g nm : Node} {anc : List Node} (hd : Accessor f.syn f.root n anc g nm) (hn : n.s < n.e) (fuel : Nat) :
    ∃ id, f.findNameDef (fuel + 2) nm (g :: n :: anc) = .ok (.item id) ∧ f.source id = .ok n := by
  obtain ⟨id, h1, h2⟩ := accessor_found h hd hn fuel
  refine ⟨id, ?_, h2⟩
  cases hd with
  | @mk e en p pn _ _ _ hc hk hen hcp hkp hty hpn hcn hkn hcg hkg hnm =>
    have hg : g.kind = .methodmap_property_setter ∨ g.kind = .methodmap_property_getter := hkg.elim .inr (fun x => .inl x.1)
    have hr : nameRole n.kind = .def_ .function := by rcases hkn with hkn | hkn <;> rw [hkn] <;> rfl
    simp only [File.findNameDef, isName_self hnm, if_true, hg, File.nameDef, hr, h1, Out.bind]

theorem callable_role {k : Kind} (h : k ∈ callables) : nameRole k = .def_ .function ∧ roleOf k = .function ∧ k ≠ .methodmap_property_setter ∧
    k ≠ .methodmap_property_getter := by
  cases k <;> first | (exact ⟨rfl, rfl, by decide, by decide⟩) | (exact absurd h (by decide)) | (simp [callables, methodKinds] at h)

theorem declares_name {n nm : Node} {anc : List Node} (h : Declares f.syn f.root n anc nm) : f.syn.field .name n = some nm := by
  cases h <;> assumption

/-- A function, method or accessor is found. -/
theorem callable_found (h : Ready f) {n : Node} {anc : List Node} (hc : Callable f.syn f.root n anc) (hn : n.s < n.e) (fuel : Nat) :
    Found f (fuel + 2) .function n := by
  cases hc with
  | named hd hk =>
    obtain ⟨r1, r2, r3, r4⟩ := callable_role hk
    obtain ⟨id, h1, h2⟩ := declaration_partial f h hd hn fuel
    refine ⟨id, ?_, h2⟩
    simp only [File.findNameDef, isName_self (declares_name hd), if_true, r3, r4, or_self, if_false, File.nameDef, r1] at h1
    cases hto : f.toDef (fuel + 2) .function n.ptr with
    | crash => rw [hto] at h1; simp [Out.bind] at h1
    | nothing => rw [hto] at h1; simp [Out.bind] at h1
    | ok id' => rw [hto] at h1; simp only [Out.bind, Out.ok.injEq, Def.item.injEq] at h1; rw [h1]
  | accessor hd => exact accessor_found h hd hn fuel

def NotLocal (k : Kind) : Prop := k ≠ .parameter_declaration ∧ k ≠ .variable_declaration ∧ k ≠ .old_variable_declaration

instance (k : Kind) : Decidable (NotLocal k) := inferInstanceAs (Decidable (_ ∧ _ ∧ _))

/-- The nodes around it are neither parameters nor variables. -/
theorem callable_around (h : Ready f) {n : Node} {anc : List Node} (hc : Callable f.syn f.root n anc) :
    roleOf n.kind = .function ∧ Below f.root anc n ∧ ∀ a ∈ n :: anc, NotLocal a.kind := by
  have hrk : NotLocal f.root.kind := by rw [h.root]; decide
  cases hc with
  | named hd hk =>
    refine ⟨(callable_role hk).2.1, ?_⟩
    have hnk : NotLocal n.kind := by
      refine ⟨?_, ?_, ?_⟩ <;> intro e <;> rw [e] at hk <;> exact absurd hk (by decide)
    cases hd with
    | item hc _ _ =>
      refine ⟨below_child hc, ?_⟩
      intro a ha
      simp only [List.mem_cons, List.not_mem_nil, or_false] at ha
      rcases ha with rfl | rfl
      · exact hnk
      · exact hrk
    | typedef hc hk' => rw [hk'] at hk; exact absurd hk (by decide)
    | global _ _ hk' => rcases hk' with ⟨_, hk'⟩ | ⟨_, hk'⟩ <;> rw [hk'] at hk <;> exact absurd hk (by decide)
    | entry _ _ _ _ hk' => rw [hk'] at hk; exact absurd hk (by decide)
    | field _ _ _ _ hk' => rw [hk'] at hk; exact absurd hk (by decide)
    | property _ _ _ _ hk' => rw [hk'] at hk; exact absurd hk (by decide)
    | macroDef _ hk' => rcases hk' with hk' | hk' <;> rw [hk'] at hk <;> exact absurd hk (by decide)
    | esMethod hc hke _ hcn =>
      refine ⟨.child (below_child hc) hcn, ?_⟩
      intro a ha
      simp only [List.mem_cons, List.not_mem_nil, or_false] at ha
      rcases ha with rfl | rfl | rfl
      · exact hnk
      · rw [hke]; decide
      · exact hrk
    | method hc hke _ hcn =>
      refine ⟨.child (below_child hc) hcn, ?_⟩
      intro a ha
      simp only [List.mem_cons, List.not_mem_nil, or_false] at ha
      rcases ha with rfl | rfl | rfl
      · exact hnk
      · rw [hke]; decide
      · exact hrk
  | accessor hd =>
    cases hd with
    | @mk e en p pn _ _ _ hc hk hen hcp hkp hty hpn hcn hkn hcg hkg hnm =>
      refine ⟨by rcases hkn with hkn | hkn <;> rw [hkn] <;> rfl, .child (.child (below_child hc) hcp) hcn, ?_⟩
      intro a ha
      simp only [List.mem_cons, List.not_mem_nil, or_false] at ha
      rcases ha with rfl | rfl | rfl | rfl
      · rcases hkn with hkn | hkn <;> rw [hkn] <;> decide
      · rw [hkp]; decide
      · rw [hk]; decide
      · exact hrk

theorem inside_down {n c : Node} {inner : List Node} (h : Inside n inner c) : ∃ acc, Down n [] acc c := by
  induction h with
  | child hc => exact ⟨_, .child hc .here⟩
  | step _ hc ih =>
    obtain ⟨acc, hd⟩ := ih
    exact ⟨_, hd.snoc hc⟩

theorem inside_below {root n c : Node} {inner anc : List Node} (h : Inside n inner c) (hb : Below root anc n) : Below root (inner ++ n :: anc) c := by
  induction h with
  | child hc => exact .child hb hc
  | step _ hc ih => exact .child ih hc

theorem climb_inner (todef : Key → Ptr → Out Id) (rest : List Node) : ∀ (l : List Node), (∀ a ∈ l, roleOf a.kind = .other) →
    climb todef (l ++ rest) = climb todef rest := by
  intro l
  induction l with
  | nil => intro _; rfl
  | cons a l ih =>
    intro h
    rw [List.cons_append, climb.eq_def]
    simp only [h a (List.mem_cons_self)]
    exact ih (fun b hb => h b (List.mem_cons_of_mem _ hb))

/-- From the name in the declaration of a parameter or of a variable in a body, the answer is looked for among the locals of the function,
method or accessor that encloses the declaration, under the node of the declaration. -/
theorem local_partial (f : File) (h : Ready f) {n c nm : Node} {inner anc : List Node} (hc : Callable f.syn f.root n anc) (hi : Inside n inner c)
    (hn : c.s < c.e) (hl : LocalDecl c inner) (hw : ∀ b ∈ inner, b.kind ∉ walls ∧ b.kind ≠ .source_file ∧ b.kind ≠ c.kind)
    (hnm : f.syn.field .name c = some nm) (fuel : Nat) :
    ∃ owner, f.source owner = .ok n ∧
      f.findNameDef (fuel + 3) nm (c :: inner ++ n :: anc) = .ofOption ((f.locals_ owner c.ptr).map (.local_ owner)) := by
  obtain ⟨hr, hb, hk⟩ := callable_around h hc
  have hnn : n.s < n.e := by
    obtain ⟨p, hp⟩ := (down_of_below hb).at_
    obtain ⟨hwn, _⟩ := Verif.Props.Tree.at_inside hp h.wf
    obtain ⟨acc, hd⟩ := inside_down hi
    obtain ⟨q, hq⟩ := hd.at_
    obtain ⟨_, h1, h2⟩ := Verif.Props.Tree.at_inside hq hwn
    omega
  obtain ⟨id, h1, h2⟩ := callable_found h hc hnn fuel
  refine ⟨id, h2, ?_⟩
  have hloc : c.kind = .parameter_declaration ∨ c.kind = .variable_declaration ∨ c.kind = .old_variable_declaration := by
    rcases hl with hl | ⟨hl | hl, _⟩
    · exact .inl hl
    · exact .inr (.inl hl)
    · exact .inr (.inr hl)
  obtain ⟨hlc, _⟩ := located (inside_below hi hb) h.wf hn (by
    intro a ha
    rcases List.mem_append.1 ha with ha | ha
    · exact (hw a ha).2.2
    · obtain ⟨a1, a2, a3⟩ := hk a ha
      rcases hloc with e | e | e <;> rw [e] <;> assumption)
  have hcl : f.findContainer (fuel + 3) c.ptr = .ok (.body id) := by
    rw [findContainer_climb hlc, climb_inner _ _ _ (fun a ha => role_other (hw a ha).1 (hw a ha).2.1), climb.eq_def]
    have h1' : f.toDefWith (f.findContainer (fuel + 2)) .function n.ptr = .ok id := h1
    simp [hr, h1', Out.bind, body]
  have hld : f.localToDef (fuel + 3) c.ptr = .ofOption ((f.locals_ id c.ptr).map (.local_ id)) := by
    simp [File.localToDef, hcl, Out.bind]
  have hset : ¬ (c.kind = .methodmap_property_setter ∨ c.kind = .methodmap_property_getter) := by
    rcases hloc with e | e | e <;> simp [e]
  simp only [List.cons_append, File.findNameDef, isName_self hnm, if_true, hset, if_false, File.nameDef]
  rw [← hld]
  rcases hl with hl | ⟨hl, d, hd, hdk⟩
  · simp [hl, nameRole]
  · have hv : nameRole c.kind = .variable := by rcases hl with hl | hl <;> rw [hl] <;> rfl
    cases inner with
    | nil => simp at hd
    | cons b inner =>
      simp only [List.head?_cons, Option.some.injEq] at hd
      subst hd
      rw [hv]
      rcases hdk with hdk | hdk <;> simp [hdk]

/-! ## Parameters of signatures -/

/-- A typeset declared in the file is found with its own members. -/
theorem typeset_found (h : Ready f) {e en : Node} (he : e ∈ f.root.children) (hk : e.kind = .typeset) (hnm : f.syn.field .name e = some en)
    (hne : e.s < e.e) (fuel : Nat) : ∃ j x, f.toDef (fuel + 1) .typeset e.ptr = .ok (.item .typeset j) ∧ f.tree.typesets[j]? = some x ∧
      all (seeTypedef f.ids f.tree) x.typedefs.indices = some ((e.children.filter (·.kind = .typedef_expression)).filterMap (typesetSigOf f.syn)) := by
  obtain ⟨hl, _⟩ := located (below_child he) h.wf hne (by intro a ha; simp only [List.mem_singleton] at ha; subst ha; rw [h.root, hk]; decide)
  obtain ⟨it, hit, d', hd', hs, hkey, hat, hptr, ht⟩ := toDef_file h hl fuel (climb_root h _)
    (d := .typeset (f.syn.text en) ((e.children.filter (·.kind = .typedef_expression)).filterMap (typesetSigOf f.syn)) e.ptr)
    (mem_fileDecls he (by simp [declsOf, hk, hnm])) rfl
  cases it <;> simp only [keyOf, declKey, Prod.mk.injEq, reduceCtorEq, false_and] at hkey
  case typeset j =>
    refine ⟨j, ?_⟩
    simp only [see, Option.bind_eq_bind, Option.bind_eq_some_iff] at hs
    obtain ⟨x, hx, ms, hms, p, hp, e'⟩ := hs
    simp only [Option.some.injEq] at e'
    refine ⟨x, ht, hx, ?_⟩
    rw [hms]
    subst e'
    simp only [declAt] at hat
    subst hat
    rcases decl_source hd' with ⟨c, hc, hcd⟩ | ⟨c, _, hcd⟩
    · unfold declsOf at hcd
      split at hcd
      case h_9 =>
        simp only [Option.mem_toList, Option.map_eq_some_iff, Decl.typeset.injEq] at hcd
        obtain ⟨_, _, _, hmem, hpc⟩ := hcd
        rw [← hmem, child_eq h.wf he hc hne hpc.symm]
      all_goals
        simp only [Option.mem_toList, Option.map_eq_some_iff, Option.bind_eq_some_iff, List.mem_append, List.mem_map, List.mem_singleton, List.mem_filterMap, varOf,
          List.not_mem_nil, reduceCtorEq, and_false, exists_false, or_false] at hcd
    · simp [macroOf] at hcd

/-- A funcenum declared in the file is found with its own members. -/
theorem funcenum_found (h : Ready f) {e en : Node} (he : e ∈ f.root.children) (hk : e.kind = .funcenum) (hnm : f.syn.field .name e = some en)
    (hne : e.s < e.e) (fuel : Nat) : ∃ j x, f.toDef (fuel + 1) .funcenum e.ptr = .ok (.item .funcenum j) ∧ f.tree.funcenums[j]? = some x ∧
      all (seeFunctag f.ids f.tree) x.functags.indices = some ((e.children.filter (·.kind = .funcenum_member)).map (funcenumSigOf f.syn)) := by
  obtain ⟨hl, _⟩ := located (below_child he) h.wf hne (by intro a ha; simp only [List.mem_singleton] at ha; subst ha; rw [h.root, hk]; decide)
  obtain ⟨it, hit, d', hd', hs, hkey, hat, hptr, ht⟩ := toDef_file h hl fuel (climb_root h _)
    (d := .funcenum (f.syn.text en) ((e.children.filter (·.kind = .funcenum_member)).map (funcenumSigOf f.syn)) e.ptr)
    (mem_fileDecls he (by simp [declsOf, hk, hnm])) rfl
  cases it <;> simp only [keyOf, declKey, Prod.mk.injEq, reduceCtorEq, false_and] at hkey
  case funcenum j =>
    refine ⟨j, ?_⟩
    simp only [see, Option.bind_eq_bind, Option.bind_eq_some_iff] at hs
    obtain ⟨x, hx, ms, hms, p, hp, e'⟩ := hs
    simp only [Option.some.injEq] at e'
    refine ⟨x, ht, hx, ?_⟩
    rw [hms]
    subst e'
    simp only [declAt] at hat
    subst hat
    rcases decl_source hd' with ⟨c, hc, hcd⟩ | ⟨c, _, hcd⟩
    · unfold declsOf at hcd
      split at hcd
      case h_11 =>
        simp only [Option.mem_toList, Option.map_eq_some_iff, Decl.funcenum.injEq] at hcd
        obtain ⟨_, _, _, hmem, hpc⟩ := hcd
        rw [← hmem, child_eq h.wf he hc hne hpc.symm]
      all_goals
        simp only [Option.mem_toList, Option.map_eq_some_iff, Option.bind_eq_some_iff, List.mem_append, List.mem_map, List.mem_singleton, List.mem_filterMap, varOf,
          List.not_mem_nil, reduceCtorEq, and_false, exists_false, or_false] at hcd
    · simp [macroOf] at hcd

theorem seeTypedef_ptr {i : Nat} {d : DSig} (h : seeTypedef f.ids f.tree i = some d) : f.ptrOf .typedef i = some d.at_ := by
  simp only [seeTypedef, Option.bind_eq_bind, Option.bind_eq_some_iff] at h
  obtain ⟨x, hx, _, _, p, hp, e⟩ := h
  simp only [Option.some.injEq] at e
  subst e
  simp [File.ptrOf, astOf, hx, hp]

theorem seeFunctag_ptr {i : Nat} {d : DSig} (h : seeFunctag f.ids f.tree i = some d) : f.ptrOf .functag i = some d.at_ := by
  simp only [seeFunctag, Option.bind_eq_bind, Option.bind_eq_some_iff] at h
  obtain ⟨x, hx, _, _, p, hp, e⟩ := h
  simp only [Option.some.injEq] at e
  subst e
  simp [File.ptrOf, astOf, hx, hp]

/-- A member of a typeset is found. -/
theorem typeset_member (h : Ready f) {e en n : Node} (he : e ∈ f.root.children) (hk : e.kind = .typeset) (hnm : f.syn.field .name e = some en)
    (hne : e.s < e.e) (fuel : Nat) (hl : locate n.ptr [] f.root = some (n, [e, f.root])) (hn : n.ptr.toNode f.root = some n)
    {ms : List DSig} (hms : ms = (e.children.filter (·.kind = .typedef_expression)).filterMap (typesetSigOf f.syn)) (hm : ∃ d ∈ ms, d.at_ = n.ptr) : Found f (fuel + 2) .typedef n := by
  obtain ⟨j, x, hj, hx, ha⟩ := typeset_found h he hk hnm hne fuel
  rw [← hms] at ha
  obtain ⟨d, hd, hat⟩ := hm
  obtain ⟨m, h1, h2, _⟩ := inserts_ok f (x.typedefs.indices.map fun j => (Key.typedef, j)) [] (by
    intro y hy
    obtain ⟨i, hi, rfl⟩ := List.mem_map.1 hy
    obtain ⟨d, _, hd⟩ := all_mem ha i hi
    exact ⟨_, seeTypedef_ptr hd⟩)
  obtain ⟨i, hi, hs⟩ := all_mem' ha d hd
  have hp := seeTypedef_ptr hs
  rw [hat] at hp
  obtain ⟨i', _, hp', hlk⟩ := h2 _ (List.mem_map.2 ⟨i, hi, rfl⟩) _ hp
  refine ⟨.item .typedef i', ?_, source_item hp' hn⟩
  rw [File.toDef, File.toDefWith, findContainer_climb hl]
  have hj' : f.toDefWith (f.findContainer (fuel + 1)) .typeset e.ptr = .ok (.item .typeset j) := hj
  simp only at hlk
  simp [climb, hk, roleOf, hj', Out.bind, container, File.mapOf, File.typesetMap, hx, h1, Out.expect, hlk, Out.ofOption]

/-- A member of a funcenum is found. -/
theorem funcenum_member (h : Ready f) {e en n : Node} (he : e ∈ f.root.children) (hk : e.kind = .funcenum) (hnm : f.syn.field .name e = some en)
    (hne : e.s < e.e) (fuel : Nat) (hl : locate n.ptr [] f.root = some (n, [e, f.root])) (hn : n.ptr.toNode f.root = some n)
    {ms : List DSig} (hms : ms = (e.children.filter (·.kind = .funcenum_member)).map (funcenumSigOf f.syn)) (hm : ∃ d ∈ ms, d.at_ = n.ptr) : Found f (fuel + 2) .functag n := by
  obtain ⟨j, x, hj, hx, ha⟩ := funcenum_found h he hk hnm hne fuel
  rw [← hms] at ha
  obtain ⟨d, hd, hat⟩ := hm
  obtain ⟨m, h1, h2, _⟩ := inserts_ok f (x.functags.indices.map fun j => (Key.functag, j)) [] (by
    intro y hy
    obtain ⟨i, hi, rfl⟩ := List.mem_map.1 hy
    obtain ⟨d, _, hd⟩ := all_mem ha i hi
    exact ⟨_, seeFunctag_ptr hd⟩)
  obtain ⟨i, hi, hs⟩ := all_mem' ha d hd
  have hp := seeFunctag_ptr hs
  rw [hat] at hp
  obtain ⟨i', _, hp', hlk⟩ := h2 _ (List.mem_map.2 ⟨i, hi, rfl⟩) _ hp
  refine ⟨.item .functag i', ?_, source_item hp' hn⟩
  rw [File.toDef, File.toDefWith, findContainer_climb hl]
  have hj' : f.toDefWith (f.findContainer (fuel + 1)) .funcenum e.ptr = .ok (.item .funcenum j) := hj
  simp only at hlk
  simp [climb, hk, roleOf, hj', Out.bind, container, File.mapOf, File.funcenumMap, hx, h1, Out.expect, hlk, Out.ofOption]

/-- The key under which a signature is found. -/
def sigKey (n : Node) : Key := if n.kind = .typedef ∨ n.kind = .typedef_expression then .typedef else .functag

theorem signature_found (h : Ready f) {n : Node} {via anc : List Node} (hs : Signature f.syn f.root n via anc) (hn : n.s < n.e) (fuel : Nat) :
    Found f (fuel + 2) (sigKey n) n := by
  cases hs with
  | typedef hc hk hex hty hnm =>
    obtain ⟨ty, hty⟩ := Option.isSome_iff_exists.1 hty
    obtain ⟨hl, ht⟩ := located (below_child hc) h.wf hn (by intro a ha; simp only [List.mem_singleton] at ha; subst ha; rw [h.root, hk]; decide)
    have := found_file h hl ht (fuel + 1) (climb_root h _) (d := .typedef _) (mem_fileDecls hc (by simp [declsOf, hk, hnm, hex, hty]; rfl)) rfl
    simpa [sigKey, hk, declKey] using this
  | functag hc hk hnm =>
    obtain ⟨hl, ht⟩ := located (below_child hc) h.wf hn (by intro a ha; simp only [List.mem_singleton] at ha; subst ha; rw [h.root, hk]; decide)
    have := found_file h hl ht (fuel + 1) (climb_root h _) (d := .functag _) (mem_fileDecls hc (by simp [declsOf, hk, hnm]; rfl)) rfl
    simpa [sigKey, hk, declKey] using this
  | @typeset e en _ hc hk hen hcn hkn hty =>
    obtain ⟨ty, hty⟩ := Option.isSome_iff_exists.1 hty
    obtain ⟨hl, ht⟩ := located (.child (below_child hc) hcn) h.wf hn (by
      intro a ha
      simp only [List.mem_cons, List.not_mem_nil, or_false] at ha
      rcases ha with rfl | rfl <;> simp [hk, hkn, h.root])
    obtain ⟨path, hp⟩ := at_child hcn
    have := typeset_member h hc hk hen (mem_nonempty h.wf hc hp hn) fuel hl ht rfl
      ⟨_, List.mem_filterMap.2 ⟨n, List.mem_filter.2 ⟨hcn, by simp [hkn]⟩, by simp only [typesetSigOf, hty, Option.map_some]; rfl⟩, rfl⟩
    simpa [sigKey, hkn] using this
  | @funcenum e en _ hc hk hen hcn hkn =>
    obtain ⟨hl, ht⟩ := located (.child (below_child hc) hcn) h.wf hn (by
      intro a ha
      simp only [List.mem_cons, List.not_mem_nil, or_false] at ha
      rcases ha with rfl | rfl <;> simp [hk, hkn, h.root])
    obtain ⟨path, hp⟩ := at_child hcn
    have := funcenum_member h hc hk hen (mem_nonempty h.wf hc hp hn) fuel hl ht rfl
      ⟨_, List.mem_map.2 ⟨n, List.mem_filter.2 ⟨hcn, by simp [hkn]⟩, rfl⟩, rfl⟩
    simpa [sigKey, hkn] using this

theorem signature_around (h : Ready f) {n : Node} {via anc : List Node} (hs : Signature f.syn f.root n via anc) (todef : Key → Ptr → Out Id) :
    climb todef (via ++ n :: anc) = (todef (sigKey n) n.ptr).bind body ∧ Below f.root anc n ∧
      ∀ a ∈ via ++ n :: anc, a.kind ≠ .parameter_declaration := by
  have hrk : f.root.kind ≠ .parameter_declaration := by rw [h.root]; decide
  cases hs with
  | @typedef _ ex nm hc hk hex hty hnm =>
    have hke : ex.kind = .typedef_expression := by simpa using List.find?_some hex
    refine ⟨by simp [climb, hke, hk, roleOf, sigKey], below_child hc, ?_⟩
    intro a ha
    simp only [List.cons_append, List.nil_append, List.mem_cons, List.not_mem_nil, or_false] at ha
    rcases ha with rfl | rfl | rfl
    · rw [hke]; decide
    · rw [hk]; decide
    · exact hrk
  | functag hc hk hnm =>
    refine ⟨by simp [climb, hk, roleOf, sigKey], below_child hc, ?_⟩
    intro a ha
    simp only [List.nil_append, List.mem_cons, List.not_mem_nil, or_false] at ha
    rcases ha with rfl | rfl
    · rw [hk]; decide
    · exact hrk
  | typeset hc hk hen hcn hkn hty =>
    refine ⟨by simp [climb, hk, hkn, roleOf, sigKey], .child (below_child hc) hcn, ?_⟩
    intro a ha
    simp only [List.nil_append, List.mem_cons, List.not_mem_nil, or_false] at ha
    rcases ha with rfl | rfl | rfl
    · rw [hkn]; decide
    · rw [hk]; decide
    · exact hrk
  | funcenum hc hk hen hcn hkn =>
    refine ⟨by simp [climb, hkn, roleOf, sigKey], .child (below_child hc) hcn, ?_⟩
    intro a ha
    simp only [List.nil_append, List.mem_cons, List.not_mem_nil, or_false] at ha
    rcases ha with rfl | rfl | rfl
    · rw [hkn]; decide
    · rw [hk]; decide
    · exact hrk

/-- From the name of a parameter of a typedef, of a functag, or of a member of a typeset or funcenum, the answer is looked for among the parameters of this
signature, under the node of the declaration. -/
theorem signature_partial (f : File) (h : Ready f) {n c nm : Node} {inner via anc : List Node} (hs : Signature f.syn f.root n via anc)
    (hi : Inside n (inner ++ via) c) (hn : c.s < c.e) (hk : c.kind = .parameter_declaration)
    (hw : ∀ b ∈ inner, b.kind ∉ walls ∧ b.kind ≠ .source_file ∧ b.kind ≠ .parameter_declaration) (hnm : f.syn.field .name c = some nm) (fuel : Nat) :
    ∃ owner, f.source owner = .ok n ∧
      f.findNameDef (fuel + 3) nm (c :: inner ++ via ++ n :: anc) = .ofOption ((f.locals_ owner c.ptr).map (.local_ owner)) := by
  obtain ⟨hcl, hb, ha⟩ := signature_around h hs (f.toDefWith (f.findContainer (fuel + 2)))
  have hnn : n.s < n.e := by
    obtain ⟨p, hp⟩ := (down_of_below hb).at_
    obtain ⟨hwn, _⟩ := Verif.Props.Tree.at_inside hp h.wf
    obtain ⟨acc, hd⟩ := inside_down hi
    obtain ⟨q, hq⟩ := hd.at_
    obtain ⟨_, h1, h2⟩ := Verif.Props.Tree.at_inside hq hwn
    omega
  obtain ⟨id, h1, h2⟩ := signature_found h hs hnn fuel
  refine ⟨id, h2, ?_⟩
  have hbc := inside_below hi hb
  rw [List.append_assoc] at hbc
  obtain ⟨hlc, _⟩ := located hbc h.wf hn (by
    intro a hm
    rw [hk]
    rcases List.mem_append.1 hm with hm | hm
    · exact (hw a hm).2.2
    · exact ha a hm)
  have h1' : f.toDefWith (f.findContainer (fuel + 2)) (sigKey n) n.ptr = .ok id := h1
  have hbody : f.findContainer (fuel + 3) c.ptr = .ok (.body id) := by
    rw [findContainer_climb hlc, climb_inner _ _ _ (fun a ha => role_other (hw a ha).1 (hw a ha).2.1), hcl, h1']
    rfl
  simp [File.findNameDef, isName_self hnm, hk, File.nameDef, nameRole, File.localToDef, hbody, Out.bind]

/-- **C87 is violated** for macros defined inside of functions: asking for the definition from such a name panics. -/
theorem macro_inside_crashes (f : File) (h : Ready f) {n c nm : Node} {inner anc : List Node} (hc : Callable f.syn f.root n anc) (hi : Inside n inner c)
    (hn : c.s < c.e) (hm : c.kind = .preproc_macro ∨ c.kind = .preproc_define) (hw : ∀ b ∈ inner, b.kind ∉ walls ∧ b.kind ≠ .source_file)
    (hmac : ∀ a ∈ n :: anc, a.kind ≠ c.kind) (hnm : f.syn.field .name c = some nm) (fuel : Nat) :
    f.findNameDef (fuel + 3) nm (c :: inner ++ n :: anc) = .crash := by
  obtain ⟨hr, hb, hk⟩ := callable_around h hc
  have hnn : n.s < n.e := by
    obtain ⟨p, hp⟩ := (down_of_below hb).at_
    obtain ⟨hwn, _⟩ := Verif.Props.Tree.at_inside hp h.wf
    obtain ⟨acc, hd⟩ := inside_down hi
    obtain ⟨q, hq⟩ := hd.at_
    obtain ⟨_, h1, h2⟩ := Verif.Props.Tree.at_inside hq hwn
    omega
  obtain ⟨id, h1, h2⟩ := callable_found h hc hnn fuel
  have hcw : c.kind ∈ walls := by rcases hm with hm | hm <;> rw [hm] <;> decide
  obtain ⟨hlc, _⟩ := located (inside_below hi hb) h.wf hn (by
    intro a ha
    rcases List.mem_append.1 ha with ha | ha
    · exact fun e => (hw a ha).1 (by rw [e]; exact hcw)
    · exact hmac a ha)
  have hcl : f.findContainer (fuel + 3) c.ptr = .ok (.body id) := by
    rw [findContainer_climb hlc, climb_inner _ _ _ (fun a ha => role_other (hw a ha).1 (hw a ha).2), climb.eq_def]
    have h1' : f.toDefWith (f.findContainer (fuel + 2)) .function n.ptr = .ok id := h1
    simp [hr, h1', Out.bind, body]
  have hset : ¬ (c.kind = .methodmap_property_setter ∨ c.kind = .methodmap_property_getter) := by
    rcases hm with e | e <;> simp [e]
  have hrole : nameRole c.kind = .def_ .macroDef := by rcases hm with e | e <;> rw [e] <;> rfl
  simp only [List.cons_append, File.findNameDef, isName_self hnm, if_true, hset, if_false, File.nameDef, hrole]
  simp [File.toDef, File.toDefWith, hcl, Out.bind, File.mapOf, Out.expect]

/-- **C87 is violated** for names in nodes of other kinds, like the declaration of a struct (`public Plugin myinfo`): the request panics. -/
theorem other_names_crash (f : File) {n nm : Node} {anc : List Node} {k : Nat} (hk : n.kind = .other k) (hnm : f.syn.field .name n = some nm) (fuel : Nat) :
    f.findNameDef fuel nm (n :: anc) = .crash := by
  simp [File.findNameDef, isName_self hnm, hk, File.nameDef, nameRole]

/-! ## A file -/

def nameNode (s : Nat) : Node := .mk (.other 0) s (s + 1) []
def typeNode (s : Nat) : Node := .mk (.other 1) s (s + 1) []

def sampleParam : Node := .mk .parameter_declaration 13 16 [typeNode 13, nameNode 14]
def sampleMacro : Node := .mk .preproc_define 31 34 [nameNode 32]
def sampleVar : Node := .mk .variable_declaration 24 26 [nameNode 24]
def sampleStmt : Node := .mk .variable_declaration_statement 22 28 [typeNode 22, sampleVar]
def sampleBlock : Node := .mk .block 20 38 [sampleStmt, sampleMacro]
/-- `int f(int a) { int v; #define M }` -/
def sampleFn : Node := .mk .function_definition 0 40 [typeNode 0, nameNode 5, .mk .parameter_declarations 10 18 [sampleParam], sampleBlock]
def sampleGetter : Node := .mk .methodmap_property_getter 68 71 [nameNode 69]
def sampleAccessor : Node := .mk .methodmap_property_method 66 72 [sampleGetter]
def sampleProperty : Node := .mk .methodmap_property 60 80 [typeNode 61, nameNode 63, sampleAccessor]
/-- A methodmap with a property with a getter, and a method. -/
def sampleMm : Node := .mk .methodmap 50 99 [nameNode 55, sampleProperty, .mk .methodmap_method 81 90 [nameNode 82]]
def sampleField : Node := .mk .enum_struct_field 111 116 [typeNode 112, nameNode 114]
/-- An enum struct with a method before a field. -/
def sampleEs : Node := .mk .enum_struct 100 120 [nameNode 101, .mk .enum_struct_method 104 110 [nameNode 105], sampleField]
def sampleDefine : Node := .mk .preproc_define 121 125 [nameNode 122]
def sampleRoot : Node := .mk .source_file 0 130 [sampleFn, sampleMm, sampleEs, sampleDefine]

def sampleTree : Tree := (lower Verif.Props.ItemTree.sampleSyn sampleRoot).getD {}

def sampleFile : File where
  syn := Verif.Props.ItemTree.sampleSyn
  root := sampleRoot
  tree := sampleTree
  inherited _ := [⟨.function, 7, 0⟩]
  locals_ _ _ := some 3

theorem sample_lowered : (lower Verif.Props.ItemTree.sampleSyn sampleRoot).isSome = true := by rfl

theorem sampleReady : Ready sampleFile where
  grammar := Verif.Props.ItemTree.sampleGrammar
  wf := by simp [sampleFile, sampleRoot, sampleFn, sampleMm, sampleEs, sampleDefine, sampleBlock, sampleStmt, sampleMacro, sampleVar, sampleParam, sampleGetter,
    sampleAccessor, sampleProperty, sampleField, nameNode, typeNode, Node.WF, WFIn, Node.s, Node.e]
  root := rfl
  placed := by
    intro n hn _
    have : n = sampleMacro ∨ n = sampleDefine := by
      simpa [sampleFile, macroDefs, nodes, nodesIn, Node.kind, sampleRoot, sampleFn, sampleMm, sampleEs, sampleDefine, sampleBlock, sampleStmt, sampleMacro, sampleVar,
        sampleParam, sampleGetter, sampleAccessor, sampleProperty, sampleField, nameNode, typeNode] using hn
    rcases this with rfl | rfl
    · exact ⟨[0, 3, 1], .inside rfl (by decide) (.inside rfl (by decide) (.item rfl (by decide) (by decide)))⟩
    · exact ⟨[3], .item rfl (by decide) (by decide)⟩
  lowered := by
    obtain ⟨t, ht⟩ := Option.isSome_iff_exists.1 sample_lowered
    have h2 : sampleFile.tree = t := by simp [sampleFile, sampleTree, ht]
    rw [h2]; exact ht
  fits := by
    intro i x hx
    simp only [sampleFile, List.mem_singleton] at hx
    subst hx
    show 0 < (AstIdMap.ofTree sampleRoot).arena.length
    decide +kernel

theorem sampleCallable : Callable sampleFile.syn sampleFile.root sampleFn [sampleRoot] :=
  .named (nm := nameNode 5) (.item (by simp [sampleFile, sampleRoot, Node.children]) (by decide) rfl) (by decide)

/-- The sample meets the hypotheses of the theorems: a field behind a method, a getter, a local variable, a macro. -/
example : Ready sampleFile ∧ Declares sampleFile.syn sampleFile.root sampleField [sampleEs, sampleRoot] (nameNode 114) ∧
    Accessor sampleFile.syn sampleFile.root sampleAccessor [sampleProperty, sampleMm, sampleRoot] sampleGetter (nameNode 69) ∧
    Declares sampleFile.syn sampleFile.root sampleDefine [sampleRoot] (nameNode 122) ∧
    Inside sampleFn [sampleStmt, sampleBlock] sampleVar ∧ LocalDecl sampleVar [sampleStmt, sampleBlock] :=
  ⟨sampleReady,
   .field (e := sampleEs) (en := nameNode 101) (by simp [sampleFile, sampleRoot, Node.children]) rfl rfl (by simp [sampleEs, Node.children]) rfl rfl rfl,
   .mk (e := sampleMm) (en := nameNode 55) (p := sampleProperty) (pn := nameNode 63) (by simp [sampleFile, sampleRoot, Node.children]) rfl rfl
     (by simp [sampleMm, Node.children]) rfl rfl rfl (by simp [sampleProperty, Node.children]) (.inl rfl) (by simp [sampleAccessor, Node.children]) (.inl rfl) rfl,
   .macroDef (.child .root (by simp [sampleFile, sampleRoot, Node.children])) (.inr rfl) (by intro a ha; simp only [List.mem_singleton] at ha; subst ha; decide) (by simp) rfl,
   .step (.step (.child (by simp [sampleFn, Node.children])) (by simp [sampleBlock, Node.children])) (by simp [sampleStmt, Node.children]),
   .inr ⟨.inl rfl, sampleStmt, rfl, .inl rfl⟩⟩

/-- **C87 is violated**: in the sample, which defines a macro inside a function, the request for its definition panics. -/
theorem name_refuted : ∃ f n anc nm, Ready f ∧ Below f.root anc n ∧ n.kind = .preproc_define ∧ f.syn.field .name n = some nm ∧
    ∀ fuel, f.findNameDef (fuel + 3) nm (n :: anc) = .crash :=
  ⟨sampleFile, sampleMacro, [sampleBlock, sampleFn, sampleRoot], nameNode 32, sampleReady,
   .child (.child (.child .root (by simp [sampleFile, sampleRoot, Node.children])) (by simp [sampleFn, Node.children])) (by simp [sampleBlock, Node.children]), rfl, rfl,
   fun fuel => macro_inside_crashes sampleFile sampleReady sampleCallable (.step (.child (by simp [sampleFn, Node.children])) (by simp [sampleBlock, Node.children]))
     (by decide) (.inr rfl) (by intro b hb; simp only [List.mem_singleton] at hb; subst hb; decide)
     (by intro a ha; simp only [List.mem_cons, List.not_mem_nil, or_false] at ha; rcases ha with rfl | rfl <;> decide) rfl fuel⟩

/-! ## A file with signatures -/

def sigParam (s : Nat) : Node := .mk .parameter_declaration s (s + 2) [typeNode s, nameNode (s + 1)]
def sigParams (s : Nat) : Node := .mk .parameter_declarations s (s + 4) [sigParam (s + 1)]
def sigExpr (s : Nat) : Node := .mk .typedef_expression s (s + 6) [typeNode s, sigParams (s + 1)]
/-- `typedef F = function int (int a)` -/
def sigTypedef : Node := .mk .typedef 0 10 [nameNode 1, sigExpr 2]
/-- A typeset with two members. -/
def sigTypeset : Node := .mk .typeset 10 30 [nameNode 11, sigExpr 13, sigExpr 20]
def sigFunctag : Node := .mk .functag 30 40 [nameNode 31, sigParams 32]
def sigMember : Node := .mk .funcenum_member 43 49 [sigParams 44]
def sigFuncenum : Node := .mk .funcenum 40 50 [nameNode 41, sigMember]
def sigRoot : Node := .mk .source_file 0 50 [sigTypedef, sigTypeset, sigFunctag, sigFuncenum]

def sigFile : File where
  syn := Verif.Props.ItemTree.sampleSyn
  root := sigRoot
  tree := (lower Verif.Props.ItemTree.sampleSyn sigRoot).getD {}
  inherited _ := []
  locals_ _ _ := some 0

theorem sig_lowered : (lower Verif.Props.ItemTree.sampleSyn sigRoot).isSome = true := by rfl

theorem sigReady : Ready sigFile where
  grammar := Verif.Props.ItemTree.sampleGrammar
  wf := by simp [sigFile, sigRoot, sigTypedef, sigTypeset, sigFunctag, sigMember, sigFuncenum, sigExpr, sigParams, sigParam, nameNode, typeNode, Node.WF, WFIn, Node.s, Node.e]
  root := rfl
  placed := by
    intro n hn _
    simp [sigFile, macroDefs, nodes, nodesIn, Node.kind, sigRoot, sigTypedef, sigTypeset, sigFunctag, sigMember, sigFuncenum, sigExpr, sigParams, sigParam, nameNode,
      typeNode] at hn
  lowered := by
    obtain ⟨t, ht⟩ := Option.isSome_iff_exists.1 sig_lowered
    have h2 : sigFile.tree = t := by simp [sigFile, ht]
    rw [h2]; exact ht
  fits := by
    intro i x hx
    simp [sigFile] at hx

/-- The parameters of the typedef and of the second member of the typeset are found from their names. -/
example (fuel : Nat) :
    (∃ owner, sigFile.source owner = .ok sigTypedef ∧
      sigFile.findNameDef (fuel + 3) (nameNode 5) [sigParam 4, sigParams 3, sigExpr 2, sigTypedef, sigRoot] = .ok (.local_ owner 0)) ∧
    ∃ owner, sigFile.source owner = .ok (sigExpr 20) ∧
      sigFile.findNameDef (fuel + 3) (nameNode 23) [sigParam 22, sigParams 21, sigExpr 20, sigTypeset, sigRoot] = .ok (.local_ owner 0) := by
  have hw : ∀ s, ∀ b ∈ [sigParams s], b.kind ∉ walls ∧ b.kind ≠ .source_file ∧ b.kind ≠ .parameter_declaration := by
    intro s b hb
    simp only [List.mem_singleton] at hb
    subst hb
    exact ⟨by simp [sigParams, Node.kind, walls, methodKinds], by simp [sigParams, Node.kind], by simp [sigParams, Node.kind]⟩
  refine ⟨?_, ?_⟩
  · exact signature_partial sigFile sigReady (n := sigTypedef) (c := sigParam 4) (inner := [sigParams 3])
      (.typedef (nm := nameNode 1) (by simp [sigFile, sigRoot, Node.children]) rfl rfl rfl rfl)
      (.step (.step (.child (by simp [sigTypedef, Node.children])) (by simp [sigExpr, Node.children])) (by simp [sigParams, Node.children])) (by decide) rfl (hw 3) rfl fuel
  · exact signature_partial sigFile sigReady (n := sigExpr 20) (c := sigParam 22) (inner := [sigParams 21])
      (.typeset (e := sigTypeset) (en := nameNode 11) (by simp [sigFile, sigRoot, Node.children]) rfl rfl (by simp [sigTypeset, Node.children]) rfl rfl)
      (.step (.child (by simp [sigExpr, Node.children])) (by simp [sigParams, Node.children])) (by decide) rfl (hw 21) rfl fuel

end Verif.Props.NameDef
