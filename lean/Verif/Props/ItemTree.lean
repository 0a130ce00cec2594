import Verif.Hir.ItemTree
import Verif.Props.Tree

namespace Verif.Props.ItemTree

open Verif.Hir Verif.Hir.Items Verif.Hir.Items.Spec Verif.Hir.Spec

/-! ## Arenas only grow -/

structure Le (t t' : Tree) : Prop where
  functions : t.functions <+: t'.functions
  variables : t.variables <+: t'.variables
  macros : t.macros <+: t'.macros
  enumStructs : t.enumStructs <+: t'.enumStructs
  fields : t.fields <+: t'.fields
  methodmaps : t.methodmaps <+: t'.methodmaps
  properties : t.properties <+: t'.properties
  params : t.params <+: t'.params
  enums : t.enums <+: t'.enums
  typedefs : t.typedefs <+: t'.typedefs
  typesets : t.typesets <+: t'.typesets
  functags : t.functags <+: t'.functags
  funcenums : t.funcenums <+: t'.funcenums
  variants : t.variants <+: t'.variants

theorem Le.refl (t : Tree) : Le t t := by constructor <;> exact List.prefix_refl _

theorem Le.trans {a b c : Tree} (h : Le a b) (h' : Le b c) : Le a c :=
  ⟨h.1.trans h'.1, h.2.trans h'.2, h.3.trans h'.3, h.4.trans h'.4, h.5.trans h'.5, h.6.trans h'.6, h.7.trans h'.7, h.8.trans h'.8,
   h.9.trans h'.9, h.10.trans h'.10, h.11.trans h'.11, h.12.trans h'.12, h.13.trans h'.13, h.14.trans h'.14⟩

theorem get_mono {α : Type} {l l' : List α} (h : l <+: l') {i : Nat} {a : α} (ha : l[i]? = some a) : l'[i]? = some a := by
  obtain ⟨x, rfl⟩ := h
  obtain ⟨hi, rfl⟩ := List.getElem?_eq_some_iff.1 ha
  rw [List.getElem?_append_left hi]; exact ha

theorem all_mono {α β : Type} {f g : α → Option β} : ∀ (as : List α) {bs : List β}, (∀ a b, f a = some b → g a = some b) → all f as = some bs → all g as = some bs := by
  intro as
  induction as with
  | nil => intro bs _ h; exact h
  | cons a as ih =>
    intro bs hfg h
    simp only [all, Option.bind_eq_bind, Option.bind_eq_some_iff] at h ⊢
    obtain ⟨b, hb, cs, hcs, h⟩ := h
    exact ⟨b, hfg _ _ hb, cs, ih hfg hcs, h⟩

theorem all_append {α β : Type} {f : α → Option β} : ∀ (as as' : List α) {bs bs' : List β}, all f as = some bs → all f as' = some bs' →
    all f (as ++ as') = some (bs ++ bs') := by
  intro as
  induction as with
  | nil => intro as' bs bs' h h'; simp only [all, Option.some.injEq] at h; subst h; exact h'
  | cons a as ih =>
    intro as' bs bs' h h'
    simp only [all, Option.bind_eq_bind, Option.bind_eq_some_iff, List.cons_append] at h ⊢
    obtain ⟨b, hb, cs, hcs, h⟩ := h
    cases h
    exact ⟨b, hb, _, ih _ hcs h', rfl⟩

theorem indices_append {a b c : Nat} (h : a ≤ b) (h' : b ≤ c) : Range.indices ⟨a, c⟩ = Range.indices ⟨a, b⟩ ++ Range.indices ⟨b, c⟩ := by
  unfold Range.indices
  have := @List.range'_append_1 a (b - a) (c - b)
  have e : a + (b - a) = b := by omega
  have e' : b - a + (c - b) = c - a := by omega
  rw [e, e'] at this
  exact this.symm

theorem indices_self (a : Nat) : Range.indices ⟨a, a⟩ = [] := by simp [Range.indices]

theorem indices_succ (a : Nat) : Range.indices ⟨a, a + 1⟩ = [a] := by simp [Range.indices]

variable {m : AstIdMap}

theorem seeParam_mono {t t' : Tree} (h : Le t t') (i : Nat) (d : DParam) (hd : seeParam m t i = some d) : seeParam m t' i = some d := by
  simp only [seeParam, Option.bind_eq_bind, Option.bind_eq_some_iff] at hd ⊢
  obtain ⟨p, hp, h2⟩ := hd
  exact ⟨p, get_mono h.params hp, h2⟩

theorem seeFn_mono {t t' : Tree} (h : Le t t') (i : Nat) (d : DFn) (hd : seeFn m t i = some d) : seeFn m t' i = some d := by
  simp only [seeFn, Option.bind_eq_bind, Option.bind_eq_some_iff] at hd ⊢
  obtain ⟨p, hp, ps, hps, h2⟩ := hd
  exact ⟨p, get_mono h.functions hp, ps, all_mono _ (seeParam_mono h) hps, h2⟩

theorem seeVariant_mono {t t' : Tree} (h : Le t t') (i : Nat) (d : DVariant) (hd : seeVariant m t i = some d) : seeVariant m t' i = some d := by
  simp only [seeVariant, Option.bind_eq_bind, Option.bind_eq_some_iff] at hd ⊢
  obtain ⟨p, hp, h2⟩ := hd
  exact ⟨p, get_mono h.variants hp, h2⟩

theorem seeTypedef_mono {t t' : Tree} (h : Le t t') (i : Nat) (d : DSig) (hd : seeTypedef m t i = some d) : seeTypedef m t' i = some d := by
  simp only [seeTypedef, Option.bind_eq_bind, Option.bind_eq_some_iff] at hd ⊢
  obtain ⟨p, hp, ps, hps, h2⟩ := hd
  exact ⟨p, get_mono h.typedefs hp, ps, all_mono _ (seeParam_mono h) hps, h2⟩

theorem seeFunctag_mono {t t' : Tree} (h : Le t t') (i : Nat) (d : DSig) (hd : seeFunctag m t i = some d) : seeFunctag m t' i = some d := by
  simp only [seeFunctag, Option.bind_eq_bind, Option.bind_eq_some_iff] at hd ⊢
  obtain ⟨p, hp, ps, hps, h2⟩ := hd
  exact ⟨p, get_mono h.functags hp, ps, all_mono _ (seeParam_mono h) hps, h2⟩

theorem seeEsItem_mono {t t' : Tree} (h : Le t t') (i : EsItem) (d : DEsMember) (hd : seeEsItem m t i = some d) : seeEsItem m t' i = some d := by
  cases i with
  | method i =>
    simp only [seeEsItem, Option.map_eq_some_iff] at hd ⊢
    obtain ⟨f, hf, rfl⟩ := hd
    exact ⟨f, seeFn_mono h _ _ hf, rfl⟩
  | field i =>
    simp only [seeEsItem, Option.bind_eq_bind, Option.bind_eq_some_iff] at hd ⊢
    obtain ⟨p, hp, h2⟩ := hd
    exact ⟨p, get_mono h.fields hp, h2⟩

theorem seeMmItem_mono {t t' : Tree} (h : Le t t') (i : MmItem) (d : DMmMember) (hd : seeMmItem m t i = some d) : seeMmItem m t' i = some d := by
  cases i with
  | method i =>
    simp only [seeMmItem, Option.map_eq_some_iff] at hd ⊢
    obtain ⟨f, hf, rfl⟩ := hd
    exact ⟨f, seeFn_mono h _ _ hf, rfl⟩
  | property i =>
    simp only [seeMmItem, Option.bind_eq_bind, Option.bind_eq_some_iff] at hd ⊢
    obtain ⟨p, hp, ps, hps, h2⟩ := hd
    exact ⟨p, get_mono h.properties hp, ps, all_mono _ (seeFn_mono h) hps, h2⟩

theorem see_mono {t t' : Tree} (h : Le t t') (i : FileItem) (d : Decl) (hd : see m t i = some d) : see m t' i = some d := by
  cases i with
  | function i =>
    simp only [see, Option.map_eq_some_iff] at hd ⊢
    obtain ⟨f, hf, rfl⟩ := hd
    exact ⟨f, seeFn_mono h _ _ hf, rfl⟩
  | global i =>
    simp only [see, Option.bind_eq_bind, Option.bind_eq_some_iff] at hd ⊢
    obtain ⟨p, hp, h2⟩ := hd
    exact ⟨p, get_mono h.variables hp, h2⟩
  | enum i =>
    simp only [see, Option.bind_eq_bind, Option.bind_eq_some_iff] at hd ⊢
    obtain ⟨p, hp, ps, hps, h2⟩ := hd
    exact ⟨p, get_mono h.enums hp, ps, all_mono _ (seeVariant_mono h) hps, h2⟩
  | variant i =>
    simp only [see, Option.map_eq_some_iff] at hd ⊢
    obtain ⟨f, hf, rfl⟩ := hd
    exact ⟨f, seeVariant_mono h _ _ hf, rfl⟩
  | enumStruct i =>
    simp only [see, Option.bind_eq_bind, Option.bind_eq_some_iff] at hd ⊢
    obtain ⟨p, hp, ps, hps, h2⟩ := hd
    exact ⟨p, get_mono h.enumStructs hp, ps, all_mono _ (seeEsItem_mono h) hps, h2⟩
  | methodmap i =>
    simp only [see, Option.bind_eq_bind, Option.bind_eq_some_iff] at hd ⊢
    obtain ⟨p, hp, ps, hps, h2⟩ := hd
    exact ⟨p, get_mono h.methodmaps hp, ps, all_mono _ (seeMmItem_mono h) hps, h2⟩
  | typedef i =>
    simp only [see, Option.map_eq_some_iff] at hd ⊢
    obtain ⟨f, hf, rfl⟩ := hd
    exact ⟨f, seeTypedef_mono h _ _ hf, rfl⟩
  | typeset i =>
    simp only [see, Option.bind_eq_bind, Option.bind_eq_some_iff] at hd ⊢
    obtain ⟨p, hp, ps, hps, h2⟩ := hd
    exact ⟨p, get_mono h.typesets hp, ps, all_mono _ (seeTypedef_mono h) hps, h2⟩
  | functag i =>
    simp only [see, Option.map_eq_some_iff] at hd ⊢
    obtain ⟨f, hf, rfl⟩ := hd
    exact ⟨f, seeFunctag_mono h _ _ hf, rfl⟩
  | funcenum i =>
    simp only [see, Option.bind_eq_bind, Option.bind_eq_some_iff] at hd ⊢
    obtain ⟨p, hp, ps, hps, h2⟩ := hd
    exact ⟨p, get_mono h.funcenums hp, ps, all_mono _ (seeFunctag_mono h) hps, h2⟩
  | macroDef i =>
    simp only [see, Option.bind_eq_bind, Option.bind_eq_some_iff] at hd ⊢
    obtain ⟨p, hp, h2⟩ := hd
    exact ⟨p, get_mono h.macros hp, h2⟩

/-! ## Loops -/

theorem fold_ok {D : Type} {f : Tree → Node → Option Tree} {Q : Tree → Tree → List D → Prop} {ds : Node → List D}
    (nil : ∀ t, Q t t []) (append : ∀ t t1 t2 a b, Q t t1 a → Q t1 t2 b → Q t t2 (a ++ b)) :
    ∀ (ns : List Node), (∀ n ∈ ns, ∀ t, ∃ t', f t n = some t' ∧ Q t t' (ds n)) → ∀ t, ∃ t', ns.foldlM f t = some t' ∧ Q t t' (ns.flatMap ds) := by
  intro ns
  induction ns with
  | nil => intro _ t; exact ⟨t, rfl, nil t⟩
  | cons n ns ih =>
    intro h t
    obtain ⟨t1, h1, q1⟩ := h n (by simp) t
    obtain ⟨t2, h2, q2⟩ := ih (fun n hn => h n (by simp [hn])) t1
    refine ⟨t2, ?_, append _ _ _ _ _ q1 q2⟩
    simp only [List.foldlM_cons, h1]
    exact h2

theorem range_append {D : Type} {see : Tree → Nat → Option D} {len : Tree → Nat}
    (mono : ∀ {t t' : Tree}, Le t t' → ∀ i d, see t i = some d → see t' i = some d) {t t1 t2 : Tree} {a b : List D} (h : Le t1 t2)
    (l1 : len t ≤ len t1) (l2 : len t1 ≤ len t2) (ha : all (see t1) (Range.indices ⟨len t, len t1⟩) = some a)
    (hb : all (see t2) (Range.indices ⟨len t1, len t2⟩) = some b) : all (see t2) (Range.indices ⟨len t, len t2⟩) = some (a ++ b) := by
  rw [indices_append l1 l2]
  exact all_append _ _ (all_mono _ (mono h) ha) hb

/-- Parameters were added, and nothing else. -/
def QParam (m : AstIdMap) (t t' : Tree) (ds : List DParam) : Prop :=
  Le t t' ∧ t' = { t with params := t'.params } ∧ all (seeParam m t') (Range.indices ⟨t.params.length, t'.params.length⟩) = some ds

/-- Functions and parameters were added, and nothing else. -/
def QFn (m : AstIdMap) (t t' : Tree) (ds : List DFn) : Prop :=
  Le t t' ∧ t' = { t with params := t'.params, functions := t'.functions } ∧
    all (seeFn m t') (Range.indices ⟨t.functions.length, t'.functions.length⟩) = some ds

def QTypedef (m : AstIdMap) (t t' : Tree) (ds : List DSig) : Prop :=
  Le t t' ∧ t'.top = t.top ∧ all (seeTypedef m t') (Range.indices ⟨t.typedefs.length, t'.typedefs.length⟩) = some ds

def QFunctag (m : AstIdMap) (t t' : Tree) (ds : List DSig) : Prop :=
  Le t t' ∧ t'.top = t.top ∧ all (seeFunctag m t') (Range.indices ⟨t.functags.length, t'.functags.length⟩) = some ds

/-- Items were added at the top level. -/
def QTop (m : AstIdMap) (t t' : Tree) (ds : List Decl) : Prop :=
  Le t t' ∧ ∃ new, t'.top = t.top ++ new ∧ all (see m t') new = some ds

def QVariant (m : AstIdMap) (t t' : Tree) (ds : List DVariant) : Prop :=
  QTop m t t' (ds.map .variant) ∧ all (seeVariant m t') (Range.indices ⟨t.variants.length, t'.variants.length⟩) = some ds

theorem QParam.nil (t : Tree) : QParam m t t [] := ⟨Le.refl t, rfl, by rw [indices_self]; rfl⟩

theorem QParam.append (t t1 t2 : Tree) (a b : List DParam) (h : QParam m t t1 a) (h' : QParam m t1 t2 b) : QParam m t t2 (a ++ b) := by
  obtain ⟨l, e, s⟩ := h
  obtain ⟨l', e', s'⟩ := h'
  refine ⟨l.trans l', ?_, range_append (see := seeParam m) (len := fun t => t.params.length) seeParam_mono l' l.params.length_le l'.params.length_le s s'⟩
  rw [e', e]

theorem QFn.nil (t : Tree) : QFn m t t [] := ⟨Le.refl t, rfl, by rw [indices_self]; rfl⟩

theorem QFn.append (t t1 t2 : Tree) (a b : List DFn) (h : QFn m t t1 a) (h' : QFn m t1 t2 b) : QFn m t t2 (a ++ b) := by
  obtain ⟨l, e, s⟩ := h
  obtain ⟨l', e', s'⟩ := h'
  refine ⟨l.trans l', ?_, range_append (see := seeFn m) (len := fun t => t.functions.length) seeFn_mono l' l.functions.length_le l'.functions.length_le s s'⟩
  rw [e', e]

theorem QTypedef.nil (t : Tree) : QTypedef m t t [] := ⟨Le.refl t, rfl, by rw [indices_self]; rfl⟩

theorem QTypedef.append (t t1 t2 : Tree) (a b : List DSig) (h : QTypedef m t t1 a) (h' : QTypedef m t1 t2 b) : QTypedef m t t2 (a ++ b) := by
  obtain ⟨l, e, s⟩ := h
  obtain ⟨l', e', s'⟩ := h'
  exact ⟨l.trans l', e'.trans e, range_append (see := seeTypedef m) (len := fun t => t.typedefs.length) seeTypedef_mono l' l.typedefs.length_le l'.typedefs.length_le s s'⟩

theorem QFunctag.nil (t : Tree) : QFunctag m t t [] := ⟨Le.refl t, rfl, by rw [indices_self]; rfl⟩

theorem QFunctag.append (t t1 t2 : Tree) (a b : List DSig) (h : QFunctag m t t1 a) (h' : QFunctag m t1 t2 b) : QFunctag m t t2 (a ++ b) := by
  obtain ⟨l, e, s⟩ := h
  obtain ⟨l', e', s'⟩ := h'
  exact ⟨l.trans l', e'.trans e, range_append (see := seeFunctag m) (len := fun t => t.functags.length) seeFunctag_mono l' l.functags.length_le l'.functags.length_le s s'⟩

theorem QTop.nil (t : Tree) : QTop m t t [] := ⟨Le.refl t, [], by simp, rfl⟩

theorem QTop.append (t t1 t2 : Tree) (a b : List Decl) (h : QTop m t t1 a) (h' : QTop m t1 t2 b) : QTop m t t2 (a ++ b) := by
  obtain ⟨l, n, e, s⟩ := h
  obtain ⟨l', n', e', s'⟩ := h'
  exact ⟨l.trans l', n ++ n', by rw [e', e, List.append_assoc], all_append _ _ (all_mono _ (see_mono l') s) s'⟩

theorem QVariant.nil (t : Tree) : QVariant m t t [] := ⟨QTop.nil t, by rw [indices_self]; rfl⟩

theorem QVariant.append (t t1 t2 : Tree) (a b : List DVariant) (h : QVariant m t t1 a) (h' : QVariant m t1 t2 b) : QVariant m t t2 (a ++ b) := by
  obtain ⟨q, s⟩ := h
  obtain ⟨q', s'⟩ := h'
  refine ⟨by rw [List.map_append]; exact QTop.append _ _ _ _ _ q q', ?_⟩
  exact range_append (see := seeVariant m) (len := fun t => t.variants.length) seeVariant_mono q'.1 q.1.variants.length_le q'.1.variants.length_le s s'

/-! ## Ids -/

/-- The node has an id that leads back to it. -/
def Has (m : AstIdMap) (n : Node) : Prop := ∃ id, m.idOf n = some id ∧ m.get id = some n.ptr

theorem Has.of_recorded {root n : Node} {path : List Nat} (h : Recorded root path n) : Has (AstIdMap.ofTree root) n := Verif.Props.Tree.id_found root n path h

/-- A node reached from the root through nodes that hold items. -/
inductive Opens (root : Node) : Node → Prop where
  | root : Opens root root
  | step {n c : Node} : Opens root n → c ∈ n.children → c.kind ∈ holders → Opens root c

theorem Opens.lift {root n : Node} (h : Opens root n) : ∀ {path : List Nat} {x : Node}, Recorded n path x → ∃ path', Recorded root path' x := by
  induction h with
  | root => intro path x hx; exact ⟨path, hx⟩
  | step _ hc hk ih =>
    intro path x hx
    obtain ⟨i, hi⟩ := List.mem_iff_getElem?.1 hc
    exact ih (.inside hi hk hx)

theorem Opens.has {root n c : Node} (h : Opens root n) (hc : c ∈ n.children) (hs : c.kind ≠ .source_file) (hd : c.kind ∉ declLists) :
    Has (AstIdMap.ofTree root) c := by
  obtain ⟨i, hi⟩ := List.mem_iff_getElem?.1 hc
  obtain ⟨p, hp⟩ := h.lift (.item hi hs hd)
  exact Has.of_recorded hp

theorem Opens.hasDecl {root n d c : Node} (h : Opens root n) (hd : d ∈ n.children) (hk : d.kind ∈ declLists) (hc : c ∈ d.children)
    (hck : c.kind ∈ Verif.Hir.Spec.decls) : Has (AstIdMap.ofTree root) c := by
  obtain ⟨i, hi⟩ := List.mem_iff_getElem?.1 hd
  obtain ⟨j, hj⟩ := List.mem_iff_getElem?.1 hc
  obtain ⟨p, hp⟩ := h.lift (.decl hi hk hj hck)
  exact Has.of_recorded hp

/-! ## Each part -/

theorem le_of_params {t t' : Tree} (h : t.params <+: t'.params) (e : t' = { t with params := t'.params }) : Le t t' := by
  rw [e]; constructor <;> first | exact h | exact List.prefix_refl _

variable {syn : Syn}

theorem filterMap_flat {α β : Type} (g : α → Option β) (l : List α) : l.filterMap g = l.flatMap (fun a => (g a).toList) := by
  induction l with
  | nil => rfl
  | cons a l ih => cases h : g a <;> simp [h, ih]

theorem filter_filterMap_flat {α β : Type} (p : α → Bool) (g : α → Option β) (l : List α) :
    (l.filter p).filterMap g = l.flatMap (fun a => if p a then (g a).toList else []) := by
  induction l with
  | nil => rfl
  | cons a l ih => cases hp : p a <;> cases h : g a <;> simp [h, hp, ih]

theorem lowerParam_ok (t : Tree) (n : Node) (hn : n.kind = .parameter_declaration ∨ n.kind = .rest_parameter → Has m n) :
    ∃ t', lowerParam syn m t n = some t' ∧ QParam m t t' (paramOf syn n).toList := by
  by_cases hk : n.kind = .parameter_declaration ∨ n.kind = .rest_parameter
  · obtain ⟨id, hid, hget⟩ := hn hk
    refine ⟨_, by simp only [lowerParam, hk, if_true, hid]; rfl, ?_, rfl, ?_⟩
    · exact le_of_params (List.prefix_append _ _) rfl
    · simp only [List.length_append, List.length_cons, List.length_nil, Nat.zero_add, indices_succ, all, seeParam, Option.bind_eq_bind]
      rcases hk with hk | hk <;> simp [paramOf, hk, hget]
  · refine ⟨t, by simp only [lowerParam, hk, if_false], ?_⟩
    have e : paramOf syn n = none := by
      have h1 : ¬ n.kind = .parameter_declaration := fun h => hk (.inl h)
      have h2 : ¬ n.kind = .rest_parameter := fun h => hk (.inr h)
      simp [paramOf, h1, h2]
    rw [e]; exact QParam.nil t

/-- The parameters of a node whose own children may hold items. -/
theorem lowerParams_ok {root : Node} (G : Grammar syn) (t : Tree) (n : Node) (ho : Opens root n) :
    ∃ t', lowerParams syn (AstIdMap.ofTree root) t n = some (t', ⟨t.params.length, t'.params.length⟩) ∧ QParam (AstIdMap.ofTree root) t t' (paramsOf syn n) := by
  cases hp : syn.field .parameters n with
  | none => exact ⟨t, by simp [lowerParams, hp], by simpa [paramsOf, hp] using QParam.nil t⟩
  | some p =>
    have hk := G.parameters _ _ hp
    have hop : Opens root p := ho.step (G.child _ _ _ hp) (by rw [hk]; decide)
    obtain ⟨t', h1, h2⟩ := fold_ok (f := lowerParam syn (AstIdMap.ofTree root)) (Q := QParam (AstIdMap.ofTree root)) (ds := fun n => (paramOf syn n).toList) QParam.nil QParam.append p.children (by
      intro c hc t
      refine lowerParam_ok t c fun hk => hop.has hc ?_ ?_
      · rcases hk with hk | hk <;> rw [hk] <;> decide
      · rcases hk with hk | hk <;> rw [hk] <;> decide) t
    refine ⟨t', by simp [lowerParams, hp, hk, h1], ?_⟩
    simp only [paramsOf, hp, Option.map_some, Option.getD_some, filterMap_flat]
    exact h2

theorem lowerFn_ok {root : Node} (G : Grammar syn) (vis : Option Vis) (kind : Option FnKind) (special : Option Special) (t : Tree) (n : Node) (ho : Opens root n)
    (hn : Has (AstIdMap.ofTree root) n) :
    ∃ t' i, lowerFn syn (AstIdMap.ofTree root) vis kind special t n = some (t', i) ∧
      QFn (AstIdMap.ofTree root) t t' (fnOf syn (vis.getD (syn.vis n)) (kind.getD (syn.fnKind n)) special n).toList ∧
      i.bind (seeFn (AstIdMap.ofTree root) t') = fnOf syn (vis.getD (syn.vis n)) (kind.getD (syn.fnKind n)) special n ∧
      (i.isSome = (fnOf syn (vis.getD (syn.vis n)) (kind.getD (syn.fnKind n)) special n).isSome) := by
  obtain ⟨t1, h1, q1⟩ := lowerParams_ok G t n ho
  obtain ⟨l1, e1, s1⟩ := q1
  cases hnm : syn.field .name n with
  | none =>
    have ef : t1.functions = t.functions := by rw [e1]
    refine ⟨t1, none, by simp [lowerFn, h1, hnm], ⟨l1, by rw [e1], ?_⟩, by simp [fnOf, hnm], by simp [fnOf, hnm]⟩
    rw [ef, indices_self]; simp [fnOf, hnm, all]
  | some nm =>
    obtain ⟨id, hid, hget⟩ := hn
    let f : Function := { name := syn.text nm, kind := kind.getD (syn.fnKind n), vis := vis.getD (syn.vis n), params := ⟨t.params.length, t1.params.length⟩, special := special, ret := syn.returnType n, astId := id }
    let t2 : Tree := { t1 with functions := t1.functions ++ [f] }
    have l2 : Le t1 t2 := by constructor <;> first | exact List.prefix_append _ _ | exact List.prefix_refl _
    have ef : t1.functions = t.functions := by rw [e1]
    have hs : seeFn (AstIdMap.ofTree root) t2 t1.functions.length = fnOf syn (vis.getD (syn.vis n)) (kind.getD (syn.fnKind n)) special n := by
      have := all_mono _ (seeParam_mono l2) s1
      simp [seeFn, t2, fnOf, hnm, f]
      simp [t2, f] at this
      rw [this]
      simp [hget]
    refine ⟨t2, some t1.functions.length, by simp [lowerFn, h1, hnm, hid, t2, f], ⟨l1.trans l2, ?_, ?_⟩, hs, by simp [fnOf, hnm]⟩
    · show t2 = _
      simp only [t2]
      rw [e1]
    · have : t2.functions.length = t.functions.length + 1 := by simp [t2, ef]
      rw [this, indices_succ, ← ef]
      simp only [all, hs]
      simp [fnOf, hnm]

theorem push {t t1 t2 : Tree} {i : FileItem} {d : Decl} {ds : List Decl} (q : QTop m t t1 ds) (l2 : Le t1 t2)
    (et : t2.top = t1.top ++ [i]) (hs : see m t2 i = some d) : QTop m t t2 (ds ++ [d]) :=
  QTop.append _ _ _ _ _ q ⟨l2, [i], et, by simp [all, hs]⟩

theorem QTop.of_eq {t t' : Tree} (l : Le t t') (e : t'.top = t.top) : QTop m t t' [] := ⟨l, [], by simp [e], rfl⟩

theorem lowerFunction_ok {root : Node} (G : Grammar syn) (t : Tree) (n : Node) (ho : Opens root n) (hn : Has (AstIdMap.ofTree root) n) :
    ∃ t', lowerFunction syn (AstIdMap.ofTree root) t n = some t' ∧
      QTop (AstIdMap.ofTree root) t t' ((fnOf syn (syn.vis n) (syn.fnKind n) none n).map Decl.function).toList := by
  obtain ⟨t1, i, h1, ⟨l1, e1, _⟩, hs, hi⟩ := lowerFn_ok G none none none t n ho hn
  simp only [Option.getD_none] at hs hi
  have et : t1.top = t.top := by rw [e1]
  cases i with
  | none =>
    have hf : fnOf syn (syn.vis n) (syn.fnKind n) none n = none := by simpa using hi.symm
    exact ⟨t1, by simp [lowerFunction, h1], by rw [hf]; exact QTop.of_eq l1 et⟩
  | some i =>
    simp only [Option.bind_some] at hs
    cases hf : fnOf syn (syn.vis n) (syn.fnKind n) none n with
    | none => rw [hf] at hi; simp at hi
    | some f =>
      have l2 : Le t1 { t1 with top := t1.top ++ [.function i] } := by constructor <;> exact List.prefix_refl _
      refine ⟨{ t1 with top := t1.top ++ [.function i] }, by simp [lowerFunction, h1], ?_⟩
      refine push (QTop.of_eq l1 et) l2 rfl ?_
      simp only [see, seeFn_mono l2 _ _ (hs.trans hf), Option.map_some]

theorem lowerVariable_ok (vis : Vis) (ty : Option TypeRef) (t : Tree) (n : Node) (hn : Has m n) :
    ∃ t', lowerVariable syn m vis ty t n = some t' ∧ QTop m t t' (varOf syn vis ty n).toList := by
  cases hnm : syn.field .name n with
  | none => exact ⟨t, by simp [lowerVariable, hnm], by simpa [varOf, hnm] using QTop.nil t⟩
  | some nm =>
    obtain ⟨id, hid, hget⟩ := hn
    refine ⟨_, by simp only [lowerVariable, hnm, hid]; rfl, ?_⟩
    simp only [varOf, hnm, Option.map_some, Option.toList_some]
    refine push (QTop.nil t) ?_ rfl ?_
    · constructor <;> first | exact List.prefix_append _ _ | exact List.prefix_refl _
    · simp [see, hget]

theorem lowerVariant_ok (t : Tree) (n : Node) (hn : n.kind = .enum_entry → Has m n) :
    ∃ t', lowerVariant syn m t n = some t' ∧ QVariant m t t' (if n.kind = .enum_entry then (variantOf syn n).toList else []) := by
  by_cases hk : n.kind = .enum_entry
  · cases hnm : syn.field .name n with
    | none => exact ⟨t, by simp [lowerVariant, hk, hnm], by simpa [variantOf, hnm, hk] using QVariant.nil t⟩
    | some nm =>
      obtain ⟨id, hid, hget⟩ := hn hk
      refine ⟨_, by simp only [lowerVariant, hk, if_true, hnm, hid]; rfl, ?_⟩
      simp only [hk, if_true, variantOf, hnm, Option.map_some, Option.toList_some]
      refine ⟨push (QTop.nil t) ?_ rfl ?_, ?_⟩
      · constructor <;> first | exact List.prefix_append _ _ | exact List.prefix_refl _
      · simp [see, seeVariant, hget]
      · simp [indices_succ, all, seeVariant, hget]
  · exact ⟨t, by simp [lowerVariant, hk], by simpa [hk] using QVariant.nil t⟩

/-- The name an enum without a name gets. -/
def anonOf (m : AstIdMap) (n : Node) : String := unnamed ((m.idOf n).getD 0)

theorem lowerEnum_ok {root : Node} (G : Grammar syn) (t : Tree) (n : Node) (ho : Opens root n) (hn : Has (AstIdMap.ofTree root) n) :
    ∃ t', lowerEnum syn (AstIdMap.ofTree root) t n = some t' ∧ QTop (AstIdMap.ofTree root) t t' ((variantsOf syn n).map .variant ++
      [.enum (((syn.field .name n).map syn.text).getD (anonOf (AstIdMap.ofTree root) n)) (variantsOf syn n) n.ptr]) := by
  have hv : ∃ t1, lowerVariants syn (AstIdMap.ofTree root) t n = some t1 ∧
      QVariant (AstIdMap.ofTree root) t t1 (variantsOf syn n) := by
    unfold lowerVariants
    cases he : syn.field .entries n with
    | none => exact ⟨t, rfl, by simpa [variantsOf, he] using QVariant.nil t⟩
    | some en =>
      have hk := G.entries _ _ he
      have hoe : Opens root en := ho.step (G.child _ _ _ he) (by rw [hk]; decide)
      obtain ⟨t', h1, h2⟩ := fold_ok (f := lowerVariant syn (AstIdMap.ofTree root)) (Q := QVariant (AstIdMap.ofTree root)) (ds := fun n => if n.kind = .enum_entry then (variantOf syn n).toList else [])
        QVariant.nil QVariant.append en.children (by
          intro c hc t
          exact lowerVariant_ok t c fun hk => hoe.has hc (by rw [hk]; decide) (by rw [hk]; decide)) t
      refine ⟨t', h1, ?_⟩
      simp only [variantsOf, he, Option.map_some, Option.getD_some, filter_filterMap_flat]
      simpa using h2
  obtain ⟨t1, h1, q1, s1⟩ := hv
  obtain ⟨id, hid, hget⟩ := hn
  let t2 : Tree := { t1 with enums := t1.enums ++ [{ name := ((syn.field .name n).map syn.text).getD (anonOf (AstIdMap.ofTree root) n), variants := ⟨t.variants.length, t1.variants.length⟩, astId := id }], top := t1.top ++ [.enum t1.enums.length] }
  have l2 : Le t1 t2 := by constructor <;> first | exact List.prefix_append _ _ | exact List.prefix_refl _
  refine ⟨t2, ?_, push q1 l2 rfl ?_⟩
  · unfold lowerEnum
    rw [h1]
    simp only [Option.bind_eq_bind, Option.bind_some, hid, t2]
    cases hnm : syn.field .name n <;> simp [anonOf, hid]
  · have := all_mono _ (seeVariant_mono l2) s1
    simp only [see, t2, List.getElem?_concat_length, Option.bind_eq_bind, Option.bind_some]
    simp only [t2] at this
    rw [this]
    simp [hget]

theorem lowerTypedef_ok {root : Node} (G : Grammar syn) (t : Tree) (n : Node) (ho : Opens root n) (hn : Has (AstIdMap.ofTree root) n) :
    ∃ t', lowerTypedef syn (AstIdMap.ofTree root) t n = some t' ∧ QTop (AstIdMap.ofTree root) t t'
      ((syn.field .name n).bind (fun nm => (n.children.find? (·.kind = .typedef_expression)).bind (fun ex =>
        (syn.returnType ex).map (fun ty => Decl.typedef ⟨some (syn.text nm), paramsOf syn ex, some ty, n.ptr⟩)))).toList := by
  unfold lowerTypedef
  cases hnm : syn.field .name n with
  | none => exact ⟨t, rfl, QTop.nil t⟩
  | some nm =>
    cases hf : n.children.find? (·.kind = .typedef_expression) with
    | none => exact ⟨t, rfl, QTop.nil t⟩
    | some ex =>
      cases hr : syn.returnType ex with
      | none => exact ⟨t, by simp [hr], by simpa [hr] using QTop.nil t⟩
      | some ty =>
        have hk : ex.kind = .typedef_expression := by simpa using List.find?_some hf
        have hoe : Opens root ex := ho.step (List.mem_of_find?_eq_some hf) (by rw [hk]; decide)
        obtain ⟨t1, h1, l1, e1, s1⟩ := lowerParams_ok G t ex hoe
        obtain ⟨id, hid, hget⟩ := hn
        let t2 : Tree := { t1 with typedefs := t1.typedefs ++ [{ name := some (syn.text nm), params := ⟨t.params.length, t1.params.length⟩, type_ := ty, astId := id }], top := t1.top ++ [.typedef t1.typedefs.length] }
        have l2 : Le t1 t2 := by constructor <;> first | exact List.prefix_append _ _ | exact List.prefix_refl _
        refine ⟨t2, by simp [h1, hid, hr, t2], ?_⟩
        simp only [Option.bind_some, hr, Option.map_some, Option.toList_some]
        refine push (QTop.of_eq l1 (by rw [e1])) l2 rfl ?_
        have := all_mono _ (seeParam_mono l2) s1
        simp only [t2] at this
        simp [see, seeTypedef, t2]
        rw [this]
        simp [hget]

theorem lowerTypesetMember_ok {root : Node} (G : Grammar syn) (t : Tree) (n : Node) (ho : n.kind = .typedef_expression → Opens root n ∧ Has (AstIdMap.ofTree root) n) :
    ∃ t', lowerTypesetMember syn (AstIdMap.ofTree root) t n = some t' ∧
      QTypedef (AstIdMap.ofTree root) t t' (if n.kind = .typedef_expression then (typesetSigOf syn n).toList else []) := by
  unfold lowerTypesetMember
  by_cases hk : n.kind = .typedef_expression
  · simp only [hk, if_true]
    cases hr : syn.returnType n with
    | none => exact ⟨t, rfl, by simpa [typesetSigOf, hr] using QTypedef.nil t⟩
    | some ty =>
      obtain ⟨t1, h1, l1, e1, s1⟩ := lowerParams_ok G t n (ho hk).1
      obtain ⟨id, hid, hget⟩ := (ho hk).2
      let t2 : Tree := { t1 with typedefs := t1.typedefs ++ [{ name := none, params := ⟨t.params.length, t1.params.length⟩, type_ := ty, astId := id }] }
      have l2 : Le t1 t2 := by constructor <;> first | exact List.prefix_append _ _ | exact List.prefix_refl _
      have ef : t1.typedefs = t.typedefs := by rw [e1]
      refine ⟨t2, by simp [h1, hid, t2], l1.trans l2, by simp only [t2]; rw [e1], ?_⟩
      have hl : t2.typedefs.length = t1.typedefs.length + 1 := by simp [t2]
      rw [hl, ← ef, indices_succ]
      have := all_mono _ (seeParam_mono l2) s1
      simp [t2] at this
      simp [all, seeTypedef, t2, typesetSigOf, hr]
      rw [this]
      simp [hget]
  · simp only [hk, if_false]
    exact ⟨t, rfl, QTypedef.nil t⟩

theorem lowerTypeset_ok {root : Node} (G : Grammar syn) (t : Tree) (n : Node) (ho : Opens root n) (hn : Has (AstIdMap.ofTree root) n) :
    ∃ t', lowerTypeset syn (AstIdMap.ofTree root) t n = some t' ∧ QTop (AstIdMap.ofTree root) t t'
      ((syn.field .name n).map (fun nm =>
        Decl.typeset (syn.text nm) ((n.children.filter (·.kind = .typedef_expression)).filterMap (typesetSigOf syn)) n.ptr)).toList := by
  unfold lowerTypeset
  cases hnm : syn.field .name n with
  | none => exact ⟨t, rfl, QTop.nil t⟩
  | some nm =>
    obtain ⟨t1, h1, l1, e1, s1⟩ := fold_ok (f := lowerTypesetMember syn (AstIdMap.ofTree root)) (Q := QTypedef (AstIdMap.ofTree root))
      (ds := fun n => if n.kind = .typedef_expression then (typesetSigOf syn n).toList else []) QTypedef.nil QTypedef.append n.children (by
        intro c hc t
        exact lowerTypesetMember_ok G t c fun hk => ⟨ho.step hc (by rw [hk]; decide), ho.has hc (by rw [hk]; decide) (by rw [hk]; decide)⟩) t
    obtain ⟨id, hid, hget⟩ := hn
    let t2 : Tree := { t1 with typesets := t1.typesets ++ [{ name := syn.text nm, typedefs := ⟨t.typedefs.length, t1.typedefs.length⟩, astId := id }], top := t1.top ++ [.typeset t1.typesets.length] }
    have l2 : Le t1 t2 := by constructor <;> first | exact List.prefix_append _ _ | exact List.prefix_refl _
    refine ⟨t2, by simp [h1, hid, t2], ?_⟩
    simp only [Option.map_some, Option.toList_some, filter_filterMap_flat]
    refine push (QTop.of_eq l1 e1) l2 rfl ?_
    have := all_mono _ (seeTypedef_mono l2) s1
    simp only [t2] at this
    simp [see, t2]
    rw [this]
    simp [hget]

theorem lowerFunctag_ok {root : Node} (G : Grammar syn) (t : Tree) (n : Node) (ho : Opens root n) (hn : Has (AstIdMap.ofTree root) n) :
    ∃ t', lowerFunctag syn (AstIdMap.ofTree root) t n = some t' ∧ QTop (AstIdMap.ofTree root) t t'
      ((syn.field .name n).map (fun nm => Decl.functag ⟨some (syn.text nm), paramsOf syn n, syn.returnType n, n.ptr⟩)).toList := by
  unfold lowerFunctag
  cases hnm : syn.field .name n with
  | none => exact ⟨t, rfl, QTop.nil t⟩
  | some nm =>
    obtain ⟨t1, h1, l1, e1, s1⟩ := lowerParams_ok G t n ho
    obtain ⟨id, hid, hget⟩ := hn
    let t2 : Tree := { t1 with functags := t1.functags ++ [{ name := some (syn.text nm), params := ⟨t.params.length, t1.params.length⟩, type_ := syn.returnType n, astId := id }], top := t1.top ++ [.functag t1.functags.length] }
    have l2 : Le t1 t2 := by constructor <;> first | exact List.prefix_append _ _ | exact List.prefix_refl _
    refine ⟨t2, by simp [h1, hid, t2], push (QTop.of_eq l1 (by rw [e1])) l2 rfl ?_⟩
    have := all_mono _ (seeParam_mono l2) s1
    simp only [t2] at this
    simp [see, seeFunctag, t2]
    rw [this]
    simp [hget]

theorem lowerFuncenumMember_ok {root : Node} (G : Grammar syn) (t : Tree) (n : Node) (ho : n.kind = .funcenum_member → Opens root n ∧ Has (AstIdMap.ofTree root) n) :
    ∃ t', lowerFuncenumMember syn (AstIdMap.ofTree root) t n = some t' ∧
      QFunctag (AstIdMap.ofTree root) t t' (if n.kind = .funcenum_member then [funcenumSigOf syn n] else []) := by
  unfold lowerFuncenumMember
  by_cases hk : n.kind = .funcenum_member
  · simp only [hk, if_true]
    obtain ⟨t1, h1, l1, e1, s1⟩ := lowerParams_ok G t n (ho hk).1
    obtain ⟨id, hid, hget⟩ := (ho hk).2
    let t2 : Tree := { t1 with functags := t1.functags ++ [{ name := none, params := ⟨t.params.length, t1.params.length⟩, type_ := syn.returnType n, astId := id }] }
    have l2 : Le t1 t2 := by constructor <;> first | exact List.prefix_append _ _ | exact List.prefix_refl _
    have ef : t1.functags = t.functags := by rw [e1]
    refine ⟨t2, by simp [h1, hid, t2], l1.trans l2, by simp only [t2]; rw [e1], ?_⟩
    have hl : t2.functags.length = t1.functags.length + 1 := by simp [t2]
    rw [hl, ← ef, indices_succ]
    have := all_mono _ (seeParam_mono l2) s1
    simp [t2] at this
    simp [all, seeFunctag, t2, funcenumSigOf]
    rw [this]
    simp [hget]
  · simp only [hk, if_false]
    exact ⟨t, rfl, QFunctag.nil t⟩

theorem filter_map_flat {α β : Type} (p : α → Bool) (g : α → β) (l : List α) :
    (l.filter p).map g = l.flatMap (fun a => if p a then [g a] else []) := by
  induction l with
  | nil => rfl
  | cons a l ih => cases hp : p a <;> simp [hp, ih]

theorem lowerFuncenum_ok {root : Node} (G : Grammar syn) (t : Tree) (n : Node) (ho : Opens root n) (hn : Has (AstIdMap.ofTree root) n) :
    ∃ t', lowerFuncenum syn (AstIdMap.ofTree root) t n = some t' ∧ QTop (AstIdMap.ofTree root) t t'
      ((syn.field .name n).map (fun nm =>
        Decl.funcenum (syn.text nm) ((n.children.filter (·.kind = .funcenum_member)).map (funcenumSigOf syn)) n.ptr)).toList := by
  unfold lowerFuncenum
  cases hnm : syn.field .name n with
  | none => exact ⟨t, rfl, QTop.nil t⟩
  | some nm =>
    obtain ⟨t1, h1, l1, e1, s1⟩ := fold_ok (f := lowerFuncenumMember syn (AstIdMap.ofTree root)) (Q := QFunctag (AstIdMap.ofTree root))
      (ds := fun n => if n.kind = .funcenum_member then [funcenumSigOf syn n] else []) QFunctag.nil QFunctag.append n.children (by
        intro c hc t
        exact lowerFuncenumMember_ok G t c fun hk => ⟨ho.step hc (by rw [hk]; decide), ho.has hc (by rw [hk]; decide) (by rw [hk]; decide)⟩) t
    obtain ⟨id, hid, hget⟩ := hn
    let t2 : Tree := { t1 with funcenums := t1.funcenums ++ [{ name := syn.text nm, functags := ⟨t.functags.length, t1.functags.length⟩, astId := id }], top := t1.top ++ [.funcenum t1.funcenums.length] }
    have l2 : Le t1 t2 := by constructor <;> first | exact List.prefix_append _ _ | exact List.prefix_refl _
    refine ⟨t2, by simp [h1, hid, t2], ?_⟩
    simp only [Option.map_some, Option.toList_some, filter_map_flat]
    refine push (QTop.of_eq l1 e1) l2 rfl ?_
    have := all_mono _ (seeFunctag_mono l2) s1
    simp only [t2] at this
    simp [see, t2]
    rw [this]
    simp [hget]

theorem lowerAccessor_ok {root : Node} (G : Grammar syn) (parent : Node) (ty : TypeRef) (kind : FnKind) (t : Tree) (n : Node) (hc : n ∈ parent.children) (hp : Has (AstIdMap.ofTree root) parent)
    (ho : Opens root parent) :
    ∃ t', lowerAccessor syn (AstIdMap.ofTree root) parent ty kind t n = some t' ∧ QFn (AstIdMap.ofTree root) t t' (accessorOf syn ty kind parent n).toList := by
  unfold lowerAccessor accessorOf
  by_cases hg : n.kind = .methodmap_property_getter
  · simp only [hg, if_true]
    obtain ⟨id, hid, hget⟩ := hp
    refine ⟨_, by simp only [hid, Option.bind_eq_bind, Option.bind_some]; rfl, ?_, rfl, ?_⟩
    · constructor <;> first | exact List.prefix_append _ _ | exact List.prefix_refl _
    · simp [indices_succ, all, seeFn, indices_self, hget]
  · simp only [hg, if_false]
    by_cases hs : n.kind = .methodmap_property_setter
    · simp only [hs, if_true]
      cases hpar : syn.field .parameter n with
      | none => exact ⟨t, rfl, QFn.nil t⟩
      | some p =>
        have hk := G.parameter _ _ hpar
        have hon : Opens root n := ho.step hc (by rw [hs]; decide)
        obtain ⟨pid, hpid, hpget⟩ := hon.has (G.child _ _ _ hpar) (by rw [hk]; decide) (by rw [hk]; decide)
        obtain ⟨id, hid, hget⟩ := hp
        refine ⟨_, by simp only [hpid, hid, Option.bind_eq_bind, Option.bind_some]; rfl, ?_, rfl, ?_⟩
        · constructor <;> first | exact List.prefix_append _ _ | exact List.prefix_refl _
        · simp [indices_succ, all, seeFn, seeParam, hget, hpget]
    · simp only [hs, if_false]
      exact ⟨t, rfl, QFn.nil t⟩

theorem lowerAccessors_ok {root : Node} (G : Grammar syn) (ty : TypeRef) (t : Tree) (p n : Node) (hc : n ∈ p.children) (ho : Opens root p) :
    ∃ t', lowerAccessors syn (AstIdMap.ofTree root) ty t n = some t' ∧ QFn (AstIdMap.ofTree root) t t' (accessorsOf syn ty n) := by
  unfold lowerAccessors accessorsOf
  by_cases h1 : n.kind = .methodmap_property_method
  · simp only [h1, if_true, filterMap_flat]
    exact fold_ok QFn.nil QFn.append n.children (fun c hc' t =>
      lowerAccessor_ok G n ty .definition t c hc' (ho.has hc (by rw [h1]; decide) (by rw [h1]; decide)) (ho.step hc (by rw [h1]; decide))) t
  · by_cases h2 : n.kind = .methodmap_property_native
    · simp only [h2, if_true, filterMap_flat, reduceCtorEq, if_false]
      exact fold_ok QFn.nil QFn.append n.children (fun c hc' t =>
        lowerAccessor_ok G n ty .native t c hc' (ho.has hc (by rw [h2]; decide) (by rw [h2]; decide)) (ho.step hc (by rw [h2]; decide))) t
    · simp only [h1, h2, if_false]
      exact ⟨t, rfl, QFn.nil t⟩

/-- Members were read; nothing was added at the top level. -/
def QMm (m : AstIdMap) (t t' : Tree) (items : List MmItem) (ds : List DMmMember) : Prop :=
  Le t t' ∧ t'.top = t.top ∧ all (seeMmItem m t') items = some ds

def QEs (m : AstIdMap) (t t' : Tree) (items : List EsItem) (ds : List DEsMember) : Prop :=
  Le t t' ∧ t'.top = t.top ∧ all (seeEsItem m t') items = some ds

theorem lowerProperty_ok {root : Node} (G : Grammar syn) (t : Tree) (n : Node) (ho : Opens root n) (hn : Has (AstIdMap.ofTree root) n) :
    ∃ t' items, lowerProperty syn (AstIdMap.ofTree root) t n = some (t', items) ∧ QMm (AstIdMap.ofTree root) t t' items (propertyOf syn n).toList := by
  unfold lowerProperty propertyOf
  cases hnm : syn.field .name n with
  | none => exact ⟨t, [], rfl, Le.refl t, rfl, rfl⟩
  | some nm =>
    cases hty : syn.type_ n with
    | none => exact ⟨t, [], by simp, Le.refl t, rfl, by simp [all]⟩
    | some ty =>
      obtain ⟨t1, h1, l1, e1, s1⟩ := fold_ok (f := lowerAccessors syn (AstIdMap.ofTree root) ty) (Q := QFn (AstIdMap.ofTree root)) (ds := accessorsOf syn ty) QFn.nil QFn.append n.children
        (fun c hc t => lowerAccessors_ok G ty t n c hc ho) t
      obtain ⟨id, hid, hget⟩ := hn
      let t2 : Tree := { t1 with properties := t1.properties ++ [{ name := syn.text nm, accessors := ⟨t.functions.length, t1.functions.length⟩, type_ := ty, astId := id }] }
      have l2 : Le t1 t2 := by constructor <;> first | exact List.prefix_append _ _ | exact List.prefix_refl _
      refine ⟨t2, [.property t1.properties.length], by simp [h1, hid, t2], l1.trans l2, by simp only [t2]; rw [e1], ?_⟩
      have := all_mono _ (seeFn_mono l2) s1
      simp only [t2] at this
      simp [all, seeMmItem, t2]
      rw [this]
      simp [hget]

theorem methodKind_holder {k : Kind} {x : Option FnKind × Option Special} (h : methodKind k = some x) : k ∈ holders ∧ k ≠ .source_file ∧ k ∉ declLists := by
  cases k <;> simp [methodKind] at h <;> decide

theorem mmMember_method (n : Node) (kind : Option FnKind) (special : Option Special) (h : methodKind n.kind = some (kind, special)) :
    mmMemberOf syn n = methodOf syn (kind.getD (syn.fnKind n)) special n := by
  unfold mmMemberOf
  cases hk : n.kind <;> rw [hk] at h <;> simp [methodKind] at h <;> obtain ⟨rfl, rfl⟩ := h <;> rfl

theorem lowerMember_ok {root : Node} (G : Grammar syn) (t : Tree) (p n : Node) (hc : n ∈ p.children) (ho : Opens root p) :
    ∃ t' items, lowerMember syn (AstIdMap.ofTree root) t n = some (t', items) ∧ QMm (AstIdMap.ofTree root) t t' items (mmMemberOf syn n).toList := by
  unfold lowerMember
  by_cases hp : n.kind = .methodmap_property
  · simp only [hp, if_true]
    have := lowerProperty_ok G t n (ho.step hc (by rw [hp]; decide)) (ho.has hc (by rw [hp]; decide) (by rw [hp]; decide))
    simpa only [mmMemberOf, hp] using this
  · simp only [hp, if_false]
    cases hm : methodKind n.kind with
    | none =>
      have : mmMemberOf syn n = none := by
        unfold mmMemberOf
        cases hk : n.kind <;> rw [hk] at hm hp <;> simp [methodKind] at hm hp ⊢
      exact ⟨t, [], rfl, Le.refl t, rfl, by rw [this]; rfl⟩
    | some x =>
      obtain ⟨kind, special⟩ := x
      obtain ⟨hh, hs, hd⟩ := methodKind_holder hm
      obtain ⟨t1, i, h1, ⟨l1, e1, _⟩, hsee, hi⟩ := lowerFn_ok G (some { pub := true, static := syn.hasStatic n }) kind special t n (ho.step hc hh) (ho.has hc hs hd)
      simp only [Option.getD_some] at hsee hi
      rw [mmMember_method n kind special hm, methodOf]
      have et : t1.top = t.top := by rw [e1]
      cases i with
      | none =>
        have hf : fnOf syn { pub := true, static := syn.hasStatic n } (kind.getD (syn.fnKind n)) special n = none := by simpa using hi.symm
        exact ⟨t1, [], by simp [h1], l1, et, by rw [hf]; rfl⟩
      | some i =>
        simp only [Option.bind_some] at hsee
        refine ⟨t1, [.method i], by simp [h1], l1, et, ?_⟩
        cases hf : fnOf syn { pub := true, static := syn.hasStatic n } (kind.getD (syn.fnKind n)) special n with
        | none => rw [hf] at hi; simp at hi
        | some f => simp [all, seeMmItem, hsee, hf]

theorem lowerMembers_ok {root : Node} (G : Grammar syn) (p : Node) (ho : Opens root p) :
    ∀ (ns : List Node), (∀ n ∈ ns, n ∈ p.children) → ∀ (t : Tree) (items : List MmItem) (ds : List DMmMember), all (seeMmItem (AstIdMap.ofTree root) t) items = some ds →
      ∃ t' items', lowerMembers syn (AstIdMap.ofTree root) ns t items = some (t', items') ∧ Le t t' ∧ t'.top = t.top ∧
        all (seeMmItem (AstIdMap.ofTree root) t') items' = some (ds ++ ns.filterMap (mmMemberOf syn)) := by
  intro ns
  induction ns with
  | nil => intro _ t items ds h; exact ⟨t, items, rfl, Le.refl t, rfl, by simpa using h⟩
  | cons n ns ih =>
    intro hns t items ds h
    obtain ⟨t1, new, h1, l1, e1, s1⟩ := lowerMember_ok G t p n (hns n (by simp)) ho
    obtain ⟨t2, items2, h2, l2, e2, s2⟩ := ih (fun x hx => hns x (by simp [hx])) t1 (items ++ new) _ (all_append _ _ (all_mono _ (seeMmItem_mono l1) h) s1)
    refine ⟨t2, items2, by simp [lowerMembers, h1, h2], l1.trans l2, e2.trans e1, ?_⟩
    rw [s2, filterMap_flat (mmMemberOf syn) (n :: ns), List.flatMap_cons, ← filterMap_flat, List.append_assoc]

theorem lowerMethodmap_ok {root : Node} (G : Grammar syn) (t : Tree) (n : Node) (ho : Opens root n) (hn : Has (AstIdMap.ofTree root) n) :
    ∃ t', lowerMethodmap syn (AstIdMap.ofTree root) t n = some t' ∧ QTop (AstIdMap.ofTree root) t t'
      ((syn.field .name n).map (fun nm =>
        Decl.methodmap (syn.text nm) ((syn.field .inherits n).map syn.text) (n.children.filterMap (mmMemberOf syn)) n.ptr)).toList := by
  unfold lowerMethodmap
  cases hnm : syn.field .name n with
  | none => exact ⟨t, rfl, QTop.nil t⟩
  | some nm =>
    obtain ⟨t1, items, h1, l1, e1, s1⟩ := lowerMembers_ok (syn := syn) G n ho n.children (fun _ h => h) t [] [] rfl
    obtain ⟨id, hid, hget⟩ := hn
    let t2 : Tree := { t1 with methodmaps := t1.methodmaps ++ [{ name := syn.text nm, items := items, inherits := (syn.field .inherits n).map syn.text, astId := id }], top := t1.top ++ [.methodmap t1.methodmaps.length] }
    have l2 : Le t1 t2 := by constructor <;> first | exact List.prefix_append _ _ | exact List.prefix_refl _
    refine ⟨t2, by simp [h1, hid, t2], push (QTop.of_eq l1 e1) l2 rfl ?_⟩
    have := all_mono _ (seeMmItem_mono l2) s1
    simp only [t2] at this
    simp [see, t2]
    rw [this]
    simp [hget]

theorem lowerEsMember_ok {root : Node} (G : Grammar syn) (t : Tree) (p n : Node) (hc : n ∈ p.children) (ho : Opens root p) :
    ∃ t' items, lowerEsMember syn (AstIdMap.ofTree root) t n = some (t', items) ∧ QEs (AstIdMap.ofTree root) t t' items (esMemberOf syn n).toList := by
  unfold lowerEsMember
  by_cases hf : n.kind = .enum_struct_field
  · simp only [hf, if_true, esMemberOf]
    obtain ⟨id, hid, hget⟩ := ho.has hc (by rw [hf]; decide) (by rw [hf]; decide)
    cases hnm : syn.field .name n with
    | none => exact ⟨t, [], rfl, Le.refl t, rfl, rfl⟩
    | some nm =>
      cases hty : syn.type_ n with
      | none => exact ⟨t, [], by simp, Le.refl t, rfl, by simp [all]⟩
      | some ty =>
        let t2 : Tree := { t with fields := t.fields ++ [{ name := syn.text nm, type_ := ty, astId := id }] }
        have l2 : Le t t2 := by constructor <;> first | exact List.prefix_append _ _ | exact List.prefix_refl _
        exact ⟨t2, [.field t.fields.length], by simp [hid, t2], l2, rfl, by simp [all, seeEsItem, t2, hget]⟩
  · by_cases hm : n.kind = .enum_struct_method
    · simp only [hm, if_true, reduceCtorEq, if_false, esMemberOf]
      obtain ⟨t1, i, h1, ⟨l1, e1, _⟩, hsee, hi⟩ := lowerFn_ok G none none none t n (ho.step hc (by rw [hm]; decide)) (ho.has hc (by rw [hm]; decide) (by rw [hm]; decide))
      simp only [Option.getD_none] at hsee hi
      have et : t1.top = t.top := by rw [e1]
      cases i with
      | none =>
        have hf : fnOf syn (syn.vis n) (syn.fnKind n) none n = none := by simpa using hi.symm
        exact ⟨t1, [], by simp [h1], l1, et, by rw [hf]; rfl⟩
      | some i =>
        simp only [Option.bind_some] at hsee
        refine ⟨t1, [.method i], by simp [h1], l1, et, ?_⟩
        cases hf : fnOf syn (syn.vis n) (syn.fnKind n) none n with
        | none => rw [hf] at hi; simp at hi
        | some f => simp [all, seeEsItem, hsee, hf]
    · simp only [hf, hm, if_false]
      have : esMemberOf syn n = none := by
        unfold esMemberOf
        cases hk : n.kind <;> rw [hk] at hf hm <;> simp at hf hm ⊢
      exact ⟨t, [], rfl, Le.refl t, rfl, by rw [this]; rfl⟩

theorem lowerEsMembers_ok {root : Node} (G : Grammar syn) (p : Node) (ho : Opens root p) :
    ∀ (ns : List Node), (∀ n ∈ ns, n ∈ p.children) → ∀ (t : Tree) (items : List EsItem) (ds : List DEsMember), all (seeEsItem (AstIdMap.ofTree root) t) items = some ds →
      ∃ t' items', lowerEsMembers syn (AstIdMap.ofTree root) ns t items = some (t', items') ∧ Le t t' ∧ t'.top = t.top ∧
        all (seeEsItem (AstIdMap.ofTree root) t') items' = some (ds ++ ns.filterMap (esMemberOf syn)) := by
  intro ns
  induction ns with
  | nil => intro _ t items ds h; exact ⟨t, items, rfl, Le.refl t, rfl, by simpa using h⟩
  | cons n ns ih =>
    intro hns t items ds h
    obtain ⟨t1, new, h1, l1, e1, s1⟩ := lowerEsMember_ok G t p n (hns n (by simp)) ho
    obtain ⟨t2, items2, h2, l2, e2, s2⟩ := ih (fun x hx => hns x (by simp [hx])) t1 (items ++ new) _ (all_append _ _ (all_mono _ (seeEsItem_mono l1) h) s1)
    refine ⟨t2, items2, by simp [lowerEsMembers, h1, h2], l1.trans l2, e2.trans e1, ?_⟩
    rw [s2, filterMap_flat (esMemberOf syn) (n :: ns), List.flatMap_cons, ← filterMap_flat, List.append_assoc]

theorem lowerEnumStruct_ok {root : Node} (G : Grammar syn) (t : Tree) (n : Node) (ho : Opens root n) (hn : Has (AstIdMap.ofTree root) n) :
    ∃ t', lowerEnumStruct syn (AstIdMap.ofTree root) t n = some t' ∧ QTop (AstIdMap.ofTree root) t t'
      ((syn.field .name n).map (fun nm => Decl.enumStruct (syn.text nm) (n.children.filterMap (esMemberOf syn)) n.ptr)).toList := by
  unfold lowerEnumStruct
  cases hnm : syn.field .name n with
  | none => exact ⟨t, rfl, QTop.nil t⟩
  | some nm =>
    obtain ⟨t1, items, h1, l1, e1, s1⟩ := lowerEsMembers_ok (syn := syn) G n ho n.children (fun _ h => h) t [] [] rfl
    obtain ⟨id, hid, hget⟩ := hn
    let t2 : Tree := { t1 with enumStructs := t1.enumStructs ++ [{ name := syn.text nm, items := items, astId := id }], top := t1.top ++ [.enumStruct t1.enumStructs.length] }
    have l2 : Le t1 t2 := by constructor <;> first | exact List.prefix_append _ _ | exact List.prefix_refl _
    refine ⟨t2, by simp [h1, hid, t2], push (QTop.of_eq l1 e1) l2 rfl ?_⟩
    have := all_mono _ (seeEsItem_mono l2) s1
    simp only [t2] at this
    simp [see, t2]
    rw [this]
    simp [hget]

theorem lowerMacro_ok (t : Tree) (n : Node) (hn : (syn.field .name n).isSome → Has m n) :
    ∃ t', lowerMacro syn m t n = some t' ∧ QTop m t t' (macroOf syn n).toList := by
  unfold lowerMacro macroOf
  cases hnm : syn.field .name n with
  | none => exact ⟨t, rfl, QTop.nil t⟩
  | some nm =>
    obtain ⟨id, hid, hget⟩ := hn (by simp [hnm])
    refine ⟨_, by simp only [hid, Option.bind_eq_bind, Option.bind_some]; rfl, push (QTop.nil t) ?_ rfl ?_⟩
    · constructor <;> first | exact List.prefix_append _ _ | exact List.prefix_refl _
    · simp [see, hget]

theorem lowerTop_ok {root : Node} (G : Grammar syn) (t : Tree) (n : Node) (hc : n ∈ root.children) :
    ∃ t', lowerTop syn (AstIdMap.ofTree root) t n = some t' ∧ QTop (AstIdMap.ofTree root) t t' (declsOf syn (anonOf (AstIdMap.ofTree root)) n) := by
  have ho := Opens.root (root := root)
  unfold lowerTop declsOf
  cases hk : n.kind
  case function_definition => exact lowerFunction_ok G t n (ho.step hc (by rw [hk]; decide)) (ho.has hc (by rw [hk]; decide) (by rw [hk]; decide))
  case function_declaration => exact lowerFunction_ok G t n (ho.step hc (by rw [hk]; decide)) (ho.has hc (by rw [hk]; decide) (by rw [hk]; decide))
  case enum_ => exact lowerEnum_ok G t n (ho.step hc (by rw [hk]; decide)) (ho.has hc (by rw [hk]; decide) (by rw [hk]; decide))
  case enum_struct => exact lowerEnumStruct_ok G t n (ho.step hc (by rw [hk]; decide)) (ho.has hc (by rw [hk]; decide) (by rw [hk]; decide))
  case methodmap => exact lowerMethodmap_ok G t n (ho.step hc (by rw [hk]; decide)) (ho.has hc (by rw [hk]; decide) (by rw [hk]; decide))
  case typedef => exact lowerTypedef_ok G t n (ho.step hc (by rw [hk]; decide)) (ho.has hc (by rw [hk]; decide) (by rw [hk]; decide))
  case typeset => exact lowerTypeset_ok G t n (ho.step hc (by rw [hk]; decide)) (ho.has hc (by rw [hk]; decide) (by rw [hk]; decide))
  case functag => exact lowerFunctag_ok G t n (ho.step hc (by rw [hk]; decide)) (ho.has hc (by rw [hk]; decide) (by rw [hk]; decide))
  case funcenum => exact lowerFuncenum_ok G t n (ho.step hc (by rw [hk]; decide)) (ho.has hc (by rw [hk]; decide) (by rw [hk]; decide))
  case global_variable_declaration =>
    simp only [filter_filterMap_flat]
    refine fold_ok QTop.nil QTop.append n.children (fun c hc' t => ?_) t
    unfold lowerNewVar
    by_cases hv : c.kind = .variable_declaration
    · simp only [hv, if_true, decide_true]
      exact lowerVariable_ok _ _ t c (ho.hasDecl hc (by rw [hk]; decide) hc' (by rw [hv]; decide))
    · simp only [hv, if_false, decide_false]
      exact ⟨t, rfl, QTop.nil t⟩
  case old_global_variable_declaration =>
    simp only [filter_filterMap_flat]
    refine fold_ok QTop.nil QTop.append n.children (fun c hc' t => ?_) t
    unfold lowerOldVar
    by_cases hv : c.kind = .old_variable_declaration
    · simp only [hv, if_true, decide_true]
      exact lowerVariable_ok _ _ t c (ho.hasDecl hc (by rw [hk]; decide) hc' (by rw [hv]; decide))
    · simp only [hv, if_false, decide_false]
      exact ⟨t, rfl, QTop.nil t⟩
  all_goals exact ⟨t, rfl, QTop.nil t⟩

mutual
theorem macroNodes_eq : ∀ n : Node, macroNodes n = macroDefs n
  | .mk k s e cs => by
    have := macroNodesIn_eq cs
    simp only [macroNodes, macroDefs, nodes, List.filter_cons, this, Node.kind]
    by_cases h : k = .preproc_macro ∨ k = .preproc_define
    · rw [if_pos h, if_pos (by simpa using h)]; rfl
    · rw [if_neg h, if_neg (by simpa using h)]; rfl

theorem macroNodesIn_eq : ∀ l : List Node, macroNodesIn l = (nodesIn l).filter fun n => n.kind ∈ [.preproc_macro, .preproc_define]
  | [] => rfl
  | c :: cs => by
    simp only [macroNodesIn, nodesIn, List.filter_append, macroNodes_eq c, macroNodesIn_eq cs, macroDefs]
end

/-- The item tree shows exactly what the file declares: its top level items, followed through their indices, ranges and node ids, are the
declarations of the source, each with its own parameters, members and node, in order. It is partial: it needs every macro definition
to stand where items stand (`item_tree_refuted`). -/
theorem item_tree_partial (syn : Syn) (root : Node) (G : Grammar syn) (hm : MacrosPlaced syn root) :
    ∃ t, lower syn root = some t ∧
      all (see (AstIdMap.ofTree root) t) t.top = some (Items.Spec.decls syn (anonOf (AstIdMap.ofTree root)) root) := by
  obtain ⟨t1, h1, q1⟩ := fold_ok (f := lowerTop syn (AstIdMap.ofTree root)) (Q := QTop (AstIdMap.ofTree root)) (ds := declsOf syn (anonOf (AstIdMap.ofTree root))) QTop.nil QTop.append root.children
    (fun c hc t => lowerTop_ok G t c hc) {}
  obtain ⟨t2, h2, q2⟩ := fold_ok (f := lowerMacro syn (AstIdMap.ofTree root)) (Q := QTop (AstIdMap.ofTree root)) (ds := fun n => (macroOf syn n).toList) QTop.nil QTop.append (macroNodes root)
    (fun c hc t => lowerMacro_ok t c fun hn => Has.of_recorded (hm c (by rw [← macroNodes_eq]; exact hc) hn).choose_spec) t1
  obtain ⟨_, new, e, s⟩ := QTop.append _ _ _ _ _ q1 q2
  refine ⟨t2, by simp only [lower, h1, Option.bind_eq_bind, Option.bind_some, h2], ?_⟩
  simp only [List.nil_append] at e
  rw [e, s, Items.Spec.decls, filterMap_flat, macroNodes_eq]

theorem unnamed_inj {a b : Nat} (h : unnamed a = unnamed b) : a = b := by
  have h' := congrArg String.toList h
  simp only [unnamed, String.toList_append, List.append_cancel_left_eq, Nat.toString_eq_repr, Nat.toList_repr] at h'
  rw [← @Nat.ofDigitChars_toDigits 10 a (by decide) (by decide), h', Nat.ofDigitChars_toDigits (by decide) (by decide)]

/-- Two enums without a name, neither inside the other, get different names. -/
theorem unnamed_enums_distinct (root a b : Node) (pa pb : List Nat) (hw : Node.WF root) (ha : Recorded root pa a) (hb : Recorded root pb b)
    (hne : a.s < a.e) (hd : ¬ pa <+: pb ∧ ¬ pb <+: pa) : anonOf (AstIdMap.ofTree root) a ≠ anonOf (AstIdMap.ofTree root) b := by
  intro e
  obtain ⟨i, hi, _⟩ := Has.of_recorded ha
  obtain ⟨j, hj, _⟩ := Has.of_recorded hb
  have := unnamed_inj e
  rw [hi, hj] at this
  simp only [Option.getD_some] at this
  exact Verif.Props.Tree.ids_distinct_partial root a b pa pb hw ha hb hne (.inl hd) (by rw [hi, hj, this])

/-! ## A file -/

/-- A name is a child of kind `other 0`; a type is one of kind `other 1`, a default value `other 2`. -/
def sampleSyn : Syn where
  field f n :=
    match f with
    | .name => n.children.find? (·.kind = .other 0)
    | .entries => n.children.find? (·.kind = .enum_entries)
    | .parameters => n.children.find? (·.kind = .parameter_declarations)
    | .parameter => n.children.find? (·.kind = .parameter_declaration)
    | .defaultValue => n.children.find? (·.kind = .other 2)
    | .storageClass => none
    | .inherits => none
  text n := unnamed n.s
  type_ n := (n.children.find? (·.kind = .other 1)).map (·.s)
  returnType n := (n.children.find? (·.kind = .other 1)).map (·.s)
  fnKind _ := .definition
  vis _ := {}
  hasStatic _ := false

theorem sampleGrammar : Grammar sampleSyn where
  child f n c h := by
    cases f <;> simp only [sampleSyn, reduceCtorEq] at h <;> exact List.mem_of_find?_eq_some h
  entries n c h := by simpa using List.find?_some h
  parameters n c h := by simpa using List.find?_some h
  parameter n c h := by simpa using List.find?_some h

/-- `void f(int a, int b = 1)`, an enum without a name with two entries, a methodmap with a property with getter and setter and a method
with one parameter, and a macro inside the function. -/
def sampleFile : Node :=
  .mk .source_file 0 100
    [.mk .function_definition 0 30
       [.mk (.other 1) 0 4 [], .mk (.other 0) 5 6 [],
        .mk .parameter_declarations 6 20
          [.mk .parameter_declaration 7 10 [.mk (.other 1) 7 8 []], .mk .parameter_declaration 12 18 [.mk (.other 1) 12 13 [], .mk (.other 2) 17 18 []]],
        .mk .block 21 30 [.mk .preproc_define 22 29 [.mk (.other 0) 24 25 []]]],
     .mk .enum_ 31 50 [.mk .enum_entries 36 49 [.mk .enum_entry 37 40 [.mk (.other 0) 37 40 []], .mk .enum_entry 41 44 [.mk (.other 0) 41 44 []]]],
     .mk .methodmap 51 99
       [.mk (.other 0) 55 58 [],
        .mk .methodmap_property 60 80
          [.mk (.other 1) 61 64 [], .mk (.other 0) 65 67 [],
           .mk .methodmap_property_method 68 72 [.mk .methodmap_property_getter 68 70 []],
           .mk .methodmap_property_method 73 79 [.mk .methodmap_property_setter 73 78 [.mk .parameter_declaration 74 77 [.mk (.other 1) 74 75 []]]]],
        .mk .methodmap_method 81 98 [.mk (.other 0) 82 83 [], .mk .parameter_declarations 84 90 [.mk .rest_parameter 85 88 []]]]]

/-- The sample meets the hypotheses of `item_tree_partial`, and has six items. -/
example : Grammar sampleSyn ∧ MacrosPlaced sampleSyn sampleFile ∧
    ((lower sampleSyn sampleFile).map (·.top)) =
      some [.function 0, .variant 0, .variant 1, .enum 0, .methodmap 0, .macroDef 0] ∧
    ((lower sampleSyn sampleFile).map (·.params.length)) = some 4 ∧ ((lower sampleSyn sampleFile).map (·.functions.length)) = some 4 := by
  refine ⟨sampleGrammar, ?_, rfl, rfl, rfl⟩
  intro n hn _
  have : n = .mk .preproc_define 22 29 [.mk (.other 0) 24 25 []] := by
    simpa [macroDefs, nodes, nodesIn, Node.kind, sampleFile] using hn
  subst this
  exact ⟨[0, 3, 0], .inside rfl (by decide) (.inside rfl (by decide) (.item rfl (by decide) (by decide)))⟩

/-- **C61 is violated** when a macro is defined where the table of ids does not look, for instance in a part of the file the parser could
not make sense of: building the item tree of the file panics. -/
theorem item_tree_refuted : ∃ syn root, Grammar syn ∧ Node.WF root ∧ lower syn root = none :=
  ⟨sampleSyn, .mk .source_file 0 20 [.mk (.other 9) 0 20 [.mk .preproc_define 5 15 [.mk (.other 0) 12 15 []]]], sampleGrammar,
    by simp [Node.WF, WFIn, Node.s, Node.e], rfl⟩

end Verif.Props.ItemTree
