import Verif.Hir.Globals
/-!
# C44: global names resolve to a declaration
-/

namespace Verif.Props.Globals
open Verif.Hir.Globals Verif.Hir.Globals.Spec

theorem mem_dedup {α : Type} [DecidableEq α] (x : α) (l : List α) : x ∈ dedup l ↔ x ∈ l := by
  induction l using dedup.induct with
  | case1 => simp [dedup]
  | case2 a => simp [dedup]
  | case3 a l ih => rw [dedup, if_pos rfl, ih]; simp
  | case4 a b l hab ih => rw [dedup, if_neg hab, List.mem_cons, ih, List.mem_cons (a := x) (b := a)]

theorem dedup_all_eq {α : Type} [DecidableEq α] (x : α) (l : List α) (hne : l ≠ []) (h : ∀ y ∈ l, y = x) : dedup l = [x] := by
  induction l using dedup.induct with
  | case1 => exact absurd rfl hne
  | case2 a => rw [dedup, h a (by simp)]
  | case3 a l ih =>
    rw [dedup, if_pos rfl]
    exact ih (by simp) fun y hy => h y (List.mem_cons_of_mem _ hy)
  | case4 a b l hab ih =>
    exact absurd ((h a (by simp)).trans (h b (by simp)).symm) hab

theorem lookup_push (name n : Name) (d : Def) (l : List (Name × List Def)) :
    ((push name d l).lookup n).getD [] = (l.lookup n).getD [] ++ (if n = name then [d] else []) := by
  induction l with
  | nil =>
    by_cases h : n = name
    · subst h; simp [push, List.lookup]
    · have hb : (n == name) = false := by simpa using h
      simp [push, List.lookup, hb, h]
  | cons p rest ih =>
    obtain ⟨m, ds⟩ := p
    by_cases hm : m = name
    · subst hm
      by_cases h : n = m
      · subst h; simp [push, List.lookup]
      · have hb : (n == m) = false := by simpa using h
        simp [push, List.lookup, hb, h]
    · rw [push, if_neg hm]
      by_cases h : n = m
      · subst h; simp [List.lookup, hm]
      · have hb : (n == m) = false := by simpa using h
        simpa [List.lookup, hb] using ih

/-- What one item adds under a name. -/
def part (name : Name) (it : Item) : List Def := if it.name = some name ∧ it.kind ≠ .property then [⟨it.kind, it.id⟩] else []

theorem get_add (m : DefMap) (it : Item) (name : Name) : ((m.add it).get name).getD [] = (m.get name).getD [] ++ part name it := by
  obtain ⟨k, n, i⟩ := it
  cases n with
  | none => cases k <;> simp [DefMap.add, part]
  | some n =>
    by_cases h : k = .property
    · subst h; simp [DefMap.add, part]
    · have e : m.add ⟨k, some n, i⟩ = m.declare n ⟨k, i⟩ := by cases k <;> first | rfl | exact absurd rfl h
      rw [e]
      simp only [DefMap.declare, DefMap.get, lookup_push, part, Option.some.injEq, h, ne_eq, not_false_eq_true, and_true]
      by_cases hn : name = n
      · subst hn; simp
      · simp [hn, Ne.symm hn]

theorem file_add (m : DefMap) (it : Item) : (m.add it).file = m.file := by
  obtain ⟨k, n, i⟩ := it
  cases k <;> cases n <;> rfl

theorem foldl_get (its : List Item) (name : Name) : ∀ m : DefMap,
    (((its.foldl DefMap.add m)).get name).getD [] = (m.get name).getD [] ++ its.flatMap (part name) := by
  induction its with
  | nil => intro m; simp
  | cons it its ih => intro m; rw [List.foldl_cons, ih, get_add]; simp

theorem foldl_file (its : List Item) : ∀ m : DefMap, (its.foldl DefMap.add m).file = m.file := by
  induction its with
  | nil => intro m; rfl
  | cons it its ih => intro m; rw [List.foldl_cons, ih, file_add]

theorem mem_part (name : Name) (its : List Item) (d : Def) : d ∈ its.flatMap (part name) ↔ ⟨d.kind, some name, d.id⟩ ∈ its ∧ d.kind ≠ .property := by
  rw [List.mem_flatMap]
  constructor
  · rintro ⟨it, hit, hd⟩
    unfold part at hd
    split at hd
    · next h =>
      obtain ⟨k, n, i⟩ := it
      simp only [List.mem_singleton] at hd
      subst hd
      obtain ⟨h1, h2⟩ := h
      simp only at h1; subst h1
      exact ⟨hit, h2⟩
    · simp at hd
  · rintro ⟨h, hk⟩
    exact ⟨_, h, by simp [part, hk]⟩

theorem mem_entries (items : FileId → List Item) (file : FileId) (nodes : Option (List FileId)) (name : Name) (f : FileId) (d : Def) :
    (d, f) ∈ entries (fileDefMaps items file nodes) name ↔ Declares items file nodes name f d := by
  have key : ∀ g, (d, f) ∈ (((fileDefMap items g).get name).getD []).map (fun d => (d, (fileDefMap items g).file)) ↔
      f = g ∧ ⟨d.kind, some name, d.id⟩ ∈ items g ∧ d.kind ≠ .property := by
    intro g
    have e1 : (fileDefMap items g).file = g := foldl_file _ _
    have e2 : ((fileDefMap items g).get name).getD [] = (items g).flatMap (part name) := by
      have := foldl_get (items g) name { file := g }
      simpa [fileDefMap, DefMap.get] using this
    rw [e1, e2, List.mem_map]
    constructor
    · rintro ⟨d', hd', h⟩
      obtain ⟨rfl, rfl⟩ := Prod.mk.inj h
      exact ⟨rfl, (mem_part _ _ _).1 hd'⟩
    · rintro ⟨rfl, h⟩
      exact ⟨d, (mem_part _ _ _).2 h, rfl⟩
  unfold entries fileDefMaps Declares Visible
  rw [List.flatMap_cons, List.mem_append, key]
  cases nodes with
  | none =>
    simp only [List.flatMap_nil, List.not_mem_nil, or_false, reduceCtorEq, false_and, exists_false]
    constructor
    · rintro ⟨rfl, h⟩; exact ⟨rfl, h⟩
    · rintro ⟨rfl, h⟩; exact ⟨rfl, h⟩
  | some fs =>
    rw [List.mem_flatMap]
    constructor
    · rintro (⟨rfl, h⟩ | ⟨m, hm, h⟩)
      · exact ⟨.inl rfl, h⟩
      · obtain ⟨g, hg, rfl⟩ := List.mem_map.1 hm
        obtain ⟨rfl, h'⟩ := (key g).1 h
        exact ⟨.inr ⟨fs, rfl, hg⟩, h'⟩
    · rintro ⟨rfl | ⟨fs', hfs, hf⟩, h⟩
      · exact .inl ⟨rfl, h⟩
      · obtain rfl := Option.some.inj hfs
        exact .inr ⟨_, List.mem_map.2 ⟨f, hf, rfl⟩, (key f).2 ⟨rfl, h⟩⟩

theorem pick_none (es : List (Def × FileId)) : pick es = none ↔ es = [] := by
  cases es with
  | nil => simp [pick]
  | cons e es =>
    obtain ⟨d, f⟩ := e
    cases es with
    | nil => simp only [pick]; split <;> simp
    | cons e' es => simp only [pick]; split <;> simp

/-- Every definition `pick` names is an entry. -/
theorem pick_sound (es : List (Def × FileId)) (v : Value) (h : pick es = some v) : ∀ p ∈ Value.defs v, (p.2, p.1) ∈ es := by
  match es, h with
  | [(d, f)], h =>
    simp only [pick] at h
    split at h <;> cases h <;> (intro p hp; simp only [Value.defs, List.mem_singleton] at hp; subst hp; simp)
  | e :: e' :: es, h =>
    simp only [pick] at h
    split at h
    · next d f hf =>
      cases h
      intro p hp
      simp only [Value.defs, List.mem_singleton] at hp
      subst hp
      exact List.mem_of_find?_eq_some hf
    · cases h
      intro p hp
      obtain ⟨q, hq, rfl⟩ := List.mem_map.1 hp
      exact (List.mem_filter.1 hq).1

/-! ## The property -/

/-- Nothing is returned exactly if the name is declared nowhere. -/
theorem undeclared (items : FileId → List Item) (file : FileId) (nodes : Option (List FileId)) (name : Name) :
    resolve items file nodes name = none ↔ ¬∃ f d, Declares items file nodes name f d := by
  unfold resolve
  rw [pick_none]
  constructor
  · rintro h ⟨f, d, hd⟩
    have := (mem_dedup _ _).2 ((mem_entries items file nodes name f d).2 hd)
    rw [h] at this
    simp at this
  · intro h
    rw [List.eq_nil_iff_forall_not_mem]
    rintro ⟨d, f⟩ hm
    exact h ⟨f, d, (mem_entries items file nodes name f d).1 ((mem_dedup _ _).1 hm)⟩

/-- Whatever is named in an answer is a declaration of the name in the file or in its project. -/
theorem sound (items : FileId → List Item) (file : FileId) (nodes : Option (List FileId)) (name : Name) (v : Value)
    (h : resolve items file nodes name = some v) : ∀ p ∈ Value.defs v, Declares items file nodes name p.1 p.2 := by
  intro p hp
  exact (mem_entries items file nodes name p.1 p.2).1 ((mem_dedup _ _).1 (pick_sound _ _ h p hp))

/-- The answer is empty-handed exactly if the name has two different declarations and none of its declarations is a methodmap or a
function. -/
theorem empty_iff (items : FileId → List Item) (file : FileId) (nodes : Option (List FileId)) (name : Name) :
    resolve items file nodes name = some (.functions []) ↔
      (∃ f d f' d', Declares items file nodes name f d ∧ Declares items file nodes name f' d' ∧ (f, d) ≠ (f', d')) ∧
      ∀ f d, Declares items file nodes name f d → d.kind ≠ .methodmap ∧ d.kind ≠ .function := by
  have mem : ∀ f d, (d, f) ∈ dedup (entries (fileDefMaps items file nodes) name) ↔ Declares items file nodes name f d :=
    fun f d => (mem_dedup _ _).trans (mem_entries items file nodes name f d)
  unfold resolve
  have heq := fun x h h' => dedup_all_eq x (entries (fileDefMaps items file nodes) name) h h'
  have mem' := fun x => mem_dedup x (entries (fileDefMaps items file nodes) name)
  generalize dedup (entries (fileDefMaps items file nodes) name) = es at mem heq mem'
  constructor
  · intro h
    match es, h with
    | [(d, f)], h => simp only [pick] at h; split at h <;> simp at h
    | e :: e' :: es, h =>
      simp only [pick] at h
      split at h
      · simp at h
      · next hm =>
        simp only [Option.some.injEq, Value.functions.injEq, List.map_eq_nil_iff] at h
        constructor
        · refine Classical.byContradiction fun hno => ?_
          have all : ∀ y ∈ entries (fileDefMaps items file nodes) name, y = e := by
            intro y hy
            refine Classical.byContradiction fun hne => hno ⟨y.2, y.1, e.2, e.1, (mem _ _).1 ((mem' _).2 hy), (mem _ _).1 (by simp), ?_⟩
            intro he
            apply hne
            obtain ⟨y1, y2⟩ := y
            obtain ⟨e1, e2⟩ := e
            simp only [Prod.mk.injEq] at he ⊢
            exact ⟨he.2, he.1⟩
          have hne : entries (fileDefMaps items file nodes) name ≠ [] := by
            intro h0
            have := (mem' e).1 (by simp)
            rw [h0] at this; simp at this
          have := heq e hne all
          simp at this
        · intro f d hd
          have hd' := (mem f d).2 hd
          constructor
          · intro hk
            have := List.find?_eq_none.1 hm _ hd'
            simp [isMethodmap, hk] at this
          · intro hk
            have : (d, f) ∈ List.filter isFunction (e :: e' :: es) := List.mem_filter.2 ⟨hd', by simp [isFunction, hk]⟩
            rw [h] at this; simp at this
  · rintro ⟨⟨f, d, f', d', hd, hd', hne⟩, hk⟩
    have h1 := (mem f d).2 hd
    have h2 := (mem f' d').2 hd'
    match es, h1, h2 with
    | [e], h1, h2 =>
      simp only [List.mem_singleton] at h1 h2
      rw [← h2] at h1
      simp only [Prod.mk.injEq] at h1
      exact absurd (by rw [h1.1, h1.2]) hne
    | e :: e' :: es, _, _ =>
      have hm : (e :: e' :: es).find? isMethodmap = none := by
        rw [List.find?_eq_none]
        rintro ⟨d, f⟩ hx
        simpa [isMethodmap] using (hk f d ((mem f d).1 hx)).1
      have hf : (e :: e' :: es).filter isFunction = [] := by
        rw [List.filter_eq_nil_iff]
        rintro ⟨d, f⟩ hx
        simpa [isFunction] using (hk f d ((mem f d).1 hx)).2
      simp only [pick, hm, hf, List.map_nil]

/-- **C44**, for names that are declared once, or as a methodmap, or as a function: resolving gives a declaration of the name. -/
theorem resolves_partial (items : FileId → List Item) (file : FileId) (nodes : Option (List FileId)) (name : Name) (f : FileId) (d : Def)
    (hd : Declares items file nodes name f d)
    (h : (∀ f' d', Declares items file nodes name f' d' → (f', d') = (f, d)) ∨
      ∃ f' d', Declares items file nodes name f' d' ∧ (d'.kind = .methodmap ∨ d'.kind = .function)) :
    ∃ v, resolve items file nodes name = some v ∧ Value.defs v ≠ [] ∧ ∀ p ∈ Value.defs v, Declares items file nodes name p.1 p.2 := by
  cases hv : resolve items file nodes name with
  | none => exact absurd ⟨f, d, hd⟩ ((undeclared items file nodes name).1 hv)
  | some v =>
    refine ⟨v, rfl, ?_, sound items file nodes name v hv⟩
    intro hnil
    have hvv : v = .functions [] := by
      cases v with
      | functions fs => simp only [Value.defs] at hnil; rw [hnil]
      | one f d => simp [Value.defs] at hnil
    rw [hvv] at hv
    obtain ⟨⟨f1, d1, f2, d2, h1, h2, hne⟩, hk⟩ := (empty_iff items file nodes name).1 hv
    rcases h with h | ⟨f', d', h', hk'⟩
    · exact hne ((h _ _ h1).trans (h _ _ h2).symm)
    · rcases hk' with hk' | hk'
      · exact (hk f' d' h').1 hk'
      · exact (hk f' d' h').2 hk'

/-- A methodmap is preferred over an enum (or anything else) of the same name. -/
theorem methodmap_first (items : FileId → List Item) (file : FileId) (nodes : Option (List FileId)) (name : Name) (f : FileId) (d : Def)
    (hd : Declares items file nodes name f d) (hk : d.kind = .methodmap) :
    ∃ f' d', resolve items file nodes name = some (.one f' d') ∧ d'.kind = .methodmap ∧ Declares items file nodes name f' d' := by
  have h1 := (mem_dedup _ _).2 ((mem_entries items file nodes name f d).2 hd)
  have mem : ∀ f d, (d, f) ∈ dedup (entries (fileDefMaps items file nodes) name) → Declares items file nodes name f d :=
    fun f d h => (mem_entries items file nodes name f d).1 ((mem_dedup _ _).1 h)
  unfold resolve
  generalize dedup (entries (fileDefMaps items file nodes) name) = es at h1 mem
  match es, h1 with
  | [e], h1 =>
    simp only [List.mem_singleton] at h1
    subst h1
    exact ⟨f, d, by simp [pick, hk], hk, hd⟩
  | e :: e' :: es, h1 =>
    simp only [pick]
    split
    · next d' f' hf =>
      exact ⟨f', d', rfl, by simpa [isMethodmap] using List.find?_some hf, mem _ _ (List.mem_of_find?_eq_some hf)⟩
    · next hn =>
      have := List.find?_eq_none.1 hn _ h1
      simp [isMethodmap, hk] at this

/-- If a name is declared by functions only, the answer names all of them. -/
theorem all_functions (items : FileId → List Item) (file : FileId) (nodes : Option (List FileId)) (name : Name) (f : FileId) (d : Def)
    (hd : Declares items file nodes name f d) (hk : ∀ f' d', Declares items file nodes name f' d' → d'.kind = .function) :
    ∃ fs, resolve items file nodes name = some (.functions fs) ∧ ∀ f' d', (f', d') ∈ fs ↔ Declares items file nodes name f' d' := by
  have h1 := (mem_dedup _ _).2 ((mem_entries items file nodes name f d).2 hd)
  have mem : ∀ f d, (d, f) ∈ dedup (entries (fileDefMaps items file nodes) name) ↔ Declares items file nodes name f d :=
    fun f d => (mem_dedup _ _).trans (mem_entries items file nodes name f d)
  unfold resolve
  generalize dedup (entries (fileDefMaps items file nodes) name) = es at h1 mem
  match es, h1, mem with
  | [e], h1, mem =>
    simp only [List.mem_singleton] at h1
    subst h1
    refine ⟨[(f, d)], by simp [pick, hk f d hd], fun f' d' => ?_⟩
    rw [← mem]
    simp only [List.mem_singleton, Prod.mk.injEq]
    exact and_comm
  | e :: e' :: es, _, mem =>
    simp only [pick]
    have hm : (e :: e' :: es).find? isMethodmap = none := by
      rw [List.find?_eq_none]
      rintro ⟨d, f⟩ hx
      simp [isMethodmap, hk f d ((mem f d).1 hx)]
    rw [hm]
    refine ⟨_, rfl, fun f' d' => ?_⟩
    rw [List.mem_map, ← mem]
    constructor
    · rintro ⟨⟨d1, f1⟩, hx, hs⟩
      obtain ⟨rfl, rfl⟩ := Prod.mk.inj hs
      exact (List.mem_filter.1 hx).1
    · intro hx
      exact ⟨(d', f'), List.mem_filter.2 ⟨hx, by simp [isFunction, hk f' d' ((mem f' d').1 hx)]⟩, rfl⟩

/-- Two files that are included together both declare the global variable `g`. -/
def twoGlobals : FileId → List Item
  | 0 => [⟨.global, some ['g'], 0⟩, ⟨.function, some ['m'], 0⟩]
  | 1 => [⟨.global, some ['g'], 1⟩]
  | _ => []

/-- C44 does not hold in general: a variable declared in two files of a project (or twice in one file) resolves to an empty list of
functions. -/
theorem duplicate_variable_refuted :
    Declares twoGlobals 0 (some [0, 1]) ['g'] 0 ⟨.global, 0⟩ ∧ Declares twoGlobals 0 (some [0, 1]) ['g'] 1 ⟨.global, 1⟩ ∧
    resolve twoGlobals 0 (some [0, 1]) ['g'] = some (.functions []) := by
  refine ⟨⟨.inl rfl, List.mem_of_getElem? (i := 0) rfl, by decide⟩, ⟨.inr ⟨_, rfl, List.mem_of_getElem? (i := 1) rfl⟩,
    List.mem_of_getElem? (i := 0) rfl, by decide⟩, by decide⟩

/-! ## The hypotheses are met -/

def twoFiles : FileId → List Item
  | 0 => [⟨.enum_, some ['e'], 0⟩, ⟨.methodmap, some ['e'], 0⟩, ⟨.typedef, none, 0⟩, ⟨.function, some ['f'], 0⟩, ⟨.variant, some ['v'], 3⟩]
  | 1 => [⟨.function, some ['f'], 1⟩]
  | _ => []

example : resolve twoFiles 0 (some [1, 0]) ['e'] = some (.one 0 ⟨.methodmap, 0⟩) := by decide
example : resolve twoFiles 0 (some [1, 0]) ['f'] = some (.functions [(0, ⟨.function, 0⟩), (1, ⟨.function, 1⟩), (0, ⟨.function, 0⟩)]) := by decide
example : resolve twoFiles 1 (some [1, 0]) ['v'] = some (.one 0 ⟨.variant, 3⟩) := by decide
example : resolve twoFiles 0 none ['x'] = none := by decide
example : ∀ f d, Declares twoFiles 1 (some [1, 0]) ['v'] f d → (f, d) = (0, ⟨.variant, 3⟩) := by
  rintro f ⟨k, i⟩ ⟨hv, hm, _⟩
  match f, hm with
  | 0, hm => simpa [twoFiles] using hm
  | 1, hm => simp [twoFiles] at hm

/-- **C44, every declaration counts.** The declarations of a file are its items with a name other than properties, each once, in the order of the file. -/
theorem declared (items : FileId → List Item) (file : FileId) :
    (fileDefMap items file).declarations = ((items file).filter fun it => it.name.isSome && decide (it.kind ≠ .property)).map fun it => ⟨it.kind, it.id⟩ := by
  suffices H : ∀ (l : List Item) (m : DefMap), (l.foldl DefMap.add m).declarations =
      m.declarations ++ (l.filter fun it => it.name.isSome && decide (it.kind ≠ .property)).map fun it => ⟨it.kind, it.id⟩ by
    simpa [fileDefMap] using H (items file) { file }
  intro l
  induction l with
  | nil => intro m; simp
  | cons it l ih =>
    intro m
    obtain ⟨k, n, i⟩ := it
    rw [List.foldl_cons, ih]
    cases n with
    | none => cases k <;> simp [DefMap.add]
    | some n => cases k <;> simp [DefMap.add, DefMap.declare]

example : (fileDefMap (fun _ => [⟨.function, some ['f'], 0⟩, ⟨.property, some ['p'], 0⟩, ⟨.typedef, none, 0⟩, ⟨.enumStruct, some ['f'], 0⟩]) 0).declarations =
    [⟨.function, 0⟩, ⟨.enumStruct, 0⟩] := by decide

end Verif.Props.Globals
