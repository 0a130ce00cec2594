import Verif.Hir.FindDef
import Verif.Props.Scope
import Verif.Props.Globals
import Verif.Props.EnumStruct
import Verif.Props.Methodmap
/-!
# C60: names in a body are resolved in the function around them
-/

namespace Verif.Props.FindDef
open Verif.Hir Verif.Hir.FindDef Verif.Hir.FindDef.Spec

def declared (it : Globals.Item) : Option Name := if it.kind = .property then none else it.name

theorem part_flat_none (n : Name) (its : List Globals.Item) (h : n ∉ its.filterMap declared) : its.flatMap (Globals.part n) = [] := by
  rw [List.flatMap_eq_nil_iff]
  intro it hit
  rw [List.mem_filterMap] at h
  cases hp : Globals.part n it with
  | nil => rfl
  | cons d l =>
    exfalso
    refine h ⟨it, hit, ?_⟩
    obtain ⟨k, nm, i⟩ := it
    simp only [Globals.part] at hp
    simp only [declared]
    split at hp
    · rename_i hc
      rw [if_neg hc.2, hc.1]
    · simp at hp

theorem first_of_sole (env : Env) (hs : SoleNames env) (k : Globals.Kind) (n : Name) (id : Nat) (hk : k ≠ .property) (h : ⟨k, some n, id⟩ ∈ env.items) :
    env.first n = some ⟨k, id⟩ := by
  have key : env.items.flatMap (Globals.part n) = [⟨k, id⟩] := by
    unfold SoleNames at hs
    change (env.items.filterMap declared).Nodup at hs
    revert hs h
    generalize env.items = its
    intro h hs
    induction its with
    | nil => simp at h
    | cons it its ih =>
      rw [List.flatMap_cons]
      rw [List.filterMap_cons] at hs
      rcases List.mem_cons.1 h with h' | h'
      · subst h'
        simp only [declared, hk, if_false] at hs
        rw [List.nodup_cons] at hs
        rw [part_flat_none n its hs.1]
        simp [Globals.part, hk]
      · have hit : Globals.part n it = [] ∧ (its.filterMap declared).Nodup := by
          have hmem : n ∈ its.filterMap declared := List.mem_filterMap.2 ⟨_, h', by simp [declared, hk]⟩
          cases hd : declared it with
          | none =>
            rw [hd] at hs
            refine ⟨?_, hs⟩
            have := part_flat_none n [it] (by simp [hd])
            simpa using this
          | some m =>
            rw [hd] at hs
            rw [List.nodup_cons] at hs
            refine ⟨?_, hs.2⟩
            have hmn : n ≠ m := fun e => hs.1 (e ▸ hmem)
            have := part_flat_none n [it] (by simp [hd, hmn])
            simpa using this
        rw [hit.1, List.nil_append]
        exact ih h' hit.2
  have hget := Globals.foldl_get env.items n { file := 0 }
  rw [key] at hget
  unfold Env.first
  cases hg : (env.items.foldl Globals.DefMap.add { file := 0 }).get n with
  | none =>
    rw [hg] at hget
    simp [Globals.DefMap.get] at hget
  | some l =>
    rw [hg] at hget
    simp only [Option.getD_some, Hir.Globals.DefMap.get, List.lookup_nil, Option.getD_none, List.nil_append] at hget
    subst hget
    rfl

theorem climb_plain (inner : List Node) (hi : Plain inner) (n m : Node) (rest : List Node) (hn : n.stops = true) :
    climb (inner ++ n :: m :: rest) = some (n, m :: rest) := by
  induction inner with
  | nil => simp [climb, hn]
  | cons a inner ih =>
    have ha : a = .other := hi a (by simp)
    have ih := ih fun b hb => hi b (by simp [hb])
    subst ha
    cases inner with
    | nil =>
      simp only [List.nil_append] at ih
      rw [List.cons_append, List.nil_append, climb, if_neg (by simp [Node.stops])]
      exact ih
    | cons b inner =>
      simp only [List.cons_append] at ih ⊢
      rw [climb]
      simpa [Node.stops] using ih

theorem findDef_plain (env : Env) (inner : List Node) (hi : Plain inner) (n m : Node) (rest : List Node) (hn : n.stops = true) :
    env.findDef (inner ++ n :: m :: rest) = env.dispatch n (m :: rest) := by
  have hc := climb_plain inner hi n m rest hn
  unfold Env.findDef
  cases inner with
  | nil =>
    simp only [List.nil_append] at hc ⊢
    rw [hc]
    simp only
    rw [if_neg]
    intro h
    subst h
    simp [Node.stops] at hn
  | cons a inner =>
    have ha : a = .other := hi a (by simp)
    subst ha
    simp only [List.cons_append] at hc ⊢
    rw [hc]
    simp

theorem own_of_sole {items : List (Name × Methodmap.Item)} (hn : (items.map (·.1)).Nodup) {m : Name} {it : Methodmap.Item} (h : (m, it) ∈ items) :
    Methodmap.last items m = some it := by
  rw [Methodmap.last_unique items hn]
  exact Methodmap.lookup_of_mem items hn m it h

theorem data_lookup (env : Env) (ha : Acyclic env) (ho : Methodmap.Spec.Iterates env.order) (hm : SoleMembers env) (id : Nat) (m : Name) (it : Methodmap.Item)
    (h : (m, it) ∈ (env.mms id).items) : ∃ d, Methodmap.data env.mms env.order env.fuel id = some d ∧ d.lookup m = some it := by
  obtain ⟨chain, hc, hlen⟩ := ha id
  obtain ⟨d, h1, h2⟩ := Methodmap.lookup_member env.mms env.order ho id chain hc
  refine ⟨d, h1 _ hlen, ?_⟩
  rw [h2]
  have hown : Methodmap.Spec.own (env.mms id) m = some it := own_of_sole (hm.2 id) h
  cases hc with
  | last _ _ => simp [Methodmap.Spec.member, hown]
  | step _ p l _ _ => simp [Methodmap.Spec.member, hown]

/-- **C60** for files in which names are not used twice: no top level name twice, no member of a container twice, no property with two
getters or setters, no methodmap that inherits from itself. A name in the body of a function, method or accessor is resolved in that very
function. Missing: files in which a name occurs twice, where it does not hold (the `refuted` theorems). -/
theorem container_partial (env : Env) (hs : SoleNames env) (hm : SoleMembers env) (hp : SoleAccessors env) (ha : Acyclic env) (ho : Methodmap.Spec.Iterates env.order)
    (ancestors : List Node) (f : Fn) (h : Around env ancestors f) : env.findDef ancestors = .inside f true := by
  cases h with
  | function inner n id h1 h2 =>
    rw [findDef_plain env inner h1 _ _ _ rfl]
    simp only [Env.dispatch, Env.functionNode, first_of_sole env hs _ _ _ (by simp) h2, if_true, finish]
  | es inner c m id idx ptr h1 h2 h3 =>
    rw [findDef_plain env inner h1 _ _ _ rfl]
    have hl := EnumStruct.itemsMap_lookup (env.ess id) (hm.1 id) idx _ h3
    simp only [EnumStruct.Member.name] at hl
    have hes : env.esMethod id m = some (.es id idx) := by
      unfold Env.esMethod
      rw [hl, EnumStruct.items_eq]
      simp [h3]
    simp only [Env.dispatch, Env.methodNode, List.head?_cons, first_of_sole env hs _ _ _ (by simp) h2, if_true, hes, finish]
  | mm inner c m id fn ast it h1 h2 h3 h4 h5 =>
    rw [findDef_plain env inner h1 _ _ _ rfl]
    obtain ⟨d, hd, hl⟩ := data_lookup env ha ho hm id m it h3
    have hi : (d.lookup m).bind itemMethod = some (.mm fn) := by simp [hl, itemMethod, h4, h5]
    simp only [Env.dispatch, Env.methodNode, List.head?_cons, first_of_sole env hs _ _ _ (by simp) h2, hd, hi, finish]
    simp
  | accessor inner c p id fn ast it h1 h2 h3 h4 h5 =>
    rw [findDef_plain env inner h1 _ _ _ rfl]
    obtain ⟨d, hd, hl⟩ := data_lookup env ha ho hm id p it h3
    have hf : it.fns.find? (fun f => env.isGetter f.1 == env.isGetter fn) = some (fn, ast) := by
      cases hx : it.fns.find? (fun f => env.isGetter f.1 == env.isGetter fn) with
      | none =>
        rw [List.find?_eq_none] at hx
        have := hx _ h5
        simp at this
      | some f =>
        have h6 := List.find?_some hx
        have h7 := List.mem_of_find?_eq_some hx
        rw [hp id p it h3 f h7 (fn, ast) h5 (by simpa using h6)]
    have hi : (d.lookup p).bind (env.accessor (env.isGetter fn)) = some (.mm fn) := by simp [hl, Env.accessor, h4, hf]
    simp only [Env.dispatch, Env.accessorNode, first_of_sole env hs _ _ _ (by simp) h2, hd, hi, finish]

/-- **C60, with C41**: such a name is then resolved to the innermost visible declaration of that function, if there is one, and else to
what it means outside of the function. -/
theorem local_of_container_partial {G : Type} (env : Env) (hs : SoleNames env) (hm : SoleMembers env) (hp : SoleAccessors env) (ha : Acyclic env)
    (ho : Methodmap.Spec.Iterates env.order) (ancestors : List Node) (f : Fn) (h : Around env ancestors f) (funcs : Fn → Scope.Func)
    (order : Fn → List (Scope.Range × Nat)) (p : Nat) (ls : List Scope.Spec.Layer) (u : Scope.Use (funcs f) p ls (order f)) (method : Bool) (g : Name → Option G)
    (x : Name) (hl : Scope.Spec.NoLeak x [] ls) :
    (∀ i, env.resolve funcs order method g ancestors p x = some (some (.local_ i)) → Scope.Spec.Declares x ls (funcs f).params i) ∧
    ((∃ i, Scope.Spec.Declares x ls (funcs f).params i) → ∃ i, env.resolve funcs order method g ancestors p x = some (some (.local_ i))) ∧
    (Scope.Spec.NoLocal x ls (funcs f).params → env.resolve funcs order method g ancestors p x = some (Scope.outside method g x)) := by
  have hr : env.resolve funcs order method g ancestors p x = some ((funcs f).resolve (order f) method g p x) := by
    unfold Env.resolve
    rw [container_partial env hs hm hp ha ho ancestors f h]
  obtain ⟨h1, h2, h3⟩ := Scope.local_names_partial u method g x hl
  rw [hr]
  refine ⟨fun i hi => h1 i (by simpa using hi), fun hd => ?_, fun hno => by rw [h3 hno]⟩
  obtain ⟨i, hi⟩ := h2 hd
  exact ⟨i, by rw [hi]⟩

/-- A file with a function `f`, an enum struct `S` with a field and a method `m`, and a methodmap `M` with a method and a property. -/
def sample : Env where
  items := [⟨.function, some ['f'], 1⟩, ⟨.enumStruct, some ['S'], 0⟩, ⟨.methodmap, some ['M'], 0⟩]
  ess := fun _ => [.field ['a'] 10, .method ['m'] 11]
  mms := fun _ => ⟨0, none, [(['m'], ⟨.method, [(5, 0)], none⟩), (['p'], ⟨.property, [(6, 1), (7, 2)], some (0, 3)⟩)]⟩
  order := fun _ m => m
  isGetter := fun n => n == 6
  fuel := 1

/-- The sample meets the conditions, and has uses in every kind of body. -/
example : SoleNames sample ∧ SoleMembers sample ∧ SoleAccessors sample ∧ Acyclic sample ∧ Methodmap.Spec.Iterates sample.order ∧
    Around sample [.other, .other, .function (some ['f']) .block, .sourceFile] (.top 1) ∧
    Around sample [.other, .member (some ['m']) .block, .container (some ['S']), .sourceFile] (.es 0 1) ∧
    Around sample [.other, .member (some ['m']) .block, .container (some ['M']), .sourceFile] (.mm 5) ∧
    Around sample [.other, .propertyMethod (some false) .block, .property (some ['p']), .container (some ['M']), .sourceFile] (.mm 7) := by
  refine ⟨by decide, ⟨fun _ => by simp [sample, EnumStruct.Spec.Unique, EnumStruct.Member.name], fun _ => by simp [sample]⟩, ?_, fun id => ⟨[id], .last id rfl, Nat.le_refl _⟩, fun _ _ => .refl _,
    .function [.other, .other] ['f'] 1 (by simp [Plain]) (by decide), .es [.other] ['S'] ['m'] 0 1 11 (by simp [Plain]) (by decide) rfl,
    .mm [.other] ['M'] ['m'] 0 5 0 ⟨.method, [(5, 0)], none⟩ (by simp [Plain]) (by decide) (by decide) (by decide) rfl,
    .accessor [.other] ['M'] ['p'] 0 7 2 ⟨.property, [(6, 1), (7, 2)], some (0, 3)⟩ (by simp [Plain]) (by decide) (by decide) rfl (by decide)⟩
  intro id p it h f hf f' hf' he
  simp only [sample, List.mem_cons, Prod.mk.injEq, List.not_mem_nil, or_false] at h
  rcases h with ⟨-, rfl⟩ | ⟨-, rfl⟩
  · simp only [List.mem_singleton] at hf hf'
    rw [hf, hf']
  · simp only [List.mem_cons, List.not_mem_nil, or_false] at hf hf'
    rcases hf with rfl | rfl <;> rcases hf' with rfl | rfl <;> simp_all [sample]

/-- A file that declares a function before it defines it: `forward void f();` and `public void f() { .. }`. -/
def forwarded : Env := { sample with items := [⟨.function, some ['f'], 1⟩, ⟨.function, some ['f'], 2⟩] }

/-- **C60 is violated** when a function is declared and then defined in the same file: names in the body are resolved in the declaration, and
a variable of the body is not found. -/
theorem forward_refuted : Around forwarded [.other, .function (some ['f']) .block, .sourceFile] (.top 2) ∧
    forwarded.findDef [.other, .function (some ['f']) .block, .sourceFile] = .inside (.top 1) true ∧
    ∃ (funcs : Fn → Scope.Func) (p : Nat) (ls : List Scope.Spec.Layer) (x : Name), Scope.Use (funcs (.top 2)) p ls (funcs (.top 2)).scopes.byExpr ∧
      Scope.Spec.NoLeak x [] ls ∧ Scope.Spec.Declares x ls (funcs (.top 2)).params 3 ∧
      forwarded.resolve (G := Unit) funcs (fun f => (funcs f).scopes.byExpr) false (fun _ => none) [.other, .function (some ['f']) .block, .sourceFile] p x = some none := by
  refine ⟨.function [.other] ['f'] 2 (by simp [Plain]) (by decide), by decide, fun f => if f = .top 2 then Scope.sample else ⟨[], .simple ⟨0, 0⟩ none⟩, 41, _, ['x'],
    ⟨⟨_, _, rfl⟩, by simp [Scope.sample, Scope.Spec.Full, Scope.Spec.FullAll],
      by simp [Scope.sample, Scope.Spec.Laid, Scope.Spec.LaidAll, Scope.Spec.Inside, Scope.Spec.Within, Hir.Scope.Stmt.range],
      .block (List.mem_of_getElem? (i := 2) rfl) (.forBody (.block (List.mem_of_getElem? (i := 0) rfl) (.simple (by decide)))),
      by simp [Scope.Spec.NoTouch, Scope.sample, Scope.Spec.blockRanges, Scope.Spec.blockRangesAll], .refl _⟩, ?_, ?_, by decide⟩
  · simp [Scope.Spec.NoLeak, Scope.Spec.regionAll, Scope.Spec.region, Scope.Spec.direct]
  · exact .outer (by simp [Scope.Spec.Layer.decls, Scope.Spec.direct]) (.outer (by simp [Scope.Spec.Layer.decls, Scope.Spec.direct])
      (.here (d := ⟨['x'], 3, ⟨5, 6⟩⟩) (by simp [Scope.Spec.Layer.decls, Scope.Spec.direct]) rfl))

/-- **C60 is violated**, with a panic, when another definition of that name comes before the function. -/
theorem variable_refuted : ∃ env : Env, Around env [.other, .function (some ['f']) .block, .sourceFile] (.top 2) ∧
    env.findDef [.other, .function (some ['f']) .block, .sourceFile] = .crash :=
  ⟨{ sample with items := [⟨.global, some ['f'], 1⟩, ⟨.function, some ['f'], 2⟩] }, .function [.other] ['f'] 2 (by simp [Plain]) (by decide), by decide⟩

/-- **C60 is violated** by an enum and a methodmap of the same name, which is how methods are given to an enum: nothing is found in the
methods. -/
theorem enum_methodmap_refuted : ∃ env : Env, Around env [.other, .member (some ['m']) .block, .container (some ['M']), .sourceFile] (.mm 5) ∧
    env.findDef [.other, .member (some ['m']) .block, .container (some ['M']), .sourceFile] = .nothing :=
  ⟨{ sample with items := [⟨.enum_, some ['M'], 1⟩, ⟨.methodmap, some ['M'], 0⟩] },
    .mm [.other] ['M'] ['m'] 0 5 0 ⟨.method, [(5, 0)], none⟩ (by simp [Plain]) (by decide) (by decide) (by decide) rfl, by decide⟩

/-- **C60 is violated** by two members of the same name, as a constructor and a destructor may be: the later one is used for both. -/
theorem same_member_refuted : ∃ env : Env, SoleNames env ∧ Around env [.other, .member (some ['M']) .block, .container (some ['M']), .sourceFile] (.mm 5) ∧
    env.findDef [.other, .member (some ['M']) .block, .container (some ['M']), .sourceFile] = .inside (.mm 6) true :=
  ⟨{ sample with mms := fun _ => ⟨0, none, [(['M'], ⟨.constructor, [(5, 0)], none⟩), (['M'], ⟨.destructor, [(6, 1)], none⟩)]⟩ }, by decide,
    .mm [.other] ['M'] ['M'] 0 5 0 ⟨.constructor, [(5, 0)], none⟩ (by simp [Plain]) (by decide) (by decide) (by decide) rfl, by decide⟩

end Verif.Props.FindDef
