import Verif.Props.Params
import Verif.Hir.BodyOf
/-!
# C98: the parameters and the block of a definition are its own
-/

namespace Verif.Props.BodyOf

open Verif.Hir Verif.Hir.Lower Verif.Hir.Lower.Spec Verif.Hir.BodyOf Verif.Hir.BodyOf.Spec Verif.Props.Lower Verif.Props.Body Verif.Props.Params

theorem find_only {t c : Tree} {p : Tree → Prop} {q : Tree → Bool} (hq : ∀ x, q x = true ↔ p x) (h : Only t p c) : t.children.find? q = some c := by
  obtain ⟨h1, h2, h3⟩ := h
  cases hf : t.children.find? q with
  | none => exact absurd ((hq c).2 h2) (List.find?_eq_none.1 hf c h1)
  | some x => rw [h3 x (List.mem_of_find?_eq_some hf) ((hq x).1 (List.find?_some hf))]

theorem find_no {t : Tree} {p : Tree → Prop} {q : Tree → Bool} (hq : ∀ x, q x = true ↔ p x) (h : ∀ c ∈ t.children, ¬ p c) : t.children.find? q = none :=
  List.find?_eq_none.2 fun c hc hx => h c hc ((hq c).1 hx)

theorem child_only {t c : Tree} {f : BodyOf.Field} (h : Only t (fun c => c.field = some f) c) : t.child f = some c := find_only (by simp) h

theorem first_only {t c : Tree} {k : BodyOf.Kind} (h : Only t (fun c => c.kind = k) c) : t.first k = some c := find_only (by simp) h

theorem block_of {t : Tree} {b : Option Tree} (h : Block t b) : bodyOf .function t = b := by
  cases b with
  | none => exact find_no (p := fun c => c.field = some .body) (by simp) h
  | some b => exact child_only h

/-- What is lowered is what is written. -/
theorem own {d : Def} {t : Tree} {ps b : Option Tree} (h : Written d t ps b) : paramsOf d t = ps ∧ bodyOf d t = b := by
  cases h with
  | function hk hp hb => exact ⟨by simp only [paramsOf, hk]; exact first_only hp, block_of hb⟩
  | bare hk hp hb => exact ⟨by simp only [paramsOf, hk]; exact find_no (p := fun c => c.kind = .paramDecls) (by simp) hp, block_of hb⟩
  | getter hk hp hb =>
    refine ⟨?_, block_of hb⟩
    have : t.first .setter = none := find_no (p := fun c => c.kind = .setter) (by simp) hp
    simp only [paramsOf, hk, this, Option.bind_none]
  | setter hk hs hp hb => exact ⟨by simp only [paramsOf, hk, first_only hs, Option.bind_some, child_only hp], block_of hb⟩
  | typedef hk he hp => exact ⟨by simp only [paramsOf, hk, first_only he, Option.bind_some, child_only hp], rfl⟩
  | member hk hp => exact ⟨by simp only [paramsOf, hk, child_only hp], rfl⟩
  | functag hp => exact ⟨child_only hp, rfl⟩

theorem paramsPart_known {p : Node} (hp : proper p = true) {ps : List (Infer.Name × Nat)} {s : State} (h : paramsPart (some p) {} = some (ps, s)) :
    Known s (declared p) ps ∧ (ps.map (·.2)).Nodup := by
  have key : Known s (declared p) ps ∧ Fresh {} s (ps.map (·.2)) := by
    simp only [paramsPart] at h
    cases hk : p.kind <;> simp only [hk] at h
    case paramDecls =>
      rw [filter_toLows _ (fun c => c.kind == .paramDecl) (fun n => by simp)] at h
      have := parameters_known (fun d hd => proper_child hp (List.mem_filter.1 hd).1) h
      rwa [declared, if_neg (by rw [hk]; decide)]
    case paramDecl =>
      have h0 : [toLow p] = toLows [p] := rfl
      rw [h0] at h
      rw [declared, if_pos hk]
      exact parameters_known (fun d hd => by obtain rfl := List.mem_singleton.1 hd; exact hp) h
    all_goals cases h
  exact ⟨key.1, key.2.1⟩

/-- **C98, from the definition.** Take any function, method, getter, setter, typedef, functag or member of a typeset or funcenum as it is written. If it can be lowered,
then the parameters known in it are the named ones between its own parentheses, in order, each leading to its own declaration, no two with the same expression,
and there is a body exactly if it is written with a block. -/
theorem own_params {d : Def} {t : Tree} {ps b : Option Tree} (h : Written d t ps b) (hp : ∀ p ∈ ps, proper p.low = true) (hb : ∀ n ∈ b, proper n.low = true)
    {L : Lowered} (hl : bodyWithSourceMap d t = some L) :
    L.params.map (fun q => (q.1, L.map.exprSource q.2)) = (ps.elim [] fun p => namedParams p.low).map (fun q => (q.1, some q.2)) ∧
    (L.params.map (·.2)).Nodup ∧ (L.body.isSome ↔ b.isSome) := by
  obtain ⟨e1, e2⟩ := own h
  rw [bodyWithSourceMap, e1, e2] at hl
  cases b with
  | some n =>
    have hn := hb n rfl
    have hbody : L.body.isSome := by
      obtain ⟨_, e, he, -⟩ := collectBody_some (params := ps.map Tree.low) (n := n.low) (by
        intro p hpp
        cases ps with
        | none => cases hpp
        | some q => cases hpp; exact hp q rfl) hl
      rw [he]; rfl
    cases ps with
    | some p =>
      obtain ⟨g1, g2⟩ := params_known hn (hp p rfl) hl
      exact ⟨g1, g2, by simp [hbody]⟩
    | none =>
      have : L.params = [] := by
        simp only [collectBody, Option.map_none, Option.map_some, Option.map_eq_some_iff] at hl
        obtain ⟨⟨⟨ps, o⟩, s⟩, hl, rfl⟩ := hl
        obtain ⟨ps', s0, h1, hl⟩ := bind_some.1 hl
        obtain ⟨o', s1, h2, hl⟩ := bind_some.1 hl
        obtain ⟨h3, rfl⟩ := pure_some.1 hl
        cases h3
        simp only [paramsPart] at h1
        exact (pure_some.1 h1).1
      rw [this]
      exact ⟨rfl, by simp, by simp [hbody]⟩
  | none =>
    simp only [collectBody, Option.map_none, Option.map_eq_some_iff] at hl
    obtain ⟨⟨⟨qs, o⟩, s⟩, hl, rfl⟩ := hl
    obtain ⟨ps', s0, h1, hl⟩ := bind_some.1 hl
    obtain ⟨o', s1, h2, hl⟩ := bind_some.1 hl
    obtain ⟨h3, rfl⟩ := pure_some.1 hl
    cases h3
    simp only [collectOpt] at h2
    obtain ⟨rfl, rfl⟩ := pure_some.1 h2
    cases ps with
    | none =>
      simp only [Option.map_none, paramsPart] at h1
      obtain ⟨rfl, rfl⟩ := pure_some.1 h1
      exact ⟨rfl, by simp, by simp⟩
    | some p =>
      simp only [Option.map_some] at h1
      have hx := paramsPart_post (fun q hq => by cases hq; exact hp p rfl) h1
      obtain ⟨k1, k2⟩ := paramsPart_known (hp p rfl) h1
      exact ⟨k1.placed (ext_nodup hx), k2, by simp⟩

/-- `public set(int n) { ... }` of a property: the setter holds the parameter, the accessor the block. -/
def setter : Tree := .mk none .accessor (Demo.leaf none 300 .other "")
  [.mk none .setter (Demo.leaf none 301 .other "")
    [.mk (some .parameter) .other (.mk none 302 .paramDecl [] (some .int) [Demo.leaf (some .name) 303 .ident "n"]) []],
   .mk (some .body) .other Demo.tree []]

/-- The hypotheses are met. -/
example : ∃ L, bodyWithSourceMap .function setter = some L ∧ L.params.map (fun q => (q.1, L.map.exprSource q.2)) = [(['n'], some 302)] ∧ L.body.isSome := by
  have h : (bodyWithSourceMap .function setter).isSome := by decide +kernel
  obtain ⟨L, hL⟩ := Option.isSome_iff_exists.1 h
  obtain ⟨g1, -, g3⟩ := own_params (d := .function) (t := setter)
    (ps := some (.mk (some .parameter) .other (.mk none 302 .paramDecl [] (some .int) [Demo.leaf (some .name) 303 .ident "n"]) []))
    (b := some (.mk (some .body) .other Demo.tree []))
    (.setter (s := .mk none .setter (Demo.leaf none 301 .other "")
        [.mk (some .parameter) .other (.mk none 302 .paramDecl [] (some .int) [Demo.leaf (some .name) 303 .ident "n"]) []]) rfl
      ⟨by simp [setter, Tree.children], rfl, by simp [setter, Tree.children, Tree.kind]⟩ ⟨by simp [Tree.children], rfl, by simp [Tree.children]⟩
      ⟨by simp [setter, Tree.children], rfl, by simp [setter, Tree.children, Tree.field]⟩)
    (fun p hp => by cases hp; decide) (fun n hn => by cases hn; exact Demo.tree_proper) hL
  exact ⟨L, hL, g1, g3.2 rfl⟩

/-- `function void (int n, char s[])` in a typeset. -/
def member : Tree := .mk none .typedefExpression (Demo.leaf none 310 .other "") [.mk (some .parameters) .paramDecls three []]

example : ∃ L, bodyWithSourceMap .typedef member = some L ∧ L.params.map (fun q => (q.1, L.map.exprSource q.2)) = [(['n'], some 202), (['s'], some 207)] := by
  have h : (bodyWithSourceMap .typedef member).isSome := by decide +kernel
  obtain ⟨L, hL⟩ := Option.isSome_iff_exists.1 h
  obtain ⟨g1, -, -⟩ := own_params (d := .typedef) (t := member) (ps := some (.mk (some .parameters) .paramDecls three [])) (b := none)
    (.member rfl ⟨by simp [member, Tree.children], rfl, by simp [member, Tree.children]⟩) (fun p hp => by cases hp; decide) (fun n hn => by cases hn) hL
  exact ⟨L, hL, g1⟩

end Verif.Props.BodyOf
