import Verif.Hir.Outside
import Verif.Props.Globals
/-!
# C88: names used outside of bodies lead to their declaration
-/

namespace Verif.Props.Outside

open Verif.Hir

open Verif.Hir.Globals hiding Name FileId
open Verif.Hir.FindDef
open Verif.Hir.Outside Verif.Hir.Outside.Spec

theorem climb_open (inner : List Node) (hi : Open inner) : climb (inner ++ [.sourceFile]) = some (.sourceFile, []) := by
  induction inner with
  | nil => rfl
  | cons a l ih =>
    have ha : a.stops = false := hi a (by simp)
    have := ih fun n hn => hi n (by simp [hn])
    cases l with
    | nil => simp [climb, ha]
    | cons b l => simpa [climb, ha] using this

theorem climb_stop (inner : List Node) (hi : Open inner) (n m : Node) (rest : List Node) (hn : n.stops = true) :
    climb (inner ++ n :: m :: rest) = some (n, m :: rest) := by
  induction inner with
  | nil => simp [climb, hn]
  | cons a l ih =>
    have ha : a.stops = false := hi a (by simp)
    have := ih fun n hn => hi n (by simp [hn])
    cases l with
    | nil => simpa [climb, ha] using this
    | cons b l => simpa [climb, ha] using this

theorem findDef_top (env : Env) {anc : List Node} (h : TopLevel anc) : env.findDef anc = .global := by
  cases h with
  | @file inner hi hp =>
    have hc := climb_open inner hi
    cases inner with
    | nil => rfl
    | cons a l =>
      have ha : a ≠ .include := fun e => hp (by simp [e])
      simp only [List.cons_append] at hc ⊢
      simp [Env.findDef, hc, ha, Env.dispatch]
  | @enum_ inner hi hp =>
    have hc := climb_stop inner hi .enum_ .sourceFile [] rfl
    cases inner with
    | nil => rfl
    | cons a l =>
      have ha : a ≠ .include := fun e => hp (by simp [e])
      simp only [List.cons_append] at hc ⊢
      simp [Env.findDef, hc, ha, Env.dispatch]

theorem findDef_typedef (env : Env) {anc : List Node} {t : Name} (h : InTypedef t anc) : env.findDef anc = .typedef (some t) := by
  obtain ⟨inner, hi, hp, rfl⟩ := h
  have hc := climb_stop inner hi (.typedef (some t)) .sourceFile [] rfl
  cases inner with
  | nil => rfl
  | cons a l =>
    have ha : a ≠ .include := fun e => hp (by simp [e])
    simp only [List.cons_append] at hc ⊢
    simp [Env.findDef, hc, ha, Env.dispatch]

theorem findDef_at_top (w : World) (file : FileId) {anc : List Node} (h : TopLevel anc) (x : Name) :
    w.findDef file anc x = .of ((w.ident file x).bind (source file)) := by
  simp only [World.findDef, findDef_top _ h]

theorem ident_sole {w : World} {file f : FileId} {x : Name} {d : Def} (h : Sole w file x f d) :
    w.ident file x = some (if d.kind = .function then .functions [(f, d)] else .one f d) := by
  have h1 : dedup (entries (fileDefMaps w.items file (w.nodes file)) x) = [(d, f)] := by
    apply Props.Globals.dedup_all_eq
    · intro hn
      have := (Props.Globals.mem_entries w.items file (w.nodes file) x f d).2 h.1
      rw [hn] at this
      simp at this
    · rintro ⟨d', f'⟩ hm
      have := h.2 f' d' ((Props.Globals.mem_entries w.items file (w.nodes file) x f' d').1 hm)
      simp_all
  unfold World.ident resolve
  rw [h1]
  by_cases hk : d.kind = .function <;> simp [pick, hk]

/-- Asking for the definition of a name at the top level of a file never panics. -/
theorem no_crash (w : World) (file : FileId) {anc : List Node} (h : TopLevel anc ∨ ∃ t, InTypedef t anc) (x : Name) :
    w.findDef file anc x ≠ .crash := by
  rcases h with h | ⟨t, h⟩
  · rw [findDef_at_top w file h]
    cases (w.ident file x).bind (source file) <;> simp [Result.of]
  · simp only [World.findDef, findDef_typedef _ h]
    cases w.typedefNode file x (some t) <;> simp [Result.of]

theorem of_ne_crash (o : Option (FileId × Def)) : Result.of o ≠ .crash := by cases o <;> simp [Result.of]

/-- The panics are those of the way to the function around the place (C60), wherever the name is. -/
theorem crashes_alike (w : World) (file : FileId) (anc : List Node) (x : Name) : w.findDef file anc x = .crash ↔ (w.env file).findDef anc = .crash := by
  unfold World.findDef
  cases (w.env file).findDef anc with
  | crash => simp
  | nothing | file => simp
  | global => simp [of_ne_crash]
  | typedef name => simp [of_ne_crash]
  | inside f b =>
    cases b with
    | true => simp
    | false => simp [of_ne_crash]

/-- In a typedef without a name nothing is found. -/
theorem nameless_typedef (w : World) (file : FileId) (anc : List Node) (x : Name) (h : (w.env file).findDef anc = .typedef none) : w.findDef file anc x = .nothing := by
  simp [World.findDef, h, World.typedefNode, Result.of]

theorem mem_source {file : FileId} {v : Value} {p : FileId × Def} (h : source file v = some p) : p ∈ Globals.Spec.Value.defs v := by
  cases v with
  | functions fs => exact List.mem_of_find?_eq_some h
  | one f d =>
    simp only [source] at h
    split at h
    · simp_all [Globals.Spec.Value.defs]
    · simp at h

theorem mem_tryFrom {v : Value} {p : FileId × Def} (h : tryFrom v = some p) : p ∈ Globals.Spec.Value.defs v := by
  cases v with
  | functions fs => exact List.mem_of_mem_head? h
  | one f d => simp_all [tryFrom, Globals.Spec.Value.defs]

/-- **C88**, first part: whatever is answered, is a declaration of this name in the file or in its project. -/
theorem sound (w : World) (file : FileId) {anc : List Node} (h : TopLevel anc ∨ ∃ t, InTypedef t anc) (x : Name) (f : FileId) (d : Def)
    (ha : w.findDef file anc x = .found f d) : Globals.Spec.Declares w.items file (w.nodes file) x f d := by
  have key : ∀ g : Value → Option (FileId × Def), (∀ v p, g v = some p → p ∈ Globals.Spec.Value.defs v) → (w.ident file x).bind g = some (f, d) →
      Globals.Spec.Declares w.items file (w.nodes file) x f d := by
    intro g hg hb
    obtain ⟨v, hv, hgv⟩ := Option.bind_eq_some_iff.1 hb
    exact Props.Globals.sound w.items file (w.nodes file) x v hv _ (hg _ _ hgv)
  have of_found : ∀ o, Result.of o = .found f d → o = some (f, d) := by
    rintro (_ | ⟨f', d'⟩) ho <;> simp_all [Result.of]
  rcases h with h | ⟨t, h⟩
  · rw [findDef_at_top w file h] at ha
    exact key _ (fun _ _ => mem_source) (of_found _ ha)
  · simp only [World.findDef, findDef_typedef _ h] at ha
    have := of_found _ ha
    simp only [World.typedefNode] at this
    split at this
    · exact key _ (fun _ _ => mem_tryFrom) this
    · simp at this

/-- **C88** at the top level of a file, for a name that is declared once in the project: macros, variables, enums and their entries, enum structs and
methodmaps of any file, and functions of the same file, are found. Missing: functions of other files and type definitions
(`elsewhere_refuted`, `type_refuted`). -/
theorem sole_partial (w : World) (file : FileId) {anc : List Node} (h : TopLevel anc) (x : Name) (f : FileId) (d : Def) (hs : Sole w file x f d)
    (hk : d.kind ∈ [Kind.macro_, .global, .enumStruct, .methodmap, .enum_, .variant] ∨ (d.kind = .function ∧ f = file)) :
    w.findDef file anc x = .found f d := by
  rw [findDef_at_top w file h, ident_sole hs]
  rcases hk with hk | ⟨hk, rfl⟩
  · have hnf : d.kind ≠ .function := fun e => by rw [e] at hk; exact absurd hk (by decide)
    have hl : listed d.kind = true := by
      simp only [List.mem_cons, List.not_mem_nil, or_false] at hk
      rcases hk with hk | hk | hk | hk | hk | hk <;> rw [hk] <;> rfl
    simp [hnf, source, hl, Result.of]
  · simp [hk, source, Result.of]

/-- A methodmap is found even if an enum, or anything else, has the same name. -/
theorem methodmap_found (w : World) (file : FileId) {anc : List Node} (h : TopLevel anc) (x : Name) (f : FileId) (d : Def)
    (hd : Globals.Spec.Declares w.items file (w.nodes file) x f d) (hk : d.kind = .methodmap) :
    ∃ f' d', w.findDef file anc x = .found f' d' ∧ d'.kind = .methodmap ∧ Globals.Spec.Declares w.items file (w.nodes file) x f' d' := by
  obtain ⟨f', d', hr, hk', hd'⟩ := Props.Globals.methodmap_first w.items file (w.nodes file) x f d hd hk
  refine ⟨f', d', ?_, hk', hd'⟩
  rw [findDef_at_top w file h, World.ident, hr]
  simp [source, hk', listed, Result.of]

/-- A function declared in the file itself is found, whatever functions of this name there are elsewhere. -/
theorem own_function_found (w : World) (file : FileId) {anc : List Node} (h : TopLevel anc) (x : Name) (d : Def)
    (hd : Globals.Spec.Declares w.items file (w.nodes file) x file d)
    (hk : ∀ f' d', Globals.Spec.Declares w.items file (w.nodes file) x f' d' → d'.kind = .function) :
    ∃ d', w.findDef file anc x = .found file d' ∧ Globals.Spec.Declares w.items file (w.nodes file) x file d' := by
  obtain ⟨fs, hr, hm⟩ := Props.Globals.all_functions w.items file (w.nodes file) x file d hd hk
  have hin := (hm file d).2 hd
  obtain ⟨⟨f', d'⟩, hf⟩ := Option.isSome_iff_exists.1 (List.find?_isSome.2 ⟨_, hin, by simp⟩ : (fs.find? fun p => p.1 = file).isSome = true)
  have he : f' = file := by simpa using List.find?_some hf
  subst he
  refine ⟨d', ?_, (hm _ _).1 (List.mem_of_find?_eq_some hf)⟩
  rw [findDef_at_top w f' h, World.ident, hr]
  simp [source, hf, Result.of]

/-- **C88** in a typedef that is the first declaration of its name: a name that is declared once is found, whatever it is. -/
theorem in_typedef (w : World) (file : FileId) {anc : List Node} {t : Name} (h : InTypedef t anc) (ht : ∃ i, (w.env file).first t = some ⟨.typedef, i⟩)
    (x : Name) (f : FileId) (d : Def) (hs : Sole w file x f d) : w.findDef file anc x = .found f d := by
  obtain ⟨i, hi⟩ := ht
  simp only [World.findDef, findDef_typedef _ h, World.typedefNode, hi, ident_sole hs]
  by_cases hk : d.kind = .function <;> simp [hk, tryFrom, Result.of]

/-- **C88** in the signature of a member without body, like a native of a methodmap, that is found in its type (see C60): a name that is
declared once is found, whatever it is, unless it is `this`. -/
theorem in_native (w : World) (file : FileId) {anc : List Node} {g : Fn} (h : (w.env file).findDef anc = .inside g false)
    (x : Name) (hx : x ≠ "this".toList) (f : FileId) (d : Def) (hs : Sole w file x f d) : w.findDef file anc x = .found f d := by
  simp only [World.findDef, h, World.member, hx, false_and, if_false, ident_sole hs]
  by_cases hk : d.kind = .function <;> simp [hk, tryFrom, Result.of]

/-- **C88 is violated** for functions of other files: the name of a function that is declared once, in an included file, is not found from
any place at the top level. -/
theorem elsewhere_refuted (w : World) (file : FileId) {anc : List Node} (h : TopLevel anc) (x : Name) (f : FileId) (d : Def) (hs : Sole w file x f d)
    (hk : d.kind = .function) (hf : f ≠ file) : w.findDef file anc x = .nothing := by
  rw [findDef_at_top w file h, ident_sole hs]
  simp [hk, source, Result.of, hf]

/-- **C88 is violated** for type definitions: a typedef, typeset, functag or funcenum used as a type at the top level, like in the signature of
a native, is not found. -/
theorem type_refuted (w : World) (file : FileId) {anc : List Node} (h : TopLevel anc) (x : Name) (f : FileId) (d : Def) (hs : Sole w file x f d)
    (hk : d.kind ∈ [Kind.typedef, .typeset, .functag, .funcenum]) : w.findDef file anc x = .nothing := by
  rw [findDef_at_top w file h, ident_sole hs]
  have hnf : d.kind ≠ .function := fun e => by rw [e] at hk; exact absurd hk (by decide)
  have hl : listed d.kind = false := by
    simp only [List.mem_cons, List.not_mem_nil, or_false] at hk
    rcases hk with hk | hk | hk | hk <;> rw [hk] <;> rfl
  simp [hnf, source, hl, Result.of]

/-! ## A project -/

/-- `a.sp` includes `timers.inc`, which defines the typeset `Timer`, the enum `Flags` and the function `Hook`. -/
def sampleItems : FileId → List Item
  | 0 => [⟨.global, some "g".toList, 0⟩, ⟨.typedef, some "T".toList, 5⟩, ⟨.function, some "Own".toList, 6⟩, ⟨.enumStruct, some "E".toList, 7⟩]
  | 1 => [⟨.typeset, some "Timer".toList, 1⟩, ⟨.enum_, some "Flags".toList, 2⟩, ⟨.function, some "Hook".toList, 3⟩]
  | _ => []

def sampleWorld : World where
  env f := { items := sampleItems f, ess := fun _ => [.method "m".toList 9], mms := fun _ => ⟨0, none, []⟩, order := fun _ l => l, isGetter := fun _ => false, fuel := 1 }
  nodes _ := some [1, 0]
  this _ _ := none

/-- In the declaration of a global variable or a native. -/
def sampleAnc : List Node := [.other, .other, .sourceFile]

theorem sampleTop : TopLevel sampleAnc := .file (inner := [.other, .other]) (by intro n hn; simp_all [Node.stops]) (by simp)

theorem sampleSole : Sole sampleWorld 0 "Timer".toList 1 ⟨.typeset, 1⟩ ∧ Sole sampleWorld 0 "Flags".toList 1 ⟨.enum_, 2⟩ ∧
    Sole sampleWorld 0 "Hook".toList 1 ⟨.function, 3⟩ ∧ Sole sampleWorld 0 "Own".toList 0 ⟨.function, 6⟩ := by
  refine ⟨⟨⟨.inr ⟨_, rfl, by simp⟩, by decide, by decide⟩, ?_⟩, ⟨⟨.inr ⟨_, rfl, by simp⟩, by decide, by decide⟩, ?_⟩,
    ⟨⟨.inr ⟨_, rfl, by simp⟩, by decide, by decide⟩, ?_⟩, ⟨⟨.inl rfl, by decide, by decide⟩, ?_⟩⟩ <;>
  · rintro f' ⟨k, i⟩ ⟨hv, hm, _⟩
    have : f' = 0 ∨ f' = 1 := by
      rcases hv with rfl | ⟨fs, hfs, hf⟩
      · exact .inl rfl
      · simp only [sampleWorld, Option.some.injEq] at hfs
        subst hfs
        simp only [List.mem_cons, List.not_mem_nil, or_false] at hf
        exact hf.symm
    rcases this with rfl | rfl <;> simp_all [World.items, sampleWorld, sampleItems]

example : sampleWorld.findDef 0 sampleAnc "Flags".toList = .found 1 ⟨.enum_, 2⟩ :=
  sole_partial sampleWorld 0 sampleTop _ _ _ sampleSole.2.1 (.inl (by decide))
example : sampleWorld.findDef 0 sampleAnc "Own".toList = .found 0 ⟨.function, 6⟩ :=
  sole_partial sampleWorld 0 sampleTop _ _ _ sampleSole.2.2.2 (.inr ⟨rfl, rfl⟩)
example : sampleWorld.findDef 0 sampleAnc "Hook".toList = .nothing := elsewhere_refuted sampleWorld 0 sampleTop _ _ _ sampleSole.2.2.1 rfl (by decide)
example : sampleWorld.findDef 0 sampleAnc "Timer".toList = .nothing := type_refuted sampleWorld 0 sampleTop _ _ _ sampleSole.1 (by decide)
example : sampleWorld.findDef 0 [.other, .typedef (some "T".toList), .sourceFile] "Timer".toList = .found 1 ⟨.typeset, 1⟩ :=
  in_typedef sampleWorld 0 ⟨[.other], by intro n hn; simp_all [Node.stops], by simp, rfl⟩ ⟨5, by decide +kernel⟩ _ _ _ sampleSole.1
example : sampleWorld.findDef 0 [.other, .member (some "m".toList) .none, .container (some "E".toList), .sourceFile] "Timer".toList = .found 1 ⟨.typeset, 1⟩ :=
  in_native sampleWorld 0 (g := .es 7 0) (by decide +kernel) _ (by decide) _ _ sampleSole.1

end Verif.Props.Outside
