import Verif.Ide.GotoInclude
import Verif.Props.Goto
import Verif.Props.Resolve
/-!
# C100: going to the definition from an include directive opens the file it includes
-/

namespace Verif.Props.GotoInclude
open Verif.Pre Verif.Pre.Spec Verif.Ide.Goto Verif.Ide.Goto.Spec Verif.Ide.GotoInclude Verif.Ide.GotoInclude.Spec Verif.Props.Goto
open Verif.Include (Outcome)

/-! ### The node at a position -/

theorem range_ordered : ∀ (t : Node), Ordered t → Pos.le t.range.s t.range.e := fun t h => (leaf_within t h).1

theorem node_in_child {p : Pos} {c : Node} (hs : Pos.le c.range.s p) (he : before p c.range.e = true) :
    ∀ (cs : List Node) (lo hi : Pos), OrderedIn lo cs hi → c ∈ cs → nodeIn p cs = some (nodeAt p c)
  | [], _, _, _, h => by cases h
  | d :: cs, lo, hi, ho, h => by
    obtain ⟨h1, h2, h3⟩ := ho
    by_cases hd : c = d
    · subst hd
      have hb' : before p c.range.s = false := by rw [← Bool.not_eq_true, before_iff, not_not]; exact hs
      rw [nodeIn, he, if_neg (by simp), hb', if_neg (by simp)]
    · have hc : c ∈ cs := by
        rcases List.mem_cons.1 h with h | h
        · exact absurd h hd
        · exact h
      have hstart : ∀ (cs : List Node) (lo : Pos), OrderedIn lo cs hi → c ∈ cs → Pos.le lo c.range.s := by
        intro cs
        induction cs with
        | nil => intro _ _ h; cases h
        | cons e cs ih =>
          rintro lo ⟨g1, g2, g3⟩ h
          rcases List.mem_cons.1 h with rfl | h
          · exact g1
          · exact le_trans g1 (le_trans (range_ordered e g2) (ih _ g3 h))
      have hb : before p d.range.e = false := by
        rw [← Bool.not_eq_true, before_iff, not_not]
        exact le_trans (hstart cs _ h3 hc) hs
      rw [nodeIn, hb, if_pos rfl]
      exact node_in_child hs he cs _ hi h3 hc

theorem ordered_child {hi : Pos} : ∀ {cs : List Node} {lo : Pos}, OrderedIn lo cs hi → ∀ c ∈ cs, Ordered c ∧ Pos.le lo c.range.s ∧ Pos.le c.range.e hi
  | [], _, _, c, h => by cases h
  | d :: cs, lo, ⟨h1, h2, h3⟩, c, h => by
    rcases List.mem_cons.1 h with rfl | h
    · exact ⟨h2, h1, (leaf_within_in cs _ hi h3).1⟩
    · obtain ⟨g1, g2, g3⟩ := ordered_child h3 c h
      exact ⟨g1, le_trans h1 (le_trans (range_ordered d h2) g2), g3⟩

theorem sub_within {n t : Node} (h : Sub n t) : Ordered t → Pos.le t.range.s n.range.s ∧ Pos.le n.range.e t.range.e := by
  induction h with
  | refl => exact fun _ => ⟨le_refl _, le_refl _⟩
  | @child c k r f cs hc _ ih =>
    intro ho
    have ho' : OrderedIn r.s cs r.e := ho
    obtain ⟨h1, h2, h3⟩ := ordered_child (lo := r.s) ho' _ hc
    obtain ⟨h4, h5⟩ := ih h1
    exact ⟨le_trans h2 h4, le_trans h5 h3⟩

/-- The position is in the node and in none of its children. -/
theorem node_at_sub {p : Pos} {n t : Node} (h : Sub n t) (hs : Pos.le n.range.s p) (he : before p n.range.e = true) (hn : nodeIn p n.children = none) :
    Ordered t → nodeAt p t = n := by
  induction h with
  | refl =>
    intro _
    cases n with
    | mk k r f cs => simp only [Node.children] at hn; rw [nodeAt, hn]; rfl
  | @child c k r f cs hc hsub ih =>
    intro ho
    have ho' : OrderedIn r.s cs r.e := ho
    obtain ⟨h1, h2, h3⟩ := ordered_child (lo := r.s) ho' _ hc
    obtain ⟨h4, h5⟩ := sub_within hsub h1
    have hs' : Pos.le c.range.s p := le_trans h4 hs
    have he' : before p c.range.e = true := by
      rw [before_iff] at he ⊢
      exact fun hc => he (le_trans h5 hc)
    rw [nodeAt, node_in_child hs' he' cs _ _ ho' hc, ih h1]
    rfl

/-! ### The answer -/

/-- The path of a directive, and its keyword, are children of the directive: `find_def` resolves the directive. -/
theorem included (names : Hir.Outside.World) (file : Nat) (x : List Char) : names.findDef file [.include, .sourceFile] x = .included := by
  simp [Hir.Outside.World.findDef, Hir.FindDef.Env.findDef, Hir.FindDef.climb, Hir.FindDef.Node.stops]

/-- A directive without a path, such as `#include` at the end of a file that is being written, has no target, and asking for it does not panic. -/
theorem without_path {Def : Type} (mk : Nat → Def) (w : Include.World) (names : Hir.Outside.World) (other : Hir.Outside.Result → Option Def) (file : Nat) (x : List Char) :
    findDef mk w names other file [.include, .sourceFile] none x = some none := by
  simp only [findDef, included, includeDef, Option.map_some, Option.map_none]

theorem answer {Def : Type} {S : Sema Def} {mk : Nat → Def} (hd : FileDefs S mk) {file n a b u c : Nat} {r : PSt} (hr : S.results file = r) {node : Node} {res : Option Nat}
    (e1 : uToS r.argsMap r.offsets ⟨n, u⟩ = (⟨n, c⟩, none)) (e2 : (onLine r.offsets n).find? (·.contains ⟨n, u⟩) = none)
    (e3 : nodeAt ⟨n, c⟩ (S.trees file) = node) (e4 : sToU r.offsets node.range = wordRange n a b) (e5 : S.findDef file node = res.map mk) :
    goto S file ⟨n, u⟩ = res.map fun f => (wordRange n a b, ⟨f, sToU (S.results f).offsets (S.trees f).range, sToU (S.results f).offsets (innerName (S.trees f))⟩) := by
  have hm : macroAt S (S.results file).offsets ⟨n, u⟩ = none := by
    simp only [macroAt, hr]
    rw [e2]; rfl
  rw [goto, hm]
  cases res with
  | none => simp [toOther, hr, e1, e3, e5]
  | some f => simp [toOther, hr, e1, e3, e4, e5, hd.fileOf, hd.source]

theorem back_zero : ∀ os : List Offset, backCol os 0 = 0
  | [] => rfl
  | o :: os => by rw [backCol, if_neg (by omega), back_zero os]

/-- **C100 (for files of a class)**: the file has an include directive with a name in quotes, as `#include "name"`, in code that is compiled. Wherever the
position is inside of the quotes, the string with its quotes is underlined, and the target is the file that the include relation has for the directive, which
is also where its macros come from; without such a file there is no target. If the file starts with something to parse, the target starts where the file
does. Missing: other files (as C80), directives with both kinds of names (C55). -/
theorem quoted_partial (env : Env) (ms : Macros) (tokens : List Sym) (lines : List Line) (hf : File env 0 ⟨ms, 0, []⟩ tokens lines) (hb : Unbroken lines)
    (w : Include.World) (names : Hir.Outside.World) (file : Nat) (isTry : Bool) (n : Nat) (line : Line) (hl : lines[n]? = some line) (hk : line.kept) (hus : line.uses = [])
    (ws pre name post : Str) (hsrc : line.src = ws ++ (pre ++ '"' :: (name ++ '"' :: post)))
    (h1 : '"' ∉ pre) (h2 : '"' ∉ name) (h3 : '"' ∉ post) (hg : '>' ∉ name) (hne : name ≠ []) (hc : '<' ∉ pre ++ '"' :: (name ++ '"' :: post))
    (o : Outcome) (ho : w.fileInclude file isTry (pre ++ '"' :: (name ++ '"' :: post)) = some o) :
    ∃ r place res, Gives env ms tokens (.result r) ∧ SameText lines (textLines r.out) place ∧ (∀ f, res = some f ↔ ∃ q e, o = .resolved f q e) ∧
      w.preprocessorIncludes file (pre ++ '"' :: (name ++ '"' :: post)) = some [res] ∧
      ∀ {Def : Type} (S : Sema Def) (mk : Nat → Def) (other : Hir.Outside.Result → Option Def), FileDefs S mk → S.results file = r → Ordered (S.trees file) →
      ∀ a b, a = ws.length + pre.length → b = a + name.length + 2 →
      ∀ node, Sub node (S.trees file) → node.range = wordRange n (place n a) (place n a + (b - a)) → QuotedNode node n (place n a) (place n a + (b - a)) →
      some (S.findDef file node) = findDef mk w names other file [.include, .sourceFile] (some ⟨true, '"' :: (name ++ ['"'])⟩) ('"' :: (name ++ ['"'])) →
      ∀ u, a < u → u + 1 < b → ∃ full focus : Nat → Rng, goto S file ⟨n, u⟩ = res.map (fun f => (wordRange n a b, ⟨f, full f, focus f⟩)) ∧
        ∀ f, (S.trees f).range.s = ⟨0, 0⟩ → (full f).s = ⟨0, 0⟩ := by
  obtain ⟨r, g1, t1, w1, b1⟩ := words hf hb
  obtain ⟨res, p1, p2, p3⟩ := Verif.Props.Resolve.copies_agree_quoted w file isTry pre name post h1 h2 h3 hg hne hc o ho
  refine ⟨r, placeOf r, res, g1, t1, p3, p1, ?_⟩
  intro Def S mk other hd hr hord a b ha hbb node hsub hnr hq hfind u hu1 hu2
  have hw : Word lines n a b := ⟨line, hl, hk, by omega, by rw [hsrc]; simp only [List.length_append, List.length_cons]; omega, by rw [hus]; simp⟩
  have hap : Apart lines n a := by
    intro l hl' x hx
    rw [hl] at hl'; cases hl'
    rw [hus] at hx; cases hx
  obtain ⟨e1, e2⟩ := w1 n a b hw hap u (by omega) (by omega)
  have hnode : nodeAt ⟨n, placeOf r n a + (u - a)⟩ (S.trees file) = node := by
    refine node_at_sub hsub ?_ ?_ ?_ hord
    · rw [hnr]; exact .inr ⟨rfl, by simp only [wordRange]; omega⟩
    · rw [hnr, before_iff]; simp only [Pos.le, wordRange]; omega
    · obtain ⟨q, q', e, hqr, hqr'⟩ := hq
      have hb1 : before ⟨n, placeOf r n a + (u - a)⟩ q.range.e = false := by
        rw [← Bool.not_eq_true, before_iff, not_not, hqr]; exact .inr ⟨rfl, by show placeOf r n a + 1 ≤ placeOf r n a + (u - a); omega⟩
      have hb2 : before ⟨n, placeOf r n a + (u - a)⟩ q'.range.e = true := by
        rw [before_iff, hqr']; simp only [Pos.le, wordRange]; omega
      have hb3 : before ⟨n, placeOf r n a + (u - a)⟩ q'.range.s = true := by
        rw [before_iff, hqr']; simp only [Pos.le, wordRange]; omega
      rw [e, nodeIn, hb1, if_pos rfl, nodeIn, hb2, if_neg (by simp), hb3, if_pos rfl]
  have hdef : S.findDef file node = res.map mk := by
    rw [findDef, included] at hfind
    simp only [includeDef, p2, Option.map_some, Option.some.injEq] at hfind
    rw [hfind]; rfl
  refine ⟨_, _, answer hd hr e1 e2 hnode (by rw [hnr]; exact b1 n a b hw) hdef, ?_⟩
  intro f hf0
  simp only [sToU, hf0, back_zero]

/-- **C100 (for files of a class)**: the same for a name in angle brackets, as `#include <name>`; the position may be on the brackets as well. -/
theorem chevron_partial (env : Env) (ms : Macros) (tokens : List Sym) (lines : List Line) (hf : File env 0 ⟨ms, 0, []⟩ tokens lines) (hb : Unbroken lines)
    (w : Include.World) (names : Hir.Outside.World) (file : Nat) (isTry : Bool) (n : Nat) (line : Line) (hl : lines[n]? = some line) (hk : line.kept) (hus : line.uses = [])
    (ws pre name post : Str) (hsrc : line.src = ws ++ (pre ++ '<' :: (name ++ '>' :: post)))
    (h1 : '<' ∉ pre) (hg : '>' ∉ name) (hne : name ≠ []) (hq : '"' ∉ pre ++ '<' :: (name ++ '>' :: post))
    (o : Outcome) (ho : w.fileInclude file isTry (pre ++ '<' :: (name ++ '>' :: post)) = some o) :
    ∃ r place res, Gives env ms tokens (.result r) ∧ SameText lines (textLines r.out) place ∧ (∀ f, res = some f ↔ ∃ q e, o = .resolved f q e) ∧
      w.preprocessorIncludes file (pre ++ '<' :: (name ++ '>' :: post)) = some [res] ∧
      ∀ {Def : Type} (S : Sema Def) (mk : Nat → Def) (other : Hir.Outside.Result → Option Def), FileDefs S mk → S.results file = r → Ordered (S.trees file) →
      ∀ a b, a = ws.length + pre.length → b = a + name.length + 2 →
      ∀ node, Sub node (S.trees file) → node.range = wordRange n (place n a) (place n a + (b - a)) → ChevronNode node →
      some (S.findDef file node) = findDef mk w names other file [.include, .sourceFile] (some ⟨false, '<' :: (name ++ ['>'])⟩) ('<' :: (name ++ ['>'])) →
      ∀ u, a ≤ u → u < b → ∃ full focus : Nat → Rng, goto S file ⟨n, u⟩ = res.map (fun f => (wordRange n a b, ⟨f, full f, focus f⟩)) ∧
        ∀ f, (S.trees f).range.s = ⟨0, 0⟩ → (full f).s = ⟨0, 0⟩ := by
  obtain ⟨r, g1, t1, w1, b1⟩ := words hf hb
  obtain ⟨res, p1, p2, p3⟩ := Verif.Props.Resolve.copies_agree_chevron w file isTry pre name post h1 hg hne hq o ho
  refine ⟨r, placeOf r, res, g1, t1, p3, p1, ?_⟩
  intro Def S mk other hd hr hord a b ha hbb node hsub hnr hch hfind u hu1 hu2
  have hw : Word lines n a b := ⟨line, hl, hk, by omega, by rw [hsrc]; simp only [List.length_append, List.length_cons]; omega, by rw [hus]; simp⟩
  have hap : Apart lines n a := by
    intro l hl' x hx
    rw [hl] at hl'; cases hl'
    rw [hus] at hx; cases hx
  obtain ⟨e1, e2⟩ := w1 n a b hw hap u (by omega) (by omega)
  have hnode : nodeAt ⟨n, placeOf r n a + (u - a)⟩ (S.trees file) = node := by
    refine node_at_sub hsub ?_ ?_ ?_ hord
    · rw [hnr]; exact .inr ⟨rfl, by simp only [wordRange]; omega⟩
    · rw [hnr, before_iff]; simp only [Pos.le, wordRange]; omega
    · rw [show node.children = [] from hch]; rfl
  have hdef : S.findDef file node = res.map mk := by
    rw [findDef, included] at hfind
    simp only [includeDef, p2, Option.map_some, Option.some.injEq] at hfind
    rw [hfind]; rfl
  refine ⟨_, _, answer hd hr e1 e2 hnode (by rw [hnr]; exact b1 n a b hw) hdef, ?_⟩
  intro f hf0
  simp only [sToU, hf0, back_zero]

/-! ### Examples -/

/-- `#include "y.inc"⏎` and then nothing. -/
def incTokens (text : String) : List Sym :=
  [⟨.dir .include_, (text ++ "\n").toList, ⟨⟨0, 0⟩, ⟨1, 0⟩⟩, ⟨0, 0⟩, none, false⟩, ⟨.eof, [], ⟨⟨1, 0⟩, ⟨1, 0⟩⟩, ⟨0, 0⟩, none, false⟩]

/-- Two files in a directory. -/
def two : Include.World :=
  ⟨[⟨"/p".toList, [("/p/x.sp".toList, 0), ("/p/y.inc".toList, 1)], [(0, "/p/x.sp".toList), (1, "/p/y.inc".toList)]⟩], fun f => some f⟩

def noNames : Hir.Outside.World := ⟨fun _ => ⟨[], fun _ => [], fun _ => ⟨0, none, []⟩, fun _ l => l, fun _ => false, 9⟩, fun _ => some [], fun _ _ => none⟩

theorem inc_file (env : Env) (ms : Macros) (text : String) (h : trim (text ++ "\n").toList = text.toList) :
    File env 0 ⟨ms, 0, []⟩ (incTokens text) [⟨[] ++ text.toList, ms, [], .shown⟩, ⟨[], env.inc text.toList ms, [], .shown⟩] :=
  .include rfl (.inl rfl) h rfl rfl (by simp [Blanks]) rfl (.last (toks := []) (src := []) (ws := []) rfl .nil .nil rfl rfl (by simp [Blanks]) rfl)

theorem inc_unbroken (env : Env) (ms : Macros) (text : String) (h : breaks text.toList = 0) :
    Unbroken [⟨[] ++ text.toList, ms, [], .shown⟩, ⟨[], env.inc text.toList ms, [], .shown⟩] := by
  intro l hl _
  simp only [List.mem_cons, List.not_mem_nil, or_false] at hl
  rcases hl with rfl | rfl
  · exact ⟨h, by simp⟩
  · exact ⟨rfl, by simp⟩

/-- The hypotheses of `quoted_partial` hold for `#include "y.inc"`: a click on `y` goes to the file 1. -/
example : ∃ (S : Sema Nat) (full focus : Rng), Gives sampleEnv (fun _ => none) (incTokens "#include \"y.inc\"") (.result (S.results 0)) ∧
    goto S 0 ⟨0, 10⟩ = some (wordRange 0 9 16, ⟨1, full, focus⟩) ∧ full.s = ⟨0, 0⟩ := by
  obtain ⟨r, place, res, g, -, hres, -, h⟩ := quoted_partial sampleEnv _ _ _ (inc_file _ _ "#include \"y.inc\"" (by decide +kernel)) (inc_unbroken _ _ _ (by decide))
    two noNames 0 false 0 _ rfl (.inl rfl) rfl [] "#include ".toList "y.inc".toList [] rfl (by decide) (by decide) (by decide) (by decide) (by decide)
    (by decide) (.resolved 1 true .inc) (by decide +kernel)
  have hr1 : res = some 1 := (hres 1).2 ⟨_, _, rfl⟩
  let q : Node := sampleNode (.other 0) 0 (place 0 9) (place 0 9 + 1)
  let q' : Node := sampleNode (.other 0) 0 (place 0 9 + 7 - 1) (place 0 9 + 7)
  let node : Node := sampleNode (.other 0) 0 (place 0 9) (place 0 9 + 7) false [q, q']
  let S : Sema Nat := ⟨fun i => if i = 0 then node else sampleNode (.other 0) 0 0 5, fun _ => r, fun _ _ => none, fun _ _ => some 1, fun f => f, fun _ n => some n⟩
  obtain ⟨full, focus, e, e0⟩ := h S id (fun _ => none) ⟨fun _ => rfl, fun _ _ => rfl⟩ rfl
    (by simp [S, node, q, q', sampleNode, Ordered, OrderedIn, wordRange, Node.range, Pos.le]) 9 16 (by decide) (by decide) node (.refl _) rfl ⟨q, q', rfl, rfl, rfl⟩
    (by show some (some 1) = _; decide +kernel) 10 (by decide) (by decide)
  rw [hr1] at e
  exact ⟨S, full 1, focus 1, g, e, e0 1 rfl⟩

/-- The hypotheses of `chevron_partial` hold for `#include <y>`. -/
example : ∃ (S : Sema Nat) (full focus : Rng), Gives sampleEnv (fun _ => none) (incTokens "#include <y>") (.result (S.results 0)) ∧
    goto S 0 ⟨0, 9⟩ = some (wordRange 0 9 12, ⟨1, full, focus⟩) ∧ full.s = ⟨0, 0⟩ := by
  obtain ⟨r, place, res, g, -, hres, -, h⟩ := chevron_partial sampleEnv _ _ _ (inc_file _ _ "#include <y>" (by decide +kernel)) (inc_unbroken _ _ _ (by decide))
    two noNames 0 false 0 _ rfl (.inl rfl) rfl [] "#include ".toList "y".toList [] rfl (by decide) (by decide) (by decide)
    (by decide) (.resolved 1 false .inc) (by decide +kernel)
  have hr1 : res = some 1 := (hres 1).2 ⟨_, _, rfl⟩
  let node : Node := sampleNode (.other 0) 0 (place 0 9) (place 0 9 + 3)
  let S : Sema Nat := ⟨fun i => if i = 0 then node else sampleNode (.other 0) 0 0 5, fun _ => r, fun _ _ => none, fun _ _ => some 1, fun f => f, fun _ n => some n⟩
  obtain ⟨full, focus, e, e0⟩ := h S id (fun _ => none) ⟨fun _ => rfl, fun _ _ => rfl⟩ rfl
    (by simp [S, node, sampleNode, Ordered, OrderedIn, wordRange, Pos.le]) 9 12 (by decide) (by decide) node (.refl _) rfl rfl
    (by show some (some 1) = _; decide +kernel) 9 (by decide) (by decide)
  rw [hr1] at e
  exact ⟨S, full 1, focus 1, g, e, e0 1 rfl⟩

/-- **C100, refuted**: on the quotes of `#include "y.inc"` nothing is found although the directive is resolved: the node there is the quote, its parent is
the string and not the directive. -/
theorem quotes_refuted : two.fileInclude 0 false "#include \"y.inc\"".toList = some (.resolved 1 true .inc) ∧
    ∀ {Def : Type} (mk : Nat → Def) (other : Hir.Outside.Result → Option Def), other .nothing = none →
      findDef mk two noNames other 0 [.other, .include, .sourceFile] none "\"".toList = some none :=
  ⟨by decide +kernel, fun mk other h => by rw [← h]; rfl⟩

end Verif.Props.GotoInclude
