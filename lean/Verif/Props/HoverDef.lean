import Verif.Ide.HoverDef
import Verif.Props.Goto
/-!
# C91: hovering over a name shows the declaration that going to the definition leads to
-/

namespace Verif.Props.HoverDef

open Verif.Pre Verif.Pre.Spec Verif.Ide Verif.Ide.Goto Verif.Ide.Goto.Spec Verif.Ide.HoverDef Verif.Ide.HoverDef.Spec Verif.Props.Goto Verif.Props.Offsets Verif.Props.Position

/-! ## Hovering and going to the definition -/

/-- **Hovering and going to the definition agree**, wherever the position is: there is something to show exactly if there is a definition to
go to, and the same range is underlined. Of the code nothing is assumed but that the `#define` of a macro is in the tree of its file. -/
theorem agree {Def : Type} (cl : Markdown.Classes) (S : Sema Def) (docs : Nat → Node → List Str) (documentation : Bool) (file : Nat) (pos : Pos)
    (hm : ∀ o d, macroAt S (S.results file).offsets pos = some (o, d) → (S.source d (S.trees (S.fileOf d))).isSome = true) :
    (hover cl S docs documentation file pos).map (·.1) = (goto S file pos).map (·.1) := by
  unfold hover goto
  cases h : macroAt S (S.results file).offsets pos with
  | some x =>
    obtain ⟨o, d⟩ := x
    obtain ⟨n, hn⟩ := Option.isSome_iff_exists.1 (hm o d h)
    simp [macroHover, h, hn, toMacro]
  | none =>
    simp only [macroHover, h, Option.bind_eq_bind, Option.bind_none]
    simp only [otherHover, toOther]
    cases S.findDef file (nodeAt (uToS (S.results file).argsMap (S.results file).offsets pos).1 (S.trees file)) with
    | none => rfl
    | some d =>
      simp only [Option.bind_eq_bind, Option.bind_some]
      cases S.source d (S.trees (S.fileOf d)) with
      | none => rfl
      | some n => rfl

/-! ## The text -/

theorem row_map (f : Char → Char) (ls : List Str) (n : Nat) : (row ls n).map f = row (ls.map (List.map f)) n := by
  unfold row
  rw [List.getElem?_map]
  cases ls[n]? <;> simp

theorem region_map (f : Char → Char) (hf : f '\n' = '\n') (ls : List Str) (r : Rng) : (region ls r).map f = region (ls.map (List.map f)) r := by
  unfold region
  split
  · rw [List.map_drop, List.map_take, row_map]
  · rw [List.map_append, List.map_drop, row_map, List.map_cons, hf, List.map_append, List.map_take, row_map]
    congr 3
    rw [← List.map_take, ← List.map_drop, List.flatMap_map, List.map_flatMap]
    congr 1
    funext a
    simp [hf]

/-- Only the lines of a range matter. -/
theorem region_congr {a b : List Str} {r : Rng} (hr : r.s.line ≤ r.e.line) (h : ∀ n, r.s.line ≤ n → n ≤ r.e.line → a[n]? = b[n]?) : region a r = region b r := by
  have hrow : ∀ n, r.s.line ≤ n → n ≤ r.e.line → row a n = row b n := fun n h1 h2 => by unfold row; rw [h n h1 h2]
  unfold region
  rw [hrow _ (Nat.le_refl _) hr, hrow _ hr (Nat.le_refl _)]
  split
  · rfl
  · have : (a.take r.e.line).drop (r.s.line + 1) = (b.take r.e.line).drop (r.s.line + 1) := by
      apply List.ext_getElem?
      intro i
      simp only [List.getElem?_drop, List.getElem?_take]
      split
      · exact h _ (by omega) (by omega)
      · rfl
    rw [this]

/-- A line that is kept and has no macros is written as it is, with spaces for tabs. -/
theorem clear_row {lines : List Line} {out : List Str} {place : Nat → Nat → Nat} (h : SameText lines out place) {n : Nat} {line : Line} (hl : lines[n]? = some line)
    (hk : line.kept) (hu : line.uses = []) : ∃ txt, out[n]? = some txt ∧ txt.map shown = line.src.map shown := by
  obtain ⟨txt, segs, ho, ⟨h1, h2, h3, h4⟩, -⟩ := h n line hl hk
  refine ⟨txt, ho, ?_⟩
  have htext : ∀ x ∈ segs, ∃ k, x = .text k := by
    intro x hx
    cases x with
    | text k => exact ⟨k, rfl⟩
    | use k a o =>
      obtain ⟨p, q, hq⟩ := List.append_of_mem hx
      obtain ⟨w, hw, -⟩ := h4 p k a o q hq
      rw [hu] at hw
      simp at hw
  have same : ∀ l : List Seg, (∀ x ∈ l, ∃ k, x = .text k) → userLen l = serverLen l := by
    intro l hl
    induction l with
    | nil => rfl
    | cons x l ih =>
      obtain ⟨k, rfl⟩ := hl x (by simp)
      have := ih fun y hy => hl y (by simp [hy])
      simpa [userLen, serverLen, Seg.user, Seg.server] using this
  have hlen : txt.length = line.src.length := by rw [← h1, ← h2, same segs htext]
  have cover : ∀ (l : List Seg) (i : Nat), (∀ x ∈ l, ∃ k, x = .text k) → i < userLen l → ∃ pre k post j, l = pre ++ .text k :: post ∧ j < k ∧ i = userLen pre + j := by
    intro l
    induction l with
    | nil => intro i _ hi; simp [userLen] at hi
    | cons x l ih =>
      intro i hl hi
      obtain ⟨k, rfl⟩ := hl x (by simp)
      have e : userLen (.text k :: l) = k + userLen l := by simp [userLen, Seg.user]
      by_cases hik : i < k
      · exact ⟨[], k, l, i, rfl, hik, by simp [userLen]⟩
      · obtain ⟨pre, k', post, j, h1, h2, h3⟩ := ih (i - k) (fun y hy => hl y (by simp [hy])) (by omega)
        refine ⟨.text k :: pre, k', post, j, by rw [h1]; rfl, h2, ?_⟩
        have : userLen (.text k :: pre) = k + userLen pre := by simp [userLen, Seg.user]
        omega
  apply List.ext_getElem?
  intro i
  rw [List.getElem?_map, List.getElem?_map]
  by_cases hi : i < line.src.length
  · obtain ⟨pre, k, post, j, e1, e2, e3⟩ := cover segs i htext (by omega)
    have := h3 pre k post j e1 e2
    rw [← same pre fun x hx => htext x (by rw [e1]; simp [hx]), ← e3] at this
    exact this.symm
  · rw [List.getElem?_eq_none (by omega), List.getElem?_eq_none (by omega)]

theorem clear_region {lines : List Line} {out : List Str} {place : Nat → Nat → Nat} (h : SameText lines out place) {r : Rng} (hr : r.s.line ≤ r.e.line) (hc : Clear lines r) :
    (region out r).map shown = inSource lines r := by
  unfold inSource
  rw [region_map _ (by decide), region_map _ (by decide)]
  refine region_congr hr fun n h1 h2 => ?_
  obtain ⟨line, hl, hk, hu⟩ := hc n h1 h2
  obtain ⟨txt, ho, ht⟩ := clear_row h hl hk hu
  rw [List.getElem?_map, List.getElem?_map, List.getElem?_map, hl, ho]
  simp [ht]

/-- **C91 (for files of a class)**: if the position is on a word of the file which has a definition, the word is underlined, and what is shown
is the definition, on any number of lines, as it is written in its file (with spaces for tabs), with the comments that belong to it, if the
lines of the definition are compiled and free of macros. Missing: definitions with macros, of which the expansion is shown, and with lines
that are not compiled. -/
theorem hover_partial (env env' : Env) (ms ms' : Macros) (tokens tokens' : List Sym) (lines lines' : List Line)
    (hf : File env 0 ⟨ms, 0, []⟩ tokens lines) (hb : Unbroken lines) (hf' : File env' 0 ⟨ms', 0, []⟩ tokens' lines') (hb' : Unbroken lines') :
    ∃ r r' place, Gives env ms tokens (.result r) ∧ Gives env' ms' tokens' (.result r') ∧ SameText lines (textLines r.out) place ∧
      ∀ {Def : Type} (cl : Markdown.Classes) (S : Sema Def) (docs : Nat → Node → List Str) (documentation : Bool) (file : Nat), S.results file = r → Ordered (S.trees file) →
      ∀ n a b, Word lines n a b → Apart lines n a → ∀ leaf ∈ leaves (S.trees file), leaf.range = wordRange n (place n a) (place n a + (b - a)) →
      ∀ d node, S.findDef file leaf = some d → S.source d (S.trees (S.fileOf d)) = some node → S.results (S.fileOf d) = r' →
      node.range.s.line ≤ node.range.e.line → Clear lines' node.range →
      ∀ u, a ≤ u → u < b → ∃ text, text.map shown = inSource lines' node.range ∧
        hover cl S docs documentation file ⟨n, u⟩ = some (wordRange n a b, Markdown.hoverText cl documentation text (docs (S.fileOf d) node)) := by
  obtain ⟨r, g1, t1, w1, b1⟩ := words hf hb
  obtain ⟨r', g2, t2, w2, b2⟩ := words hf' hb'
  refine ⟨r, r', placeOf r, g1, g2, t1, ?_⟩
  intro Def cl S docs documentation file hr hord n a b hw hap leaf hleaf hlr d node hd hsrc hr' hle hclear u hu1 hu2
  obtain ⟨e1, e2⟩ := w1 n a b hw hap u hu1 hu2
  have hm : macroAt S (S.results file).offsets ⟨n, u⟩ = none := by
    simp only [macroAt, hr]
    rw [e2]; rfl
  have hnode : nodeAt ⟨n, placeOf r n a + (u - a)⟩ (S.trees file) = leaf := by
    refine node_at_leaf ?_ ?_ _ hord hleaf
    · rw [hlr]; exact .inr ⟨rfl, by simp only [wordRange]; omega⟩
    · rw [hlr, before_iff]; simp only [Pos.le, wordRange]; omega
  refine ⟨region (textLines r'.out) node.range, clear_region t2 hle hclear, ?_⟩
  have hmh : macroHover S file ⟨n, u⟩ = none := by simp [macroHover, hm]
  rw [hover, hmh]
  simp only [otherHover, hr, e1, hnode, hd, hsrc, hr', Option.bind_eq_bind, Option.bind_some, Option.getD_none, hlr, b1 n a b hw]

/-- **Over a macro**, its `#define` is shown and, below it, the expansion of C77, if there is one. -/
theorem macro_text {Def : Type} (cl : Markdown.Classes) (S : Sema Def) (docs : Nat → Node → List Str) (documentation : Bool) (file : Nat) (pos : Pos) {o : Offset} {d : Def} {n : Node}
    (hm : macroAt S (S.results file).offsets pos = some (o, d)) (hs : S.source d (S.trees (S.fileOf d)) = some n) :
    (∀ t, Hover.hoverText (S.results file).out (S.results file).offsets pos o = some t → hover cl S docs documentation file pos =
      some (o.range, Markdown.fencedBlock (region (textLines (S.results (S.fileOf d)).out) n.range) ++ "\nExpands to:\n".toList ++ Markdown.fencedBlock t)) ∧
    (Hover.hoverText (S.results file).out (S.results file).offsets pos o = none → hover cl S docs documentation file pos =
      some (o.range, Markdown.fencedBlock (region (textLines (S.results (S.fileOf d)).out) n.range))) := by
  have : macroHover S file pos = some (o.range, macroText (region (textLines (S.results (S.fileOf d)).out) n.range) (Hover.hoverText (S.results file).out (S.results file).offsets pos o)) := by
    simp [macroHover, hm, hs]
  rw [hover, this]
  exact ⟨fun t ht => by rw [ht]; rfl, fun ht => by rw [ht]; rfl⟩

/-! ## Examples -/

/-- The sample `y = A;⏎⇥B z` without macros. -/
def plainLines : List Line := [⟨"y = A;".toList, fun _ => none, [], .shown⟩, ⟨"\tB z".toList, fun _ => none, [], .shown⟩]

theorem plain_file (env : Env) : File env 0 ⟨fun _ => none, 0, []⟩ sampleTokens plainLines := by
  have hno : ∀ s : Sym, ¬ IsUse (fun _ => none) s := fun s h => h.2 rfl
  refine .code (ws := []) (src := "y = A;".toList) rfl ?_ ?_ ⟨rfl, rfl, rfl, by simp [Blanks], rfl⟩ (.last (ws := []) (src := "\tB z".toList) rfl ?_ ?_ rfl rfl (by simp [Blanks]) rfl)
  · exact .cons (ws := []) (by simp [Blanks]) (by decide) rfl rfl (.cons (ws := [' ']) (by simp [Blanks, shown]) (by decide) rfl rfl
      (.cons (ws := [' ']) (by simp [Blanks, shown]) (by decide) rfl rfl (.cons (ws := []) (by simp [Blanks]) (by decide) rfl rfl .nil)))
  · refine code_of _ fun s hs => ⟨?_, fun hu => absurd hu (hno s)⟩
    simp only [List.mem_cons, List.not_mem_nil, or_false] at hs
    rcases hs with rfl | rfl | rfl | rfl <;> trivial
  · exact .cons (ws := ['\t']) (by simp [Blanks, shown]) (by decide) rfl rfl (.cons (ws := [' ']) (by simp [Blanks, shown]) (by decide) rfl rfl .nil)
  · refine code_of _ fun s hs => ⟨?_, fun hu => absurd hu (hno s)⟩
    simp only [List.mem_cons, List.not_mem_nil, or_false] at hs
    rcases hs with rfl | rfl <;> trivial

theorem plain_unbroken : Unbroken plainLines := by
  intro l hl _
  simp only [plainLines, List.mem_cons, List.not_mem_nil, or_false] at hl
  rcases hl with rfl | rfl <;> exact ⟨by decide, by simp⟩

theorem plain_clear : Clear plainLines ⟨⟨0, 0⟩, ⟨1, 2⟩⟩ := by
  intro n h1 h2
  have : n = 0 ∨ n = 1 := by simp only at h2; omega
  rcases this with rfl | rfl <;> exact ⟨_, rfl, .inl rfl, rfl⟩

/-- The hypotheses of `hover_partial` hold together: `z` in one file, and a definition over both lines of the other, which is shown as
`y = A;⏎ B`. -/
example (cl : Markdown.Classes) : ∃ (S : Sema Unit) (text : Str), text.map shown = "y = A;\n B".toList ∧
    hover cl S (fun _ _ => []) true 0 ⟨1, 3⟩ = some (wordRange 1 3 4, Markdown.hoverText cl true text []) := by
  obtain ⟨r, r', place, -, -, -, h⟩ := hover_partial sampleEnv sampleEnv _ _ _ _ _ _ (sample_file _) sample_unbroken (plain_file _) plain_unbroken
  let leaf : Node := sampleNode (.other 0) 1 (place 1 3) (place 1 3 + (4 - 3))
  let decl : Node := .mk .variable_declaration ⟨⟨0, 0⟩, ⟨1, 2⟩⟩ false []
  let S : Sema Unit := ⟨fun i => if i = 0 then leaf else decl, fun i => if i = 0 then r else r', fun _ _ => none, fun _ _ => some (), fun _ => 1,
    fun _ n => some n⟩
  obtain ⟨text, e1, e2⟩ := h cl S (fun _ _ => []) true 0 rfl (by simp [S, leaf, sampleNode, Ordered, OrderedIn, wordRange, Pos.le]) 1 3 4 sample_words.1 sample_apart leaf
    (by simp [S, leaf, sampleNode, leaves]) rfl () decl rfl rfl rfl (by simp [decl, Node.range]) plain_clear 3 (by decide) (by decide)
  refine ⟨S, text, ?_, e2⟩
  rw [e1]
  decide +kernel

/-- The classes of characters in ASCII only. -/
def ascii : Markdown.Classes := ⟨Docs.isSpace, fun c => Markdown.letter c || Markdown.digit c || c == '_', fun _ _ => rfl, fun _ _ => rfl⟩

/-- Without documentation the classes do not matter. -/
theorem undocumented {Def : Type} (cl cl' : Markdown.Classes) (S : Sema Def) (docs : Nat → Node → List Str) (file : Nat) (pos : Pos) :
    hover cl S docs false file pos = hover cl' S docs false file pos := by
  simp only [hover, otherHover, Markdown.hoverText, Bool.false_eq_true, if_false]

/-- **The text of a definition with a macro is not the one in the source**: for `y = A;` the text `y = 1 + 2;` is shown. -/
theorem text_refuted : ∃ r, Gives sampleEnv sampleMacros sampleTokens (.result r) ∧ goto (sampleSema r) 0 ⟨1, 3⟩ = some (wordRange 1 3 4, ⟨0, wordRange 0 0 6, wordRange 0 0 1⟩) ∧
    region (sampleLines.map (·.src)) (wordRange 0 0 6) = "y = A;".toList ∧
    ∀ cl, hover cl (sampleSema r) (fun _ _ => []) false 0 ⟨1, 3⟩ = some (wordRange 1 3 4, "```sourcepawn\ny = 1 + 2;\n```".toList) := by
  refine ⟨_, Verif.Props.Conditional.gives_of 60 rfl, by decide +kernel, by decide +kernel, fun cl => ?_⟩
  rw [undocumented cl ascii]
  decide +kernel

end Verif.Props.HoverDef
