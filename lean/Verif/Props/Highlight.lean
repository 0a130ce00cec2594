import Verif.Ide.Highlight
import Verif.Props.Hover
import Verif.Props.SemTokens
/-!
# C78: exactly the macro uses are highlighted
-/

namespace Verif.Props.Highlight

open Verif.Pre Verif.Pre.Spec Verif.Ide.Highlight Verif.Props.Offsets
open Verif.Lsp.SemTokens (Abs)

/-- The entries of the smallest line come first in a list sorted by lines. -/
theorem split_first {α : Type} : ∀ (l : List (Nat × α)) (k : Nat), l.Pairwise (fun a b => a.1 ≤ b.1) → (∀ e ∈ l, k ≤ e.1) →
    l = l.filter (fun e => decide (e.1 = k)) ++ l.filter (fun e => decide (e.1 ≠ k))
  | [], _, _, _ => rfl
  | e :: l, k, hp, hk => by
    have hp' := List.pairwise_cons.1 hp
    by_cases h : e.1 = k
    · have ih := split_first l k hp'.2 (fun x hx => hk x (by simp [hx]))
      rw [List.filter_cons_of_pos (by simp [h]), List.filter_cons_of_neg (by simp [h]), List.cons_append, ← ih]
    · have hall : ∀ x ∈ l, x.1 ≠ k := fun x hx => by
        have := hp'.1 x hx
        have := hk e (by simp)
        omega
      rw [List.filter_cons_of_neg (by simp [h]), List.filter_cons_of_pos (by simp [h]),
        List.filter_eq_nil_iff.2 (fun x hx => by simpa using hall x hx), List.filter_eq_self.2 (fun x hx => by simpa using hall x hx), List.nil_append]

/-- Going through the lines in order gives the list back if it is sorted by lines. -/
theorem by_lines {α : Type} : ∀ (ks : List Nat) (l : List (Nat × α)), ks.Pairwise (· < ·) → l.Pairwise (fun a b => a.1 ≤ b.1) →
    (∀ k, k ∈ ks ↔ ∃ e ∈ l, e.1 = k) → ks.flatMap (onLine l) = l.map (·.2)
  | [], l, _, _, h => by
    cases l with
    | nil => rfl
    | cons e l => exact absurd ((h e.1).2 ⟨e, by simp, rfl⟩) (by simp)
  | k :: ks, l, hk, hl, h => by
    have hk' := List.pairwise_cons.1 hk
    have hge : ∀ e ∈ l, k ≤ e.1 := fun e he => by
      have := (h e.1).2 ⟨e, he, rfl⟩
      rcases List.mem_cons.1 this with h | h
      · omega
      · have := hk'.1 _ h; omega
    have ih := by_lines ks (l.filter (fun e => decide (e.1 ≠ k))) hk'.2 (hl.filter _) (fun k' => by
      constructor
      · intro hm
        obtain ⟨e, he, rfl⟩ := (h k').1 (by simp [hm])
        exact ⟨e, List.mem_filter.2 ⟨he, by have := hk'.1 _ hm; simp; omega⟩, rfl⟩
      · rintro ⟨e, he, rfl⟩
        obtain ⟨he, hne⟩ := List.mem_filter.1 he
        rcases List.mem_cons.1 ((h e.1).2 ⟨e, he, rfl⟩) with h' | h'
        · simp [h'] at hne
        · exact h')
    have hsame : ks.flatMap (onLine l) = ks.flatMap (onLine (l.filter (fun e => decide (e.1 ≠ k)))) := by
      rw [List.flatMap, List.flatMap]
      congr 1
      refine List.map_congr_left fun k' hm => ?_
      have hlt := hk'.1 _ hm
      unfold onLine
      rw [List.filter_filter]
      congr 1
      refine List.filter_congr fun e _ => ?_
      by_cases he : e.1 = k'
      · simp [he]; omega
      · simp [he]
    rw [List.flatMap_cons, hsame, ih]
    conv => rhs; rw [split_first l k hl hge]
    rw [List.map_append]
    rfl

theorem lines_spec (l : List (Nat × Offset)) : (lines l).Pairwise (· < ·) ∧ ∀ k, k ∈ lines l ↔ ∃ e ∈ l, e.1 = k := by
  have hperm := List.perm_insertionSort (· ≤ ·) ((l.map Prod.fst).dedup)
  have hsort := List.pairwise_insertionSort (· ≤ ·) ((l.map Prod.fst).dedup)
  have hnd : (lines l).Nodup := hperm.nodup_iff.2 (List.nodup_dedup _)
  constructor
  · have : (lines l).Pairwise (fun a b => a ≤ b ∧ a ≠ b) := by
      rw [List.pairwise_and_iff]
      exact ⟨hsort, hnd⟩
    exact this.imp (by intro a b h; omega)
  · intro k
    unfold lines
    rw [hperm.mem_iff, List.mem_dedup]
    simp

/-- Whatever offsets there are: a range is highlighted exactly if it was recorded for a use and touches the range asked for. -/
theorem highlight_mem (offsets : List (Nat × Offset)) (range r : Rng) :
    r ∈ highlight offsets range ↔ (∃ e ∈ offsets, e.2.range = r) ∧ ∃ p, In p r ∧ In p range := by
  have hi : ∀ a : Rng, (intersect a range).isSome = true ↔ ∃ p, In p a ∧ In p range := fun a => by
    have := (Verif.Props.Position.intersect_correct a range).2
    cases h : intersect a range with
    | none => simp [this.1 h]
    | some x =>
      simp only [Option.isSome_some, true_iff]
      refine Classical.byContradiction fun hn => ?_
      rw [this.2 hn] at h; cases h
  simp only [highlight, List.mem_flatMap, List.mem_map, List.mem_filter, (lines_spec offsets).2, onLine]
  constructor
  · rintro ⟨k, -, o, ⟨⟨e, ⟨he, hk⟩, rfl⟩, hin⟩, rfl⟩
    exact ⟨⟨e, he, rfl⟩, (hi _).1 hin⟩
  · rintro ⟨⟨e, he, rfl⟩, hp⟩
    exact ⟨e.1, ⟨e, he, rfl⟩, e.2, ⟨⟨e, ⟨he, by simp⟩, rfl⟩, (hi _).2 hp⟩, rfl⟩

theorem highlight_sorted (offsets : List (Nat × Offset)) (range : Rng) (h : offsets.Pairwise (fun a b => a.1 ≤ b.1)) :
    highlight offsets range = (offsets.map (·.2.range)).filter (fun r => (intersect r range).isSome) := by
  have h1 := by_lines (lines offsets) offsets (lines_spec offsets).1 h (lines_spec offsets).2
  have : offsets.map (·.2.range) = (offsets.map (·.2)).map (·.range) := by simp
  rw [this, ← h1, highlight, List.map_flatMap, List.filter_flatMap]
  simp only [List.filter_map]
  rfl

/-! ### Files -/

/-- Document order of tokens. -/
def Before (a b : Sym) : Prop := a.range.s.line < b.range.s.line ∨ (a.range.s.line = b.range.s.line ∧ a.range.s.char ≤ b.range.s.char)

theorem uses_sorted : ∀ (lines : List Line) (n : Nat), (∀ i line, lines[i]? = some line → Arranged line.macros (n + i) 0 line.uses) →
    (lines.flatMap fun l => l.uses.map (·.name)).Pairwise Before ∧
      ∀ s ∈ lines.flatMap (fun l => l.uses.map (·.name)), n ≤ s.range.s.line ∧ s.range.s.char ≤ s.range.e.char
  | [], n, _ => by simp
  | l :: ls, n, h => by
    obtain ⟨ih1, ih2⟩ := uses_sorted ls (n + 1) (fun i line hl => by
      have := h (i + 1) line (by simpa using hl)
      rwa [show n + (i + 1) = n + 1 + i by omega] at this)
    have harr := h 0 l rfl
    have hl : ∀ s ∈ l.uses.map (·.name), s.range.s.line = n ∧ s.range.s.char ≤ s.range.e.char := fun s hs => by
      obtain ⟨u, hu, rfl⟩ := List.mem_map.1 hs
      have := (harr.each u hu).name
      exact ⟨(harr.each u hu).line.1, by omega⟩
    have hlp : (l.uses.map (·.name)).Pairwise Before := by
      rw [List.pairwise_map]
      refine harr.order.imp_of_mem fun {a b} ha hb hab => .inr ⟨?_, ?_⟩
      · rw [(harr.each a ha).line.1, (harr.each b hb).line.1]
      · have := (harr.each a ha).name; omega
    rw [List.flatMap_cons]
    refine ⟨List.pairwise_append.2 ⟨hlp, ih1, fun a ha b hb => .inl ?_⟩, fun s hs => ?_⟩
    · have := hl a ha
      have := ih2 b hb
      omega
    · rcases List.mem_append.1 hs with h | h
      · have := hl s h; omega
      · have := ih2 s h; omega

/-- The token shown for a macro use: its range, type 7 of the legend (`macro`), no modifiers. -/
def shownAs (s : Sym) : Abs := ⟨s.range.s.line, s.range.s.char, s.range.e.char, 7, 0⟩

theorem ordered_of {l : List Sym} (h1 : l.Pairwise Before) (h2 : ∀ s ∈ l, s.range.s.char ≤ s.range.e.char) :
    Verif.Lsp.SemTokens.Spec.Ordered (l.map shownAs) := by
  induction l with
  | nil => trivial
  | cons a l ih =>
    have hp := List.pairwise_cons.1 h1
    have := ih hp.2 (fun s hs => h2 s (by simp [hs]))
    cases l with
    | nil => exact h2 a (by simp)
    | cons b l => exact ⟨h2 a (by simp), hp.1 b (by simp), this⟩

/-- The uses shown are those that meet the range. -/
theorem shown_eq (env : Env) (ms : Macros) (tokens : List Sym) (lines : List Line) (hf : File env 0 ⟨ms, 0, []⟩ tokens lines) :
    ∃ r, Gives env ms tokens (.result r) ∧ ∀ range, ∃ answer, rangeRequest r.offsets range = some answer ∧
      Verif.Lsp.SemTokens.Spec.decode answer =
        ((lines.flatMap fun l => l.uses.map (·.name)).filter fun s => (intersect s.range range).isSome).map shownAs := by
  obtain ⟨f, r, -, -, ofs, am, h1, -, -, h4, -, -, -, -, -, h8⟩ := file_result hf
  simp only [List.nil_append] at h4
  refine ⟨r, Verif.Props.Conditional.gives_of f h1, fun range => ?_⟩
  obtain ⟨hs1, hs2⟩ := uses_sorted lines 0 (file_lines hf)
  have h8' : ofs.map (fun e => (e.1, e.2.range)) = (lines.flatMap fun l => l.uses.map (·.name)).map (fun s => (s.range.s.line, s.range)) := by
    have := congrArg (List.map fun x : Nat × Rng × Option (Nat × Nat) => (x.1, x.2.1)) h8
    rw [List.map_map, List.map_flatMap] at this
    rw [List.map_flatMap]
    simpa [Function.comp_def, mark, useMark] using this
  have hmap : ofs.map (·.2.range) = (lines.flatMap fun l => l.uses.map (·.name)).map (·.range) := by
    have := congrArg (List.map Prod.snd) h8'
    rw [List.map_map, List.map_map] at this
    exact this
  have hsorted : ofs.Pairwise (fun a b => a.1 ≤ b.1) := by
    have h9 : (ofs.map (fun e => (e.1, e.2.range))).Pairwise (fun a b => a.1 ≤ b.1) := by
      rw [h8', List.pairwise_map]
      exact hs1.imp (by intro a b h; rcases h with h | h <;> omega)
    rw [List.pairwise_map] at h9
    exact h9
  let shown := (lines.flatMap fun l => l.uses.map (·.name)).filter fun s => (intersect s.range range).isSome
  have hhl : highlight ofs range = shown.map (·.range) := by
    rw [highlight_sorted ofs range hsorted, hmap, List.filter_map]
    rfl
  have habs : (highlight ofs range).map (fun r : Rng => (⟨r.s.line, r.s.char, r.e.char, typeIndex "macro", 0⟩ : Abs)) = shown.map shownAs := by
    rw [hhl, List.map_map]
    rfl
  have hord : Verif.Lsp.SemTokens.Spec.Ordered (shown.map shownAs) :=
    ordered_of (hs1.filter _) (fun s hs => (hs2 s (List.mem_filter.1 hs).1).2)
  obtain ⟨e1, e2⟩ := Verif.Props.SemTokens.encode_lossless (shown.map shownAs)
  obtain ⟨answer, ha⟩ := Option.isSome_iff_exists.1 (e1.2 hord)
  refine ⟨answer, ?_, e2 answer ha⟩
  rw [h4, rangeRequest, semanticTokens, habs, ha]

theorem meets_iff (a b : Rng) : (intersect a b).isSome ↔ ∃ p, In p a ∧ In p b := by
  have := (Verif.Props.Position.intersect_correct a b).2
  cases h : intersect a b with
  | none => simp [this.1 h]
  | some x =>
    simp only [Option.isSome_some, true_iff]
    refine Classical.byContradiction fun hn => ?_
    rw [this.2 hn] at h; cases h

/-- **C78, from the source to the answer (for files of a class)**: files of code, definitions, includes, conditional directives and code that is not
compiled. A request for a range is answered, and what the client decodes are the macro uses in code and in conditions that touch the range, all of them,
in order, as macros, and nothing else. In calls these are the names
of the macros called; macros named in their arguments are not (`argument_refuted`). What is missing: uses of empty macros, and conditions over several lines. -/
theorem highlight_partial (env : Env) (ms : Macros) (tokens : List Sym) (lines : List Line) (hf : File env 0 ⟨ms, 0, []⟩ tokens lines) :
    ∃ r, Gives env ms tokens (.result r) ∧ ∀ range, ∃ answer, ∃ shown : List Sym, rangeRequest r.offsets range = some answer ∧
      Verif.Lsp.SemTokens.Spec.decode answer = shown.map shownAs ∧ shown.Sublist (lines.flatMap fun l => l.uses.map (·.name)) ∧
      ∀ s ∈ lines.flatMap (fun l => l.uses.map (·.name)), s ∈ shown ↔ ∃ p, In p s.range ∧ In p range := by
  obtain ⟨r, h, e⟩ := shown_eq env ms tokens lines hf
  refine ⟨r, h, fun range => ?_⟩
  obtain ⟨answer, h1, h2⟩ := e range
  exact ⟨answer, _, h1, h2, List.filter_sublist, fun s hs => by simp only [List.mem_filter, hs, true_and, meets_iff]⟩

/-- **C78, the whole file**: a request for the whole file is answered with all macro uses in code and in conditions, in order and nothing else, where the
range of the tree of the preprocessed text begins before the first use and ends after the beginning of the last one, in lines and columns.
What is missing is as above, and files where expansion makes the last line shorter (`full_refuted`). -/
theorem full_partial (env : Env) (ms : Macros) (tokens : List Sym) (lines : List Line) (hf : File env 0 ⟨ms, 0, []⟩ tokens lines) :
    ∃ r, Gives env ms tokens (.result r) ∧ ∀ root : Rng,
      (∀ s ∈ lines.flatMap (fun l => l.uses.map (·.name)), In s.range.s root) →
      ∃ answer, fullRequest root r.offsets = some answer ∧
        Verif.Lsp.SemTokens.Spec.decode answer = (lines.flatMap fun l => l.uses.map (·.name)).map shownAs := by
  obtain ⟨r, h, e⟩ := shown_eq env ms tokens lines hf
  refine ⟨r, h, fun root hr => ?_⟩
  obtain ⟨answer, h1, h2⟩ := e root
  refine ⟨answer, h1, ?_⟩
  rw [h2, List.filter_eq_self.2]
  intro s hs
  refine (meets_iff _ _).2 ⟨s.range.s, ⟨.inr ⟨rfl, Nat.le_refl _⟩, .inr ?_⟩, hr s hs⟩
  obtain ⟨l, hl, hs'⟩ := List.mem_flatMap.1 hs
  obtain ⟨u, hu, rfl⟩ := List.mem_map.1 hs'
  obtain ⟨i, hi⟩ := List.getElem?_of_mem hl
  have := (file_lines hf i l hi).each u hu
  have h3 := this.line
  have h4 := this.name
  omega

/-- Its hypotheses hold of the sample file, and both its uses are shown. -/
example : ∃ r, preprocess ⟨.debug, 0, fun _ ms => ms⟩ 60 sampleMacros sampleTokens = some (.result r) ∧
    (rangeRequest r.offsets ⟨⟨0, 0⟩, ⟨9, 0⟩⟩).map Verif.Lsp.SemTokens.Spec.decode = some [⟨0, 4, 5, 7, 0⟩, ⟨1, 1, 2, 7, 0⟩] ∧
    (rangeRequest r.offsets ⟨⟨1, 0⟩, ⟨9, 0⟩⟩).map Verif.Lsp.SemTokens.Spec.decode = some [⟨1, 1, 2, 7, 0⟩] := by
  exact ⟨_, rfl, by decide +kernel, by decide +kernel⟩

/-- The sample file with directives: the use in the condition is shown too. -/
example : ∃ r, preprocess dirEnv 60 (fun _ => none) dirTokens = some (.result r) ∧
    (rangeRequest r.offsets ⟨⟨0, 0⟩, ⟨9, 0⟩⟩).map Verif.Lsp.SemTokens.Spec.decode = some [⟨1, 4, 5, 7, 0⟩, ⟨2, 0, 1, 7, 0⟩, ⟨6, 1, 2, 7, 0⟩] :=
  ⟨_, rfl, by decide +kernel⟩

example : ∃ r, Gives dirEnv (fun _ => none) dirTokens (.result r) ∧ (dirLines.flatMap fun l => l.uses.map (·.name)).length = 3 :=
  let ⟨r, h, _⟩ := highlight_partial _ _ _ _ dir_file
  ⟨r, h, by decide⟩

/-- All three uses of the sample file with directives are shown for the whole file. -/
example : ∃ r, Gives dirEnv (fun _ => none) dirTokens (.result r) ∧ ∃ answer, fullRequest ⟨⟨0, 0⟩, ⟨9, 0⟩⟩ r.offsets = some answer ∧
    Verif.Lsp.SemTokens.Spec.decode answer = [⟨1, 4, 5, 7, 0⟩, ⟨2, 0, 1, 7, 0⟩, ⟨6, 1, 2, 7, 0⟩] := by
  obtain ⟨r, h, e⟩ := full_partial _ _ _ _ dir_file
  obtain ⟨answer, h1, h2⟩ := e ⟨⟨0, 0⟩, ⟨9, 0⟩⟩ (by unfold In Pos.le; decide)
  exact ⟨r, h, answer, h1, h2.trans (by decide)⟩

/-- `LONG A` on the only line; `LONG` is `1`, `A` is `2`. -/
def shrinking : List Sym := [sampleTok .ident "LONG" 0 0, sampleTok .ident "A" 0 5 1, sampleTok .eof "" 0 6]

def shrinkingMacros : Macros := fun x =>
  if x = "LONG".toList then some ⟨0, 0, none, 0, [⟨.intLit, "1".toList, ⟨0, 1⟩, some 1⟩]⟩
  else if x = "A".toList then some ⟨0, 1, none, 0, [⟨.intLit, "2".toList, ⟨0, 1⟩, some 2⟩]⟩
  else none

/-- **C78 is violated** on the last line by a request for the whole file: the range of the tree of the preprocessed text, `1 2`, is taken for
a range of the source, and `A`, which is to the right of it, is left out. -/
theorem full_refuted : ∃ r, Gives ⟨.debug, 0, fun _ ms => ms⟩ shrinkingMacros shrinking (.result r) ∧ r.out = ["1 2".toList] ∧
    (fullRequest ⟨⟨0, 0⟩, ⟨0, 3⟩⟩ r.offsets).map Verif.Lsp.SemTokens.Spec.decode = some [⟨0, 0, 4, 7, 0⟩] :=
  ⟨_, Verif.Props.Conditional.gives_of 40 rfl, by decide +kernel, by decide +kernel⟩

/-- `G+A;` with `G` as `F + F`, where `F` has a parameter. -/
def twice : List Sym :=
  [sampleTok .ident "G" 0 0, sampleTok (.op .plus) "+" 0 1, sampleTok .ident "A" 0 2, sampleTok .semicolon ";" 0 3, sampleTok .eof "" 0 4]

def twiceMacros : Macros := fun x =>
  if x = "F".toList then some ⟨0, 0, some [0], 1, [⟨.op .percent, "%".toList, ⟨0, 1⟩, none⟩, ⟨.intLit, "1".toList, ⟨0, 0⟩, some 1⟩]⟩
  else if x = "G".toList then
    some ⟨0, 1, none, 0, [⟨.ident, "F".toList, ⟨0, 1⟩, none⟩, ⟨.op .plus, "+".toList, ⟨0, 1⟩, none⟩, ⟨.ident, "F".toList, ⟨0, 1⟩, none⟩]⟩
  else if x = "A".toList then some ⟨0, 2, none, 0, [⟨.intLit, "1".toList, ⟨0, 1⟩, some 1⟩]⟩
  else none

/-- **C78 is violated** where the name of a macro with parameters is left twice in an expansion: the second one is expanded again and
recorded with a range that is not that of a use; the ranges are no longer in order and encoding them overflows. -/
theorem order_refuted : ∃ r, Gives ⟨.debug, 0, fun _ ms => ms⟩ twiceMacros twice (.result r) ∧ rangeRequest r.offsets ⟨⟨0, 0⟩, ⟨9, 0⟩⟩ = none :=
  ⟨_, Verif.Props.Conditional.gives_of 60 rfl, by decide +kernel⟩

/-- `#if B || A` and `#endif` with `A` as `1` and `B` not defined. -/
def undefTokens : List Sym :=
  [sampleTok (.dir .if_) "#if" 0 0, inPre (sampleTok .ident "B" 0 4 1), inPre (sampleTok (.op .or) "||" 0 6 1), inPre (sampleTok .ident "A" 0 9 1),
   sampleEnd 0 10 true, sampleTok (.dir .endif) "#endif" 1 0, sampleTok .eof "" 1 6]

def undefMacros : Macros := fun x => if x = "A".toList then some ⟨0, 0, none, 0, [⟨.intLit, "1".toList, ⟨0, 1⟩, some 1⟩]⟩ else none

/-- **C78 is violated** in a condition after a name that is not defined: `A` is not highlighted in `#if B || A`. -/
theorem condition_refuted : ∃ r, Gives ⟨.debug, 0, fun _ ms => ms⟩ undefMacros undefTokens (.result r) ∧
    rangeRequest r.offsets ⟨⟨0, 0⟩, ⟨9, 0⟩⟩ = some [] :=
  ⟨_, Verif.Props.Conditional.gives_of 60 rfl, by decide +kernel⟩

/-- The sample file with a call: the name of the macro is shown. -/
example : ∃ r, Gives callEnv callMacros callTokens (.result r) ∧ ∃ answer, ∃ shown : List Sym, rangeRequest r.offsets ⟨⟨0, 0⟩, ⟨9, 0⟩⟩ = some answer ∧
    Verif.Lsp.SemTokens.Spec.decode answer = shown.map shownAs ∧ callUse.name ∈ shown := by
  obtain ⟨r, h, e⟩ := highlight_partial _ _ _ _ (call_file callEnv)
  obtain ⟨answer, shown, h1, h2, -, h3⟩ := e ⟨⟨0, 0⟩, ⟨9, 0⟩⟩
  exact ⟨r, h, answer, shown, h1, h2, (h3 callUse.name (by simp [callLines])).2 ⟨⟨0, 4⟩, by simp [In, Pos.le, callUse, sampleTok], by simp [In, Pos.le]⟩⟩

/-- **C78 is violated** in the arguments of a call: of the uses `F` and `A` in `y = F(ab,A) z`, only `F` is highlighted. -/
theorem argument_refuted : ∃ r, Gives callEnv callMacros callTokens (.result r) ∧
    (rangeRequest r.offsets ⟨⟨0, 0⟩, ⟨9, 0⟩⟩).map Verif.Lsp.SemTokens.Spec.decode = some [⟨0, 4, 5, 7, 0⟩] :=
  ⟨_, Verif.Props.Conditional.gives_of 60 rfl, by decide +kernel⟩

end Verif.Props.Highlight
