import Verif.Props.Goto
/-!
# C105: the name selected in a target is inside the target

The protocol asks that `targetSelectionRange` of a `LocationLink` is contained in `targetRange`
(`location_info`, `crates/sourcepawn_lsp/src/lsp/to_proto.rs:45-53`).
-/

namespace Verif.Props.Selection
open Verif.Pre Verif.Pre.Spec Verif.Ide.Goto Verif.Ide.Goto.Spec
open Verif.Props.Offsets Verif.Props.Goto Verif.Props.Position

/-- The first range is inside the second one. -/
def Inside (a b : Rng) : Prop := Pos.le b.s a.s ∧ Pos.le a.e b.e

/-! ### In the tree -/

theorem ordered_range : ∀ (n : Node), Ordered n → Pos.le n.range.s n.range.e := by
  intro n h
  exact (leaf_within n h).1

theorem orderedIn_mem : ∀ (cs : List Node) (lo hi : Pos), OrderedIn lo cs hi → ∀ c ∈ cs, Ordered c ∧ Pos.le lo c.range.s ∧ Pos.le c.range.e hi := by
  intro cs
  induction cs with
  | nil => intro lo hi _ c hc; cases hc
  | cons a cs ih =>
    intro lo hi h c hc
    simp only [OrderedIn] at h
    obtain ⟨h1, h2, h3⟩ := h
    rcases List.mem_cons.1 hc with rfl | hc
    · exact ⟨h2, h1, (leaf_within_in cs _ _ h3).1⟩
    · obtain ⟨a1, a2, a3⟩ := ih _ _ h3 c hc
      exact ⟨a1, le_trans (le_trans h1 (ordered_range a h2)) a2, a3⟩

theorem child_inside {n c : Node} (h : Ordered n) (hc : c ∈ n.children) : Ordered c ∧ Inside c.range n.range := by
  cases n with
  | mk k r f cs =>
    simp only [Ordered] at h
    obtain ⟨h1, h2, h3⟩ := orderedIn_mem cs _ _ h c hc
    exact ⟨h1, h2, h3⟩

theorem inside_refl (r : Rng) : Inside r r := ⟨le_refl _, le_refl _⟩

theorem inside_trans {a b c : Rng} (h : Inside a b) (h' : Inside b c) : Inside a c := ⟨le_trans h'.1 h.1, le_trans h.2 h'.2⟩

theorem name_inside {n : Node} (h : Ordered n) {r : Rng} (hr : n.name = some r) : Inside r n.range := by
  simp only [Node.name, Option.map_eq_some_iff] at hr
  obtain ⟨c, hc, rfl⟩ := hr
  exact (child_inside h (List.mem_of_find?_eq_some hc)).2

/-- In the tree the name of a definition is inside of it. -/
theorem innerName_inside {n : Node} (h : Ordered n) : Inside (innerName n) n.range := by
  unfold innerName
  split
  · cases hf : n.children.findSome? accessorName with
    | none => exact inside_refl _
    | some r =>
      obtain ⟨c, hc, hr⟩ := List.exists_of_findSome?_eq_some hf
      obtain ⟨h1, h2⟩ := child_inside h hc
      simp only [accessorName] at hr
      split at hr
      · exact inside_trans (name_inside h1 hr) h2
      · cases hr
  · cases hf : n.name with
    | none => exact inside_refl _
    | some r => exact name_inside h hf

/-! ### Order of places on a line -/

theorem same_le {l : List Seg} {u₁ s₁ u₂ s₂ : Nat} (h₁ : SamePlace l u₁ s₁) (h₂ : SamePlace l u₂ s₂) (h : u₁ < u₂) : s₁ ≤ s₂ := by
  obtain ⟨p₁, n₁, q₁, k₁, e₁, hk₁, hu₁, hs₁⟩ := h₁
  obtain ⟨p₂, n₂, q₂, k₂, e₂, hk₂, hu₂, hs₂⟩ := h₂
  rw [e₁] at e₂
  rcases List.append_eq_append_iff.1 e₂ with ⟨m, hm, hm'⟩ | ⟨m, hm, hm'⟩
  · cases m with
    | nil =>
      simp only [List.append_nil] at hm
      subst hm
      simp only [List.nil_append, List.cons.injEq, Seg.text.injEq] at hm'
      omega
    | cons x m =>
      simp only [List.cons_append, List.cons.injEq] at hm'
      obtain ⟨rfl, -⟩ := hm'
      rw [hm, serverLen_append] at hs₂
      have : serverLen (.text n₁ :: m) = n₁ + serverLen m := by simp [serverLen, Seg.server]
      omega
  · cases m with
    | nil =>
      simp only [List.append_nil] at hm
      subst hm
      simp only [List.nil_append, List.cons.injEq, Seg.text.injEq] at hm'
      omega
    | cons x m =>
      simp only [List.cons_append, List.cons.injEq] at hm'
      obtain ⟨rfl, -⟩ := hm'
      rw [hm, userLen_append] at hu₁
      have : userLen (.text n₂ :: m) = n₂ + userLen m := by simp [userLen, Seg.user]
      omega

/-- What the run of the preprocessor gives for the order of words. -/
theorem words_order {env : Env} {ms : Macros} {tokens : List Sym} {lines : List Line} (hf : File env 0 ⟨ms, 0, []⟩ tokens lines) (hb : Unbroken lines) {r : PSt}
    (hr : Gives env ms tokens (.result r)) {n a b x y : Nat} (hw : Word lines n a b) (hx : Word lines n x y) :
    (placeOf r n x ≤ placeOf r n a → x ≤ a) ∧ (placeOf r n a + (b - a) ≤ placeOf r n x + (y - x) → b ≤ y) := by
  obtain ⟨r', g, ht, -, hback⟩ := words hf hb
  have : r' = r := by
    have := gives_det g hr
    simpa using this
  subst this
  obtain ⟨line, hl, hk, hab, hbl, hout⟩ := id hw
  obtain ⟨line', hl', hk', hxy, hyl, hout'⟩ := id hx
  rw [hl] at hl'; cases hl'
  obtain ⟨txt, segs, -, -, hp⟩ := ht n line hl hk
  have hpa := hp a b hw
  have hpx := hp x y hx
  have h1 := hback n a b hw
  have h2 := hback n x y hx
  simp only [sToU, wordRange, Rng.mk.injEq, Pos.mk.injEq, true_and] at h1 h2
  constructor
  · intro hle
    rcases Nat.lt_or_ge a x with hlt | hge
    · exfalso
      have e1 := same_le (hpa 0 (by omega)) (hpx 0 (by omega)) (by omega)
      have e2 : placeOf r' n x = placeOf r' n a := by omega
      rw [e2, h1.1] at h2
      omega
    · exact hge
  · intro hle
    rcases Nat.lt_or_ge y b with hlt | hge
    · exfalso
      have e1 := same_le (hpx (y - x) (by omega)) (hpa (b - a) (by omega)) (by omega)
      have e2 : placeOf r' n x + (y - x) = placeOf r' n a + (b - a) := by omega
      rw [e2, h1.2] at h2
      omega
    · exact hge

/-! ### The answer -/

/-- Where a definition stands in a file: it starts with a word, its name is a word, and it ends on a later line than its name, or it is on one line and ends
with a word; or it has no name. -/
def Placed (lines : List Line) (place : Nat → Nat → Nat) (node : Node) : Prop :=
  NameOf node node.range ∨
  ∃ m x y n a b, Word lines m x y ∧ node.range.s = ⟨m, place m x⟩ ∧ Word lines n a b ∧ NameOf node (wordRange n (place n a) (place n a + (b - a))) ∧
    (n < node.range.e.line ∨ (m = n ∧ ∃ x' y', Word lines n x' y' ∧ node.range.e = ⟨n, place n x' + (y' - x')⟩))

/-- **C105 (for files of a class)**: the files with the definitions are of code, definitions, includes, conditional directives and code that is not compiled
(`File`). Whatever the position of a request in whatever file, the selected range of the answer is inside of its range, if the definitions stand so that
their names are outside of uses of macros and do not end on the last line of a definition over several lines. -/
theorem selection_partial (env : Env) (ms : Macros) (tokens : List Sym) (lines : List Line) (hf : File env 0 ⟨ms, 0, []⟩ tokens lines) (hb : Unbroken lines) :
    ∃ r place, Gives env ms tokens (.result r) ∧ SameText lines (textLines r.out) place ∧
      ∀ {Def : Type} (S : Sema Def), (∀ d, S.results (S.fileOf d) = r) →
      (∀ d node, S.source d (S.trees (S.fileOf d)) = some node → Ordered node ∧ Placed lines place node) →
      ∀ file pos u t, goto S file pos = some (u, t) → Inside t.focus t.full := by
  obtain ⟨r, g, t, -, hback⟩ := words hf hb
  refine ⟨r, placeOf r, g, t, ?_⟩
  intro Def S hr hplaced file pos u t ht
  unfold goto at ht
  split at ht
  · rename_i o d _
    simp only [toMacro, Option.bind_eq_bind] at ht
    obtain ⟨node, hn, he⟩ := Option.bind_eq_some_iff.1 ht
    simp only [Option.some.injEq, Prod.mk.injEq] at he
    obtain ⟨-, rfl⟩ := he
    exact innerName_inside (hplaced d node hn).1
  · simp only [toOther, Option.bind_eq_bind] at ht
    obtain ⟨d, -, ht⟩ := Option.bind_eq_some_iff.1 ht
    obtain ⟨node, hn, he⟩ := Option.bind_eq_some_iff.1 ht
    simp only [Option.some.injEq, Prod.mk.injEq] at he
    obtain ⟨-, rfl⟩ := he
    obtain ⟨hord, hpl⟩ := hplaced d node hn
    have hin := innerName_inside hord
    rw [hr d]
    rcases hpl with hno | ⟨m, x, y, n, a, b, hx, hs, hw, hname, hend⟩
    · rw [name_of hno]
      exact inside_refl _
    · rw [name_of hname] at hin ⊢
      obtain ⟨i1, i2⟩ := hin
      have hwb := hback n a b hw
      have hxb := hback m x y hx
      simp only [sToU, wordRange, Rng.mk.injEq, Pos.mk.injEq, true_and] at hwb hxb
      simp only [wordRange] at i1 i2 ⊢
      simp only [Inside, sToU, hs, hwb, hxb.1]
      rw [hs] at i1
      have hab : a < b := by obtain ⟨_, _, _, h, _⟩ := hw; exact h
      have hstart : Pos.le ⟨m, x⟩ ⟨n, a⟩ := by
        rcases i1 with h | ⟨h1, h2⟩
        · exact .inl h
        · simp only at h1 h2
          subst h1
          exact .inr ⟨rfl, (words_order hf hb g hw hx).1 h2⟩
      refine ⟨hstart, ?_⟩
      rcases hend with h | ⟨rfl, x', y', hx', he⟩
      · exact .inl h
      · rw [he] at i2 ⊢
        have hxb' := hback m x' y' hx'
        simp only [sToU, wordRange, Rng.mk.injEq, Pos.mk.injEq, true_and] at hxb'
        simp only [hxb'.2]
        rcases i2 with h | ⟨-, h2⟩
        · exact absurd h (by simp)
        · exact .inr ⟨rfl, (words_order hf hb g hw hx').2 h2⟩

/-- **C105, lines without macros**: in every file, however it was preprocessed, the selected range is inside of the range of the target if there is no macro
on the lines on which the definition and its name begin. -/
theorem selection_plain {Def : Type} (S : Sema Def) (file : Nat) (pos : Pos)
    (h : ∀ d node, S.source d (S.trees (S.fileOf d)) = some node → Ordered node ∧ ∀ o ∈ (S.results (S.fileOf d)).offsets,
      o.1 ≠ node.range.s.line ∧ o.1 ≠ (innerName node).s.line) (u : Rng) (t : Target) (ht : goto S file pos = some (u, t)) : Inside t.focus t.full := by
  unfold goto at ht
  split at ht
  · rename_i o d _
    simp only [toMacro, Option.bind_eq_bind] at ht
    obtain ⟨node, hn, he⟩ := Option.bind_eq_some_iff.1 ht
    simp only [Option.some.injEq, Prod.mk.injEq] at he
    obtain ⟨-, rfl⟩ := he
    exact innerName_inside (h d node hn).1
  · simp only [toOther, Option.bind_eq_bind] at ht
    obtain ⟨d, -, ht⟩ := Option.bind_eq_some_iff.1 ht
    obtain ⟨node, hn, he⟩ := Option.bind_eq_some_iff.1 ht
    simp only [Option.some.injEq, Prod.mk.injEq] at he
    obtain ⟨-, rfl⟩ := he
    obtain ⟨hord, hno⟩ := h d node hn
    have hline : ∀ n, (∀ o ∈ (S.results (S.fileOf d)).offsets, o.1 ≠ n) → onLine (S.results (S.fileOf d)).offsets n = [] := by
      intro n hn
      simp only [onLine, List.map_eq_nil_iff, List.filter_eq_nil_iff, decide_eq_true_eq]
      exact fun o ho => hn o ho
    have e1 : ∀ x : Rng, onLine (S.results (S.fileOf d)).offsets x.s.line = [] → sToU (S.results (S.fileOf d)).offsets x = x := by
      intro x hx
      simp [sToU, hx, backCol]
    rw [e1 _ (hline _ fun o ho => (hno o ho).1), e1 _ (hline _ fun o ho => (hno o ho).2)]
    exact innerName_inside hord

/-! ### Samples -/

/-- The hypotheses of `selection_partial` hold together, for the places the theorem gives: the definition `y = A;` on the first line of the sample, with the
name `y`, asked for from anywhere. -/
example : ∃ (S : Sema Unit), Gives sampleEnv sampleMacros sampleTokens (.result (S.results 0)) ∧ (∃ u t, goto S 1 ⟨5, 5⟩ = some (u, t)) ∧
    ∀ file pos u t, goto S file pos = some (u, t) → Inside t.focus t.full := by
  obtain ⟨r, place, g, -, h⟩ := selection_partial sampleEnv _ _ _ (sample_file _) sample_unbroken
  let name : Node := sampleNode (.other 0) 0 (place 0 0) (place 0 0 + (1 - 0)) true
  let decl : Node := .mk .variable_declaration ⟨⟨0, place 0 0⟩, ⟨1, 0⟩⟩ false [name]
  let S : Sema Unit := ⟨fun _ => decl, fun _ => r, fun _ _ => none, fun _ _ => some (), fun _ => 0, fun _ n => some n⟩
  refine ⟨S, g, ?_, h S (fun _ => rfl) ?_⟩
  · have hm : macroAt S (S.results 1).offsets ⟨5, 5⟩ = none := by
      simp only [macroAt, S]
      cases (onLine r.offsets 5).find? (·.contains ⟨5, 5⟩) <;> rfl
    refine ⟨sToU r.offsets (nodeAt (uToS r.argsMap r.offsets ⟨5, 5⟩).1 decl).range |> (uToS r.argsMap r.offsets ⟨5, 5⟩).2.getD,
      ⟨0, sToU r.offsets decl.range, sToU r.offsets (innerName decl)⟩, ?_⟩
    rw [goto, hm]
    rfl
  · intro d node hn
    have : node = decl := by simpa [S] using hn.symm
    subst this
    refine ⟨by simp [decl, name, sampleNode, Ordered, OrderedIn, wordRange, Node.range, Pos.le], .inr ⟨0, 0, 1, 0, 0, 1, sample_words.2.1, rfl, sample_words.2.1, ?_, .inl ?_⟩⟩
    · simp [NameOf, Ide.Goto.Spec.Named, decl, name, sampleNode, Node.kind, Node.children, Node.isName, Node.range]
    · simp [decl, Node.range]

/-- A definition over the two lines of `f A x⏎longer`; its name is on the second line. -/
def lowSema (r : PSt) : Sema Unit :=
  { twoSema r with
    trees := fun _ => .mk .function_definition ⟨⟨0, 0⟩, ⟨1, 6⟩⟩ false [sampleNode (.other 0) 0 0 1, sampleNode (.other 0) 1 0 6 true] }

theorem low_ordered (r : PSt) : Ordered ((lowSema r).trees 0) := by
  simp [lowSema, sampleNode, Ordered, OrderedIn, wordRange, Node.range, Pos.le]

/-- **C105 is violated** by a definition whose name is on its last line, with a macro on the first: the range ends before the name. -/
theorem last_line_refuted : ∃ r, Gives sampleEnv sampleMacros twoTokens (.result r) ∧ File sampleEnv 0 ⟨sampleMacros, 0, []⟩ twoTokens twoLines ∧
    Ordered ((lowSema r).trees 0) ∧ ∃ u t, goto (lowSema r) 0 ⟨1, 0⟩ = some (u, t) ∧ ¬ Inside t.focus t.full := by
  obtain ⟨r, h1, h2⟩ : ∃ r, Gives sampleEnv sampleMacros twoTokens (.result r) ∧
      goto (lowSema r) 0 ⟨1, 0⟩ = some (wordRange 1 0 6, ⟨0, ⟨⟨0, 0⟩, ⟨1, 2⟩⟩, wordRange 1 0 6⟩) :=
    ⟨_, Verif.Props.Conditional.gives_of 60 (r := _) rfl, by decide +kernel⟩
  exact ⟨r, h1, two_file _, low_ordered r, _, _, h2, by simp [Inside, Pos.le, wordRange]⟩

/-- `#define D int foo` -/
def declMacros : Macros := fun x =>
  if x = "D".toList then some ⟨0, 0, none, 0, [⟨.ident, "int".toList, ⟨0, 1⟩, none⟩, ⟨.ident, "foo".toList, ⟨0, 1⟩, none⟩]⟩ else none

/-- `  D;⏎foo` -/
def declTokens : List Sym :=
  [sampleTok .ident "D" 0 2 2, sampleTok .semicolon ";" 0 3] ++ sampleEnd 0 4 :: ([sampleTok .ident "foo" 1 0] ++ [sampleTok .eof "" 1 3])

/-- The tree of `  int foo;⏎foo`. -/
def declSema (r : PSt) : Sema Unit where
  trees := fun _ => .mk .source_file ⟨⟨0, 2⟩, ⟨1, 3⟩⟩ false
    [sampleNode .global_variable_declaration 0 2 10 false [sampleNode (.other 0) 0 2 5, sampleNode (.other 0) 0 6 9 true, sampleNode (.other 1) 0 9 10], sampleNode (.other 0) 1 0 3]
  results := fun _ => r
  macroDef := fun _ _ => none
  findDef := fun _ l => if l.range = wordRange 1 0 3 then some () else none
  fileOf := fun _ => 0
  source := fun _ t => t.children.head?

theorem decl_ordered (r : PSt) : Ordered ((declSema r).trees 0) := by
  simp [declSema, sampleNode, Ordered, OrderedIn, wordRange, Node.range, Pos.le]

/-- **C105 is violated** by a name that comes out of a macro: the selected range begins before the target does. -/
theorem expansion_refuted : ∃ r, Gives sampleEnv declMacros declTokens (.result r) ∧ r.out = ["  int foo;".toList, "foo".toList] ∧
    Ordered ((declSema r).trees 0) ∧ ∃ u t, goto (declSema r) 0 ⟨1, 0⟩ = some (u, t) ∧ ¬ Inside t.focus t.full := by
  obtain ⟨r, h1, h2, h3⟩ : ∃ r, Gives sampleEnv declMacros declTokens (.result r) ∧ r.out = ["  int foo;".toList, "foo".toList] ∧
      goto (declSema r) 0 ⟨1, 0⟩ = some (wordRange 1 0 3, ⟨0, ⟨⟨0, 2⟩, ⟨0, 4⟩⟩, ⟨⟨0, 0⟩, ⟨0, 3⟩⟩⟩) :=
    ⟨_, Verif.Props.Conditional.gives_of 60 (r := _) rfl, by decide +kernel, by decide +kernel⟩
  exact ⟨r, h1, h2, decl_ordered r, _, _, h3, by simp [Inside, Pos.le]⟩

/-- The hypotheses of `selection_plain` hold for the second line of the sample file above. -/
example (r : PSt) (h : r.offsets = []) (u : Rng) (t : Target) (ht : goto (declSema r) 0 ⟨1, 0⟩ = some (u, t)) : Inside t.focus t.full := by
  refine selection_plain (declSema r) 0 ⟨1, 0⟩ ?_ u t ht
  intro d node hn
  simp only [declSema, Node.children, List.head?_cons, Option.some.injEq] at hn
  subst hn
  refine ⟨by simp [sampleNode, Ordered, OrderedIn, wordRange, Node.range, Pos.le], ?_⟩
  intro o ho
  simp only [declSema, h] at ho
  cases ho

end Verif.Props.Selection
