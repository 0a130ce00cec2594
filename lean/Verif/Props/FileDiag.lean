import Verif.Ide.FileDiag
import Verif.Props.Position
/-!
# What is shown about a file
-/

namespace Verif.Props.FileDiag

open Verif.Pre Verif.Pre.Spec Verif.Ide.FileDiag Verif.Ide.FileDiag.Spec

mutual
theorem mem_nodes {d : Node} : ∀ {n : Node}, d ∈ nodes n ↔ Below n d
  | .mk k m e x r cs => by
    rw [nodes, List.mem_cons, mem_nodesAll]
    constructor
    · rintro (rfl | ⟨c, hc, h⟩)
      · exact .self _
      · exact .child hc h
    · intro h
      cases h with
      | self => exact .inl rfl
      | child hc h => exact .inr ⟨_, hc, h⟩
theorem mem_nodesAll {d : Node} : ∀ {ns : List Node}, d ∈ nodesAll ns ↔ ∃ c ∈ ns, Below c d
  | [] => by simp [nodesAll]
  | n :: ns => by
    rw [nodesAll, List.mem_append, mem_nodes, mem_nodesAll]
    simp
end

mutual
theorem errorNodes_eq : ∀ n : Node, errorNodes n = (nodes n).filter Node.error
  | .mk k m e x r cs => by
    rw [errorNodes, nodes, List.filter_cons, errorNodesAll_eq cs]
    cases e <;> rfl
theorem errorNodesAll_eq : ∀ ns : List Node, errorNodesAll ns = (nodesAll ns).filter Node.error
  | [] => rfl
  | n :: ns => by rw [errorNodesAll, nodesAll, List.filter_append, errorNodes_eq n, errorNodesAll_eq ns]
end

/-- What is shown for a missing node. -/
def missingDiagnostic (n : Node) : Diagnostic := ⟨"missing-node", "expected `".toList ++ n.kind ++ "`".toList, n.range, .error, false⟩

mutual
theorem missingNodes_eq : ∀ n : Node, missingNodes n = ((nodes n).filter Node.missing).map missingDiagnostic
  | .mk k m e x r cs => by
    rw [missingNodes, nodes, List.filter_cons, missingNodesAll_eq cs]
    cases m <;> rfl
theorem missingNodesAll_eq : ∀ ns : List Node, missingNodesAll ns = ((nodesAll ns).filter Node.missing).map missingDiagnostic
  | [] => rfl
  | n :: ns => by rw [missingNodesAll, nodesAll, List.filter_append, List.map_append, missingNodes_eq n, missingNodesAll_eq ns]
end

/-- **C76, syntax errors**. Of each node that is an error and of each that is missing, anywhere in the tree, there is one diagnostic, at the node, in the order of
the text, and there are no others of these kinds. -/
theorem syntax_shown (f : File) :
    (diagnostics f).filter (fun d => d.code = "syntax-error") =
      ((nodes f.tree).filter Node.error).map (fun n => ⟨"syntax-error", n.expected, n.range, .error, false⟩) ∧
    (diagnostics f).filter (fun d => d.code = "missing-node") =
      ((nodes f.tree).filter Node.missing).map (fun n => ⟨"missing-node", "expected `".toList ++ n.kind ++ "`".toList, n.range, .error, false⟩) ∧
    ∀ n, n ∈ nodes f.tree ↔ Below f.tree n := by
  have hrep : ∀ (c : String) (l : List Finding), c ≠ "E0000" → (l.map report).filter (fun d => decide (d.code = c)) = [] := by
    intro c l hc
    rw [List.filter_eq_nil_iff]
    intro d hd
    rw [List.mem_map] at hd
    obtain ⟨x, _, rfl⟩ := hd
    simp [report, new, Ne.symm hc]
  have hrep' : ∀ (c : String) (g : Finding → Finding) (l : List Finding), c ≠ "E0000" →
      (l.map (fun x => report (g x))).filter (fun d => decide (d.code = c)) = [] := by
    intro c g l hc
    have := hrep c (l.map g) hc
    rwa [List.map_map] at this
  have hin : ∀ (c : String) (l : List Rng), c ≠ "inactive-code" → (l.map inactive).filter (fun d => decide (d.code = c)) = [] := by
    intro c l hc
    rw [List.filter_eq_nil_iff]
    intro d hd
    rw [List.mem_map] at hd
    obtain ⟨x, _, rfl⟩ := hd
    simp [inactive, new, Ne.symm hc]
  have hall : ∀ (g : Node → Diagnostic) (c : String) (l : List Node), (∀ n, (g n).code = c) → (l.map g).filter (fun d => decide (d.code = c)) = l.map g := by
    intro g c l h
    rw [List.filter_eq_self]
    intro d hd
    rw [List.mem_map] at hd
    obtain ⟨x, _, rfl⟩ := hd
    simp [h]
  have hnone : ∀ (g : Node → Diagnostic) (c c' : String) (l : List Node), (∀ n, (g n).code = c') → c' ≠ c → (l.map g).filter (fun d => decide (d.code = c)) = [] := by
    intro g c c' l h hc
    rw [List.filter_eq_nil_iff]
    intro d hd
    rw [List.mem_map] at hd
    obtain ⟨x, _, rfl⟩ := hd
    simp [h, hc]
  refine ⟨?_, ?_, fun n => mem_nodes⟩
  · simp only [diagnostics, syntaxErrors, List.filter_append, errorNodes_eq, missingNodes_eq]
    rw [hall errorDiagnostic "syntax-error" _ (fun n => rfl), hnone missingDiagnostic _ "missing-node" _ (fun n => rfl) (by decide), hrep _ _ (by decide), hrep' _ _ _ (by decide), hrep' _ _ _ (by decide),
      hin _ _ (by decide), hrep _ _ (by decide)]
    simp only [List.append_nil]
    rfl
  · simp only [diagnostics, syntaxErrors, List.filter_append, errorNodes_eq, missingNodes_eq]
    rw [hall missingDiagnostic "missing-node" _ (fun n => rfl), hnone errorDiagnostic _ "syntax-error" _ (fun n => rfl) (by decide), hrep _ _ (by decide), hrep' _ _ _ (by decide), hrep' _ _ _ (by decide),
      hin _ _ (by decide), hrep _ _ (by decide)]
    simp only [List.append_nil, List.nil_append]
    rfl

/-- **C76, the preprocessor**. Of every condition that cannot be evaluated, every include that is not found, every macro that is not found and every
inactive range there is one diagnostic, at the place the preprocessor gives. -/
theorem preprocessor_shown (f : File) : ∃ before after, diagnostics f = before ++
    (f.evaluation.map (fun x => ⟨"E0000", x.text, x.range, .error, false⟩) ++
     f.includes.map (fun x => ⟨"E0000", "file `".toList ++ x.text ++ "` was not found".toList, x.range, .error, false⟩) ++
     f.macros.map (fun x => ⟨"E0000", "no macro `".toList ++ x.text ++ "` found".toList, x.range, .error, false⟩) ++
     f.inactive.map (fun r => ⟨"inactive-code", "code is inactive due to preprocessor directives".toList, r, .hint, true⟩)) ++ after ∧
    before.length = ((nodes f.tree).filter Node.error).length + ((nodes f.tree).filter Node.missing).length ∧
    after.length = (f.decls.flatMap declFindings).length := by
  refine ⟨syntaxErrors f.tree, (f.decls.flatMap declFindings).map report, ?_, ?_, by simp⟩
  · simp only [diagnostics, List.append_assoc]
    rfl
  · rw [syntaxErrors, errorNodes_eq, missingNodes_eq]; simp

/-- **C76, declarations, what holds**. If nothing is wrong in methods, then everything found in a declaration is shown, once, and nothing else. Missing: the same
for what is found in methods and properties of methodmaps and in methods of enum structs, which is false (`methods_refuted`). -/
theorem bodies_partial (f : File) (h : ∀ d ∈ f.decls, MethodsFine d) : ∃ before, diagnostics f = before ++
    (f.decls.flatMap found).map (fun x => ⟨"E0000", x.text, x.range, .error, false⟩) ∧
    before.length = ((nodes f.tree).filter Node.error).length + ((nodes f.tree).filter Node.missing).length + f.evaluation.length + f.includes.length +
      f.macros.length + f.inactive.length := by
  have hf : ∀ d ∈ f.decls, declFindings d = found d := by
    intro d hd
    have hm := h d hd
    have hflat : ∀ {ms : List (List Finding)}, (∀ m ∈ ms, m = []) → ms.flatten = [] := by
      intro ms hms
      rw [List.flatten_eq_nil_iff]
      exact hms
    cases d with
    | methodmap i ms => simp only [declFindings, found]; rw [hflat hm, List.append_nil]
    | enumStruct ms => simp only [declFindings, found]; rw [hflat hm]
    | _ => rfl
  have hfm : f.decls.flatMap declFindings = f.decls.flatMap found := by
    simp only [List.flatMap]; rw [List.map_congr_left hf]
  refine ⟨syntaxErrors f.tree ++ (f.evaluation.map report ++ f.includes.map (fun x => report ⟨"file `".toList ++ x.text ++ "` was not found".toList, x.range⟩) ++
      f.macros.map (fun x => report ⟨"no macro `".toList ++ x.text ++ "` found".toList, x.range⟩) ++ f.inactive.map inactive), ?_, ?_⟩
  · simp only [diagnostics, List.append_assoc, hfm]
    rfl
  · rw [syntaxErrors, errorNodes_eq, missingNodes_eq]; simp only [List.length_append, List.length_map]; omega

def leaf (a b : Nat) : Node := .mk "identifier".toList false false [] ⟨⟨0, a⟩, ⟨0, b⟩⟩ []

/-- **C76 does not hold** for methods: what is found in the body of a method is not shown. -/
theorem methods_refuted : ∃ (f : File) (x : Finding), (∃ d ∈ f.decls, x ∈ found d) ∧ ∀ d ∈ diagnostics f, d.range ≠ x.range :=
  ⟨⟨[], [], [], [], leaf 0 9, [.methodmap none [[⟨"no method `Foo` on type `Bar`".toList, ⟨⟨2, 8⟩, ⟨2, 11⟩⟩⟩]]]⟩, ⟨"no method `Foo` on type `Bar`".toList, ⟨⟨2, 8⟩, ⟨2, 11⟩⟩⟩,
    ⟨_, List.mem_singleton.2 rfl, by decide⟩, by decide⟩

/-- **C76, places, what holds**. On a line on which every use of a macro has the length of its expansion, if there are any uses, what is found in a body is shown
where the user sees it. Missing: other lines, where it is false (`place_refuted`). -/
theorem place_partial (f : File) (segs : List Seg) (line : Nat) (h : ∀ n a o, Seg.use n a o ∈ segs → n + a = o) {d : Decl} (hd : d ∈ f.decls) {x : Finding}
    (hx : x ∈ declFindings d) {user : Rng} (hu : SourceRange segs line x.range user) :
    ⟨"E0000", x.text, user, .error, false⟩ ∈ diagnostics f := by
  have hlen : ∀ l : List Seg, (∀ n a o, Seg.use n a o ∈ l → n + a = o) → userLen l = serverLen l := by
    intro l
    induction l with
    | nil => exact fun _ => rfl
    | cons s l ih =>
      intro h
      have hl := ih fun n a o hm => h n a o (List.mem_cons_of_mem _ hm)
      simp only [userLen, serverLen] at hl
      cases s with
      | text n => simp only [userLen, serverLen, List.map_cons, List.sum_cons, Seg.user, Seg.server]; omega
      | use n a o =>
        have := h n a o List.mem_cons_self
        simp only [userLen, serverLen, List.map_cons, List.sum_cons, Seg.user, Seg.server]; omega
  have hsame : ∀ {u s : Nat}, SamePlace segs u s → u = s := by
    rintro u s ⟨pre, n, post, k, rfl, _, rfl, rfl⟩
    rw [hlen pre fun n a o hm => h n a o (by simp [hm])]
  obtain ⟨h1, h2, h3, h4, h5, h6⟩ := hu
  have hr : user = x.range := by
    obtain ⟨⟨a, b⟩, ⟨c, e⟩⟩ := user
    obtain ⟨t, ⟨a', b'⟩, ⟨c', e'⟩⟩ := x
    simp only at h1 h2 h3 h4 h5 h6
    rw [h1, h2, h3, h4, hsame h5, hsame h6]
  rw [hr]
  simp only [diagnostics, List.mem_append]
  refine .inr (.inr (List.mem_map.2 ⟨x, ?_, rfl⟩))
  exact List.mem_flatMap.2 ⟨d, hd, hx⟩

/-- **C76 does not hold** after a macro on the same line. The line is `X f(1);` and `X` is defined as `return`: `f` is at column 2, and is reported at column 7. The
server can tell where it is: `sToU` does. -/
theorem place_refuted :
    let segs := [Seg.use 1 0 6, .text 6]
    let offsets : List (Nat × Offset) := [(3, { idx := 0, fileId := 0, range := ⟨⟨3, 0⟩, ⟨3, 1⟩⟩, diff := 5, argsDiff := 0 })]
    let x : Finding := ⟨"expected at most 0 arguments for `f` call, found 1".toList, ⟨⟨3, 7⟩, ⟨3, 8⟩⟩⟩
    let f : File := ⟨[], [], [], [], leaf 0 9, [.function [x]]⟩
    Describes 3 0 segs (onLine offsets 3) ∧ SourceRange segs 3 x.range ⟨⟨3, 2⟩, ⟨3, 3⟩⟩ ∧ sToU offsets x.range = ⟨⟨3, 2⟩, ⟨3, 3⟩⟩ ∧
      ∀ d ∈ diagnostics f, d.range ≠ ⟨⟨3, 2⟩, ⟨3, 3⟩⟩ := by
  refine ⟨⟨_, [], rfl, rfl, rfl, rfl, rfl⟩, ⟨rfl, rfl, rfl, rfl, ⟨[.use 1 0 6], 6, [], 1, rfl, by omega, rfl, rfl⟩, ⟨[.use 1 0 6], 6, [], 2, rfl, by omega, rfl, rfl⟩⟩,
    by decide, by decide⟩

/-- A file with a missing semicolon, a function with a finding and an inactive line. -/
example : (diagnostics ⟨[], [⟨"foo".toList, ⟨⟨0, 10⟩, ⟨0, 13⟩⟩⟩], [], [⟨⟨4, 0⟩, ⟨5, 0⟩⟩],
      .mk "source_file".toList false false [] ⟨⟨0, 0⟩, ⟨9, 0⟩⟩ [.mk ";".toList true false [] ⟨⟨2, 5⟩, ⟨2, 5⟩⟩ [], leaf 0 3],
      [.function [⟨"no field `x` on type `y`".toList, ⟨⟨7, 1⟩, ⟨7, 2⟩⟩⟩], .other]⟩).map (fun d => (d.code, d.range.s.line)) =
    [("missing-node", 2), ("E0000", 0), ("inactive-code", 4), ("E0000", 7)] := by decide

end Verif.Props.FileDiag
