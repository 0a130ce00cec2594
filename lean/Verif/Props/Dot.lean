import Verif.Graph.Dot
import Verif.Props.Graphviz
/-!
# C90: the text of the picture
-/

namespace Verif.Props.Dot
open Verif.Graph Verif.Graph.Spec

theorem read_signs (l rest : List Char) (h : '"' ∉ l) : lex none (l ++ rest) = l.map .sign ++ lex none rest := by
  induction l with
  | nil => rfl
  | cons c l ih =>
    simp only [List.mem_cons, not_or] at h
    rw [List.cons_append, lex, if_neg (Ne.symm h.1), ih h.2]
    rfl

/-- A string that holds a plain name is read as it is. -/
theorem read_str (n rest : List Char) : ∀ s : List Char, '"' ∉ n → n.getLast? ≠ some '\\' → lex (some s) (n ++ '"' :: rest) = .str (s ++ n) :: lex none rest := by
  induction n with
  | nil => intro s _ _; simp [lex]
  | cons c n ih =>
    intro s hq hl
    simp only [List.mem_cons, not_or] at hq
    have hl' : n.getLast? ≠ some '\\' := by
      cases n with
      | nil => simp
      | cons d n => rw [List.getLast?_cons_cons] at hl; exact hl
    have key : lex (some s) (c :: (n ++ '"' :: rest)) = lex (some (s ++ [c])) (n ++ '"' :: rest) := by
      rw [lex.eq_5, if_neg (Ne.symm hq.1)]
      intro cs h1 h2
      cases n with
      | nil => simp [h1] at hl
      | cons d n =>
        simp only [List.cons_append, List.cons.injEq] at h2
        simp [h2.1] at hq
    rw [List.cons_append, key, ih (s ++ [c]) hq.2 hl']
    simp

theorem read_quoted (n rest : List Char) (h : Plain n) : lex none (quoted n ++ rest) = .str n :: lex none rest := by
  simp only [quoted, List.cons_append, List.append_assoc, List.nil_append]
  rw [lex, if_pos rfl, read_str n rest [] h.1 h.2]
  rfl

theorem digits (i : Nat) (c : Char) (h : c ∈ (toString i).toList) : c.isDigit = true := by
  have e : (toString i).toList = Nat.toDigits 10 i := by simp [toString, Nat.repr]
  rw [e] at h
  exact Nat.isDigit_of_mem_toDigits (by decide) (by decide) h

theorem colour_plain (c : Nat) : '"' ∉ (colours[c]?.getD "").toList := by
  have h : ∀ s ∈ colours, '"' ∉ s.toList := by decide +kernel
  cases hc : colours[c]? with
  | none => simp
  | some s => exact h s (List.mem_of_getElem? hc)

theorem number_plain (i : Nat) : '"' ∉ (toString i).toList := fun h => by
  have := digits i _ h
  revert this; decide

theorem label_plain (i : Nat) : Plain ("Project n°".toList ++ (toString i).toList) := by
  refine ⟨fun h => ?_, fun h => ?_⟩
  · rcases List.mem_append.1 h with h | h
    · revert h; decide +kernel
    · exact number_plain i h
  · have h := List.mem_of_getLast? h
    rcases List.mem_append.1 h with h | h
    · revert h; decide +kernel
    · have := digits i _ h
      revert this; decide

/-- A line with plain names is read as what it stands for, whatever follows. -/
theorem read_line (l : Line) (h : ∀ n ∈ names l, Plain n) (rest : List Char) : lex none (l.text ++ rest) = meaning l ++ lex none rest := by
  have q1 : '"' ∉ ";".toList := by decide +kernel
  cases l with
  | start => exact read_signs _ rest (by decide +kernel)
  | stop => exact read_signs _ rest (by decide +kernel)
  | diamond n =>
    have hn : Plain n := h n (by simp [names])
    have q2 : '"' ∉ " [shape=Mdiamond];".toList := by decide +kernel
    unfold Line.text meaning signs
    rw [List.append_assoc, List.append_assoc, read_quoted n _ hn, read_signs _ rest q2]
    rfl
  | arrow s t =>
    have hs : Plain s := h s (by simp [names])
    have ht : Plain t := h t (by simp [names])
    have q2 : '"' ∉ " -> ".toList := by decide +kernel
    unfold Line.text meaning signs
    rw [List.append_assoc, List.append_assoc, List.append_assoc, List.append_assoc, List.append_assoc, List.append_assoc, read_quoted s _ hs,
      read_signs _ _ q2, read_quoted t _ ht, read_signs _ rest q1]
    rfl
  | cluster i c =>
    have q2 : '"' ∉ "  subgraph cluster_".toList := by decide +kernel
    have q3 : '"' ∉ " {\n    style=filled;\n    color=".toList := by decide +kernel
    have q4 : '"' ∉ ";\n    node [style=filled,color=white];\n    label = ".toList := by decide +kernel
    have hl := label_plain i
    have hn := number_plain i
    have hc := colour_plain c
    unfold Line.text meaning signs
    generalize "  subgraph cluster_".toList = s1 at *
    generalize " {\n    style=filled;\n    color=".toList = s2 at *
    generalize ";\n    node [style=filled,color=white];\n    label = ".toList = s3 at *
    generalize ";".toList = s4 at *
    simp only [List.append_assoc]
    rw [read_signs _ _ q2, read_signs _ _ hn, read_signs _ _ q3, read_signs _ _ hc, read_signs _ _ q4, read_quoted _ _ hl, read_signs _ _ q1]
    rfl

/-- **C90, the text.** If no name has quotes or ends with a backslash, a program that reads the text gets exactly the strings and signs the lines stand for,
line by line. -/
theorem text_partial (ls : List Line) (h : ∀ l ∈ ls, ∀ n ∈ names l, Plain n) : lex none (render ls) = joinTokens (ls.map meaning) := by
  unfold render
  induction ls with
  | nil => rfl
  | cons l ls ih =>
    have hl := read_line l (h l (List.mem_cons_self ..))
    cases ls with
    | nil =>
      have := hl []
      simpa [joinLines, joinTokens, lex] using this
    | cons k ls =>
      have ih := ih fun l hl => h l (List.mem_cons_of_mem _ hl)
      simp only [List.map_cons, joinLines, joinTokens] at ih ⊢
      rw [hl, lex, if_neg (by decide), ih]

def strings (ts : List Token) : List Name := ts.filterMap fun t => match t with | .str s => some s | .sign _ => none

/-- Two files, the first includes the second. -/
def pair : Graph := { edges := [(0, 1)], nodes := [0, 1], ext := fun f => if f = 0 then .sp else .inc }

/-- **C90 is false of the text** for names with quotes: the file `a".sp` includes `b.inc`. The picture has both names, but no string of the text is one of them. -/
theorem text_refuted : ∃ (g : Graph) (roots : List Nat) (name : Nat → Option Name) (ls : List Line), roots = g.findRoots ∧ g.toGraphviz roots name = some ls ∧
    ls.flatMap names = ["a\".sp".toList, "b.inc".toList, "a\".sp".toList] ∧ ∀ n ∈ ls.flatMap names, n ∉ strings (lex none (render ls)) :=
  ⟨pair, [0], fun f => some (if f = 0 then "a\".sp".toList else "b.inc".toList), _, by decide +kernel, rfl, by decide +kernel, by decide +kernel⟩

/-- The sample of C90 has plain names; its text in full. -/
example : ∃ ls, Graphviz.sample.toGraphviz [0, 1, 3] Graphviz.sampleName = some ls ∧ (∀ n ∈ ls.flatMap names, '"' ∉ n ∧ n.getLast? ≠ some '\\') ∧
    strings (lex none (render ls)) = ["Project n°0".toList, "a.sp".toList, "b.inc".toList, "b.inc".toList, "c.inc".toList, "Project n°1".toList, "a.sp".toList,
      "d.sp".toList] :=
  ⟨_, rfl, by decide +kernel, by decide +kernel⟩

end Verif.Props.Dot
