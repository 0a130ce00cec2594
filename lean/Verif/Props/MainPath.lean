import Verif.Graph.MainPath
import Verif.Props.Graph
/-! # C97: the main file of a document -/

namespace Verif.Props.MainPath

open Verif.Graph Verif.Graph.Spec Verif.Props.Graph

variable {docs : List Nat} {inc : Nat → List Nat} {ext : Nat → Ext} {order : List Nat}

theorem edge_iff {a b : Nat} : (a, b) ∈ (graphQuery docs inc ext).edges ↔ Includes docs inc a b :=
  (graph_is_include_relation docs inc ext).1 a b

theorem reach_iff {a b : Nat} : Reach (fun a b => (a, b) ∈ (graphQuery docs inc ext).edges) a b ↔ Reach (Includes docs inc) a b := by
  have : (fun a b => (a, b) ∈ (graphQuery docs inc ext).edges) = Includes docs inc := by
    funext a b
    exact propext edge_iff
  rw [this]

theorem root_iff {a : Nat} : a ∈ (graphQuery docs inc ext).findRoots ↔ IsMain docs inc a ∨ ∃ b, Includes docs inc a b := by
  simp only [Graph.findRoots, List.mem_filter, decide_eq_true_eq, outDeg_ne, inDeg_zero, mem_keys, edge_iff, IsMain]
  have hn := (graph_is_include_relation docs inc ext).2 a
  constructor
  · rintro ⟨hk, h | h⟩
    · exact .inr h
    · refine .inl ⟨?_, h⟩
      rcases hk with hk | ⟨m, hk | hk⟩
      · rcases hn.1 hk with hd | ⟨d, hd, hi⟩
        · exact hd
        · exact absurd ⟨hd, hi⟩ (h d)
      · exact hk.1
      · exact absurd hk (h m)
  · rintro (⟨h1, h2⟩ | ⟨b, h⟩)
    · exact ⟨.inl (hn.2 (.inl h1)), .inr h2⟩
    · exact ⟨.inr ⟨b, .inl h⟩, .inl ⟨b, h⟩⟩

theorem answer_mem {file r : Nat} (ho : IsOrderOf order (graphQuery docs inc ext).findRoots) (h : mainPath docs inc ext order file = some r) :
    (IsMain docs inc r ∨ ∃ b, Includes docs inc r b) ∧ Reach (Includes docs inc) r file := by
  have hm : r ∈ (graphQuery docs inc ext).projectsForFile order file := List.mem_of_mem_head? h
  rw [projects_for_file_correct _ _ ho, root_iff, reach_iff] at hm
  exact hm

/-- C97, in part: there is an answer exactly for documents and what they include, whatever order the hash map has; the answer is a document from which the
file is reached; and it is one that nobody includes if that is so for every document that includes something and from which the file is reached. Missing:
otherwise (`main_path_refuted`). -/
theorem main_path_partial (docs : List Nat) (inc : Nat → List Nat) (ext : Nat → Ext) (order : List Nat)
    (ho : IsOrderOf order (graphQuery docs inc ext).findRoots) (file : Nat) :
    ((∃ r, mainPath docs inc ext order file = some r) ↔ file ∈ docs ∨ ∃ d, Includes docs inc d file) ∧
    ∀ r, mainPath docs inc ext order file = some r →
      r ∈ docs ∧ Reach (Includes docs inc) r file ∧
      ((∀ a b, Includes docs inc a b → Reach (Includes docs inc) a file → IsMain docs inc a) → IsMain docs inc r) := by
  constructor
  · constructor
    · rintro ⟨r, h⟩
      obtain ⟨h1, h2⟩ := answer_mem ho h
      cases h2 with
      | refl =>
        rcases h1 with h1 | ⟨b, h1⟩
        · exact .inl h1.1
        · exact .inl h1.1
      | step hs hr =>
        clear h1 h
        induction hr generalizing r with
        | refl => exact .inr ⟨_, hs⟩
        | step hs' _ ih => exact ih _ hs'
    · intro h
      have key : ∃ r, r ∈ (graphQuery docs inc ext).projectsForFile order file := by
        by_cases hi : ∃ d, Includes docs inc d file
        · obtain ⟨d, hd⟩ := hi
          exact ⟨d, (projects_for_file_correct _ _ ho _ _).2 ⟨root_iff.2 (.inr ⟨file, hd⟩), reach_iff.2 (.step hd (.refl _))⟩⟩
        · rcases h with h | h
          · exact ⟨file, (projects_for_file_correct _ _ ho _ _).2 ⟨root_iff.2 (.inl ⟨h, fun b hb => hi ⟨b, hb⟩⟩), .refl _⟩⟩
          · exact absurd h hi
      obtain ⟨r, hr⟩ := key
      rw [mainPath]
      cases hl : (graphQuery docs inc ext).projectsForFile order file with
      | nil => rw [hl] at hr; simp at hr
      | cons x l => exact ⟨x, rfl⟩
  · intro r h
    obtain ⟨h1, h2⟩ := answer_mem ho h
    refine ⟨?_, h2, ?_⟩
    · rcases h1 with h1 | ⟨b, h1⟩
      · exact h1.1
      · exact h1.1
    · intro hall
      rcases h1 with h1 | ⟨b, h1⟩
      · exact h1
      · exact hall r b h1 h2

/-- C97, violated: `0` includes `1` and `1` includes `2`. The answer for `2` is the main file `0` or the included file `1`, depending on the order of a hash
map; the main file of `1` may also be said to be `1`. -/
theorem main_path_refuted : ∃ (inc : Nat → List Nat) (order order' : List Nat),
    IsOrderOf order (graphQuery [0, 1, 2] inc (fun _ => .sp)).findRoots ∧ IsOrderOf order' (graphQuery [0, 1, 2] inc (fun _ => .sp)).findRoots ∧
    IsMain [0, 1, 2] inc 0 ∧ ¬ IsMain [0, 1, 2] inc 1 ∧ Reach (Includes [0, 1, 2] inc) 0 2 ∧
    mainPath [0, 1, 2] inc (fun _ => .sp) order 2 = some 0 ∧ mainPath [0, 1, 2] inc (fun _ => .sp) order' 2 = some 1 ∧
    mainPath [0, 1, 2] inc (fun _ => .sp) order' 1 = some 1 := by
  have hr : (graphQuery [0, 1, 2] (fun n => if n = 0 then [1] else if n = 1 then [2] else []) (fun _ => .sp)).findRoots = [0, 1] := by decide
  refine ⟨fun n => if n = 0 then [1] else if n = 1 then [2] else [], [0, 1], [1, 0], ?_, ?_, ?_, ?_, ?_, by decide, by decide, by decide⟩
  · rw [hr]; exact ⟨by decide, by simp⟩
  · rw [hr]; exact ⟨by decide, by simp [or_comm]⟩
  · refine ⟨by simp, fun b hb => ?_⟩
    obtain ⟨h1, h2⟩ := hb
    dsimp only at h2
    split at h2
    · simp at h2
    · split at h2 <;> simp at h2
  · exact fun h => h.2 0 ⟨by simp, by simp⟩
  · exact .step ⟨by simp, by simp⟩ (.step ⟨by simp, by simp⟩ (.refl _) : Reach _ 1 2)

/-- Two plugins that include one file each meet the condition of `main_path_partial`. -/
example : ∀ a b, Includes [0, 1, 2] (fun n => if n = 0 then [2] else if n = 1 then [2] else []) a b →
    IsMain [0, 1, 2] (fun n => if n = 0 then [2] else if n = 1 then [2] else []) a := by
  rintro a b ⟨h1, h2⟩
  refine ⟨h1, ?_⟩
  rintro c ⟨-, h4⟩
  dsimp only at h2 h4
  have ha : a = 0 ∨ a = 1 := by
    split at h2
    · exact .inl ‹_›
    · split at h2
      · exact .inr ‹_›
      · simp at h2
  have hc : a = 2 := by
    split at h4
    · simpa using h4
    · split at h4
      · simpa using h4
      · simp at h4
  omega

end Verif.Props.MainPath
