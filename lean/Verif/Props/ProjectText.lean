import Verif.Include.Project
import Verif.Props.IncludeFile
import Verif.Props.MainPath
/-! # C113: a file is preprocessed as part of its plugin -/

namespace Verif.Props.ProjectText
open Verif.Graph Verif.Graph.Spec Verif.Include Verif.Include.Spec Verif.Props.MainPath

variable {K V : Type} {docs : List Nat} {inc : Nat → List Nat} {ext : Nat → Ext} {order : List Nat}

/-- The main file that is chosen is one of the beginnings from which the file is reached, and a plugin if one of these is a plugin. -/
theorem main_exact (ho : IsOrderOf order (graphQuery docs inc ext).findRoots) {f : Nat} (hf : f ∈ docs) :
    ∃ r, mainOf docs inc ext order f = some r ∧ r ∈ docs ∧ Reach (Includes docs inc) r f ∧ (IsMain docs inc r ∨ ∃ b, Includes docs inc r b) ∧
      ((∃ a, Plugin docs inc ext a ∧ Reach (Includes docs inc) a f) → ext r = .sp) := by
  have hn : f ∈ (graphQuery docs inc ext).nodes := ((Verif.Props.Graph.graph_is_include_relation docs inc ext).2 f).2 (.inl hf)
  obtain ⟨s, h1, h2, h3, h4, h5⟩ := Verif.Props.Graph.every_file_has_project _ order ho f hn
  refine ⟨s.root, by simp only [mainOf, h1, Option.map_some], ?_, reach_iff.1 ((h4 f).1 h3), root_iff.1 h2, ?_⟩
  · rcases root_iff.1 h2 with h | ⟨b, h⟩ <;> exact h.1
  · rintro ⟨a, ⟨ha, hr⟩, hreach⟩
    exact h5 ⟨a, root_iff.2 hr, ha, reach_iff.2 hreach⟩

theorem within_mono {u v : List Nat} (h : ∀ x ∈ u, x ∈ v) : ∀ r : Run K V, Within u r → Within v r
  | .done _, _ => trivial
  | .incl _ _ k, hw => ⟨fun g hg => h g (hw.1 g hg), fun m => within_mono h (k m) (hw.2 m)⟩

/-- What holds for every file: it is preprocessed with the definitions it is first included with when some document is read that reaches it, a plugin if there is one;
it is taken as it is written if reading this document does not come by it. -/
theorem some_plugin (files : Nat → Macros K V → Run K V) (hinc : ∀ f m, f ∈ docs → Within (inc f) (files f m)) (hdocs : ∀ f g, f ∈ docs → g ∈ inc f → g ∈ docs)
    (ho : IsOrderOf order (graphQuery docs inc ext).findRoots) {f : Nat} (hf : f ∈ docs) :
    ∃ root text, projectText docs inc ext order files f = some text ∧ Reach (Includes docs inc) root f ∧ (IsMain docs inc root ∨ ∃ b, Includes docs inc root b) ∧
      ((∃ a, Plugin docs inc ext a ∧ Reach (Includes docs inc) a f) → ext root = .sp) ∧
      ∃ vs, ReadFor keeping files root vs ∧ (text = .written ↔ f ∉ vs.map (·.1)) ∧ ∀ p, text = .run p → (f, p.inp) ∈ vs := by
  obtain ⟨root, h1, h2, h3, h4, h5⟩ := main_exact ho hf
  have hu : ∀ f m, f ∈ docs → Within docs (files f m) := fun f m hf => within_mono (hdocs f · hf) _ (hinc f m hf)
  -- the roots of other files do not matter
  let main : Nat → Option Nat := fun g => if g = f then some root else none
  have hmain : ∀ g r, main g = some r → r ∈ docs := by
    intro g r h
    simp only [main] at h
    split at h
    · cases h; exact h2
    · cases h
  have he : projectText docs inc ext order files f = preprocessFile files docs.length main f := by
    simp only [projectText, preprocessFile, h1, main, if_true]
  obtain ⟨text, t1, -, t3⟩ := Verif.Props.IncludeFile.project_file_exact files docs hu main hmain f
  obtain ⟨vs, v1, -, v2, v3⟩ := t3 root (by simp [main])
  exact ⟨root, text, he.trans t1, h3, h4, h5, vs, v1, v2, v3⟩

/-- **C113, partial.** Any finitely many documents that include each other in any way. If the plugin `root` is the only plugin file that reaches the file `f`, apart from
plugin files that are included and include nothing, then, in whatever order the hash map of the roots is visited, `f` is preprocessed with the definitions it is first
included with when `root` is read (inclusion as in C110). Missing: a file that is reached from several such plugin files (`split_refuted`). -/
theorem plugin_partial (files : Nat → Macros K V → Run K V) (hinc : ∀ f m, f ∈ docs → Within (inc f) (files f m)) (hdocs : ∀ f g, f ∈ docs → g ∈ inc f → g ∈ docs)
    (ho : IsOrderOf order (graphQuery docs inc ext).findRoots) {f root : Nat} (hf : f ∈ docs) (hr : Plugin docs inc ext root)
    (hreach : Reach (Includes docs inc) root f) (honly : ∀ a, Plugin docs inc ext a → Reach (Includes docs inc) a f → a = root) :
    ∃ text, projectText docs inc ext order files f = some text ∧
      ∃ vs, ReadFor keeping files root vs ∧ (text = .written ↔ f ∉ vs.map (·.1)) ∧ ∀ p, text = .run p → (f, p.inp) ∈ vs := by
  obtain ⟨root', text, h1, h2, h3, h4, h5⟩ := some_plugin files hinc hdocs ho hf
  have : root' = root := honly root' ⟨h4 ⟨root, hr, hreach⟩, h3⟩ h2
  subst this
  exact ⟨text, h1, h5⟩

theorem reach_main {a f : Nat} (hm : IsMain docs inc f) (h : Reach (Includes docs inc) a f) : a = f := by
  induction h with
  | refl => rfl
  | step hab _ ih =>
    have := ih hm
    subst this
    exact absurd hab (hm.2 _)

/-- A document that nobody includes is preprocessed, and starts with no definitions. -/
theorem main_starts_empty (files : Nat → Macros K V → Run K V) (hinc : ∀ f m, f ∈ docs → Within (inc f) (files f m))
    (hdocs : ∀ f g, f ∈ docs → g ∈ inc f → g ∈ docs) (ho : IsOrderOf order (graphQuery docs inc ext).findRoots) {f : Nat} (hm : IsMain docs inc f) :
    ∃ p, projectText docs inc ext order files f = some (.run p) ∧ ∀ x, p.inp x = none := by
  have hu : ∀ f m, f ∈ docs → Within docs (files f m) := fun f m hf => within_mono (hdocs f · hf) _ (hinc f m hf)
  obtain ⟨root, text, h1, h2, -, -, vs, hv, h4, h5⟩ := some_plugin files hinc hdocs ho hm.1
  have hroot : root = f := reach_main hm h2
  subst hroot
  obtain ⟨out, seen, vs', hin, rfl⟩ := hv
  have hnot : root ∉ vs'.map (·.1) := (Verif.Props.IncludeFile.inlined_nodup hin).2.1 root (by simp)
  cases text with
  | written => exact absurd (by simp) (h4.1 rfl)
  | run p =>
    refine ⟨p, h1, ?_⟩
    rcases List.mem_cons.1 (h5 p rfl) with h | h
    · intro x
      rw [(Prod.mk.inj h).2]
    · exact absurd (List.mem_map_of_mem (f := (·.1)) h) hnot

/-- File 0 includes file 1, which includes file 2. -/
def chainInc : Nat → List Nat := fun f => if f = 0 then [1] else if f = 1 then [2] else []

/-- File 0: `#define K 1`, `#include <1>`; file 1: `#include <2>`; file 2 is empty. -/
def chainFiles : Nat → Macros Nat Nat → Run Nat Nat := fun f m =>
  if f = 0 then .incl (IncludeRun.set m 0 1) (some 1) .done else if f = 1 then .incl m (some 2) .done else .done m

/-- All three are `.sp` files, or only the first one is. -/
def allSp : Nat → Ext := fun _ => .sp
def firstSp : Nat → Ext := fun f => if f = 0 then .sp else .inc

theorem chain_orders (ext : Nat → Ext) (h : (graphQuery [0, 1, 2] chainInc ext).findRoots = [0, 1]) :
    IsOrderOf [0, 1] (graphQuery [0, 1, 2] chainInc ext).findRoots ∧ IsOrderOf [1, 0] (graphQuery [0, 1, 2] chainInc ext).findRoots := by
  rw [h]
  exact ⟨⟨by decide, by simp⟩, ⟨by decide, by simp [or_comm]⟩⟩

/-- **C113, violated.** File 0 is the only main file. It defines `K` and includes file 1, which includes file 2. If file 1 is an `.sp` file too, file 2 is preprocessed with `K` or
without it, depending on the order of a hash map, and so is file 1. -/
theorem split_refuted :
    IsOrderOf [0, 1] (graphQuery [0, 1, 2] chainInc allSp).findRoots ∧ IsOrderOf [1, 0] (graphQuery [0, 1, 2] chainInc allSp).findRoots ∧
    IncludeFile.startsWith (projectText [0, 1, 2] chainInc allSp [0, 1] chainFiles 2) = some (some 1) ∧
    IncludeFile.startsWith (projectText [0, 1, 2] chainInc allSp [1, 0] chainFiles 2) = some none ∧
    IncludeFile.startsWith (projectText [0, 1, 2] chainInc allSp [1, 0] chainFiles 1) = some none :=
  ⟨(chain_orders _ (by decide)).1, (chain_orders _ (by decide)).2, by decide, by decide, by decide⟩

/-- **C113, violated.** A plugin and an `.inc` file that nobody includes both include file 2. The client may be told that the main file of file 2 is the `.inc` file, while file 2 is
preprocessed as part of the plugin. -/
theorem told_refuted : ∃ inc : Nat → List Nat, IsOrderOf [1, 0] (graphQuery [0, 1, 2] inc firstSp).findRoots ∧
    mainPath [0, 1, 2] inc firstSp [1, 0] 2 = some 1 ∧ mainOf [0, 1, 2] inc firstSp [1, 0] 2 = some 0 := by
  refine ⟨fun f => if f = 2 then [] else [2], ?_, by decide, by decide⟩
  have h : (graphQuery [0, 1, 2] (fun f => if f = 2 then [] else [2]) firstSp).findRoots = [0, 1] := by decide
  rw [h]
  exact ⟨by decide, by simp [or_comm]⟩

/-- The hypotheses of `plugin_partial` hold of the files above if files 1 and 2 are `.inc` files: file 0 is the only plugin. -/
example : (∀ f m, f ∈ [0, 1, 2] → Within (chainInc f) (chainFiles f m)) ∧ (∀ f g, f ∈ [0, 1, 2] → g ∈ chainInc f → g ∈ [0, 1, 2]) ∧
    Plugin [0, 1, 2] chainInc firstSp 0 ∧ Reach (Includes [0, 1, 2] chainInc) 0 2 ∧
    (∀ a, Plugin [0, 1, 2] chainInc firstSp a → Reach (Includes [0, 1, 2] chainInc) a 2 → a = 0) := by
  refine ⟨?_, fun f g hf hg => (by decide : ∀ f ∈ [0, 1, 2], ∀ g ∈ chainInc f, g ∈ [0, 1, 2]) f hf g hg, ⟨rfl, .inr ⟨1, by decide, by decide⟩⟩, .step (b := 1) ⟨by decide, by decide⟩ (.step (b := 2) ⟨by decide, by decide⟩ (.refl _)), ?_⟩
  · intro f m hf
    rcases List.mem_cons.1 hf with rfl | hf
    · exact ⟨fun g h => by cases h; decide, fun _ => trivial⟩
    rcases List.mem_cons.1 hf with rfl | hf
    · exact ⟨fun g h => by cases h; decide, fun _ => trivial⟩
    rcases List.mem_cons.1 hf with rfl | hf
    · trivial
    · cases hf
  · rintro a ⟨ha, -⟩ -
    unfold firstSp at ha
    split at ha
    · assumption
    · cases ha

/-- There, files 1 and 2 are preprocessed with `K` in either order. -/
example : ∀ order ∈ [[0, 1], [1, 0]], ∀ f ∈ [1, 2], IncludeFile.startsWith (projectText [0, 1, 2] chainInc firstSp order chainFiles f) = some (some 1) := by decide

/-- And file 0 is one that nobody includes. -/
example : IsMain [0, 1, 2] chainInc 0 := by
  refine ⟨by decide, ?_⟩
  rintro b ⟨hb, h⟩
  revert b
  decide

end Verif.Props.ProjectText
