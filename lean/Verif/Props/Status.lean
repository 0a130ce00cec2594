import Verif.Ide.Status
import Mathlib.Data.List.Perm.Basic
import Mathlib.Algebra.BigOperators.Group.List.Basic
/-! # C117: the status report counts what is stored -/

namespace Verif.Props.Status
open Verif.Ide.Status
open Verif.Vfs (showBytes Suffix)

/-- The sum of `f` over the entries of a table. -/
def total {E : Type} (f : E → Nat) (l : List E) : Nat := (l.map f).sum

/-- What is kept for an entry whose value is there. -/
def kept {E : Type} (f : E → Nat) : Option E → Nat
  | some e => f e
  | none => 0

/-- The memory of the macros that are passed to a file: the mean size of one, rounded down, for each place of their table. -/
def tableSize (e : Params) : Nat := e.macros.sum / e.macros.length * e.capacity

theorem files_collect (l : List Nat) (s : Files) : collectQuery Files.collect s (l.map some) = some { total := s.total + l.length, size := s.size + l.sum } := by
  induction l generalizing s with
  | nil => rfl
  | cons a l ih =>
    simp only [collectQuery, List.map_cons, List.foldlM_cons, Files.collect] at ih ⊢
    refine (ih _).trans ?_
    simp only [List.length_cons, List.sum_cons, Option.some.injEq, Files.mk.injEq]
    omega

theorem trees_collect (l : List Bool) (s : Trees) : collectQuery Trees.collect s l = some { total := s.total + l.length, retained := s.retained + l.count true } := by
  induction l generalizing s with
  | nil => rfl
  | cons a l ih =>
    simp only [collectQuery, List.foldlM_cons, Trees.collect] at ih ⊢
    refine (ih _).trans ?_
    cases a <;> simp <;> omega

theorem data_collect (l : List (Option Result)) (s : Data) : collectQuery Data.collect s l = some {
      total := s.total + l.length
      macros := s.macros + total (kept fun r => r.macros.length) l
      macrosSize := s.macrosSize + total (kept fun r => r.macros.sum) l
      offsets := s.offsets + total (kept fun r => r.offsets) l
      retained := s.retained + l.countP Option.isSome } := by
  induction l generalizing s with
  | nil => rfl
  | cons a l ih =>
    simp only [collectQuery, List.foldlM_cons, Data.collect] at ih ⊢
    refine (ih _).trans ?_
    cases a <;> simp [total, kept] <;> omega

theorem params_step (s : ParamsStats) (e : Params) : s.collect e = some
    { total := s.total + 1, being := s.being + e.being, macros := s.macros + e.macros.length, macrosSize := s.macrosSize + tableSize e, retained := s.retained + e.value.toNat } := by
  unfold ParamsStats.collect tableSize
  cases h : e.macros with
  | nil => simp
  | cons a l => simp [divide]

theorem params_collect (l : List Params) (s : ParamsStats) : collectQuery ParamsStats.collect s l = some {
      total := s.total + l.length
      being := s.being + total Params.being l
      macros := s.macros + total (fun e => e.macros.length) l
      macrosSize := s.macrosSize + total tableSize l
      retained := s.retained + l.countP Params.value } := by
  induction l generalizing s with
  | nil => rfl
  | cons a l ih =>
    simp only [collectQuery, List.foldlM_cons, params_step] at ih ⊢
    refine (ih _).trans ?_
    simp only [total, List.length_cons, List.map_cons, List.sum_cons, List.countP_cons, Option.some.injEq, ParamsStats.mk.injEq]
    cases a.value <;> simp <;> omega

/-- **C117** (the report). If all texts are there, the report is given, and each of its numbers is the one its line names. -/
theorem status_exact (t : Tables) (texts : List Nat) (h : t.texts = texts.map some) :
    status t = some [
      .files (showBytes texts.sum),
      .trees t.trees.length (t.trees.count true),
      .data t.data.length (t.data.countP Option.isSome) (total (kept fun r => r.macros.length) t.data) (showBytes (total (kept fun r => r.macros.sum) t.data))
        (total (kept fun r => r.offsets) t.data),
      .params t.params.length (t.params.countP Params.value) (total Params.being t.params) (total (fun e => e.macros.length) t.params)
        (showBytes (total tableSize t.params)),
      .astIds t.astIds.length, .defMaps t.defMaps.length, .bodies t.bodies.length, .scopes t.scopes.length, .inferred t.inferred.length] := by
  unfold status
  rw [h, files_collect, trees_collect, data_collect, params_collect]
  simp

/-- Two databases that have the same entries, whatever the order in which their tables yield them. -/
structure Same (t t' : Tables) : Prop where
  texts : t.texts.Perm t'.texts
  trees : t.trees.Perm t'.trees
  data : t.data.Perm t'.data
  params : t.params.Perm t'.params
  astIds : t.astIds.Perm t'.astIds
  defMaps : t.defMaps.Perm t'.defMaps
  bodies : t.bodies.Perm t'.bodies
  scopes : t.scopes.Perm t'.scopes
  inferred : t.inferred.Perm t'.inferred

theorem total_perm {E : Type} (f : E → Nat) {l l' : List E} (h : l.Perm l') : total f l = total f l' := (h.map f).sum_eq

theorem all_some {l : List (Option Nat)} (h : none ∉ l) : ∃ ns : List Nat, l = ns.map some := by
  induction l with
  | nil => exact ⟨[], rfl⟩
  | cons a l ih =>
    obtain ⟨ns, rfl⟩ := ih (fun hm => h (List.mem_cons_of_mem _ hm))
    cases a with
    | none => exact absurd (List.mem_cons_self) h
    | some n => exact ⟨n :: ns, rfl⟩

/-- **C117** (the order in which the tables yield their entries does not matter). -/
theorem status_order {t t' : Tables} (h : Same t t') (hn : none ∉ t.texts) : status t = status t' := by
  obtain ⟨ns, e⟩ := all_some hn
  obtain ⟨ns', e'⟩ := all_some (fun hm => hn (h.texts.mem_iff.2 hm))
  have hp : ns.Perm ns' := by
    have := h.texts
    rw [e, e'] at this
    exact (List.map_perm_map_iff (fun a b h => Option.some.inj h)).1 this
  rw [status_exact t ns e, status_exact t' ns' e', hp.sum_eq, h.trees.length_eq, h.trees.count_eq, h.data.length_eq, h.data.countP_eq, h.params.length_eq, h.params.countP_eq,
    total_perm _ h.data, total_perm _ h.data, total_perm _ h.data, total_perm _ h.params, total_perm _ h.params, total_perm _ h.params,
    h.astIds.length_eq, h.defMaps.length_eq, h.bodies.length_eq, h.scopes.length_eq, h.inferred.length_eq]

/-- **C117** (never a panic, if the texts are there). -/
theorem status_total (t : Tables) (h : none ∉ t.texts) : (status t).isSome := by
  obtain ⟨ns, e⟩ := all_some h
  rw [status_exact t ns e]
  rfl

/-- Two files, one with a tree; a result with two macros and a lost one; a file that is given macros and one that is not. -/
def sample : Tables where
  texts := [some 5000, some 200]
  trees := [true, false]
  data := [some ⟨[10, 21], 3⟩, none]
  params := [⟨[10, 21], 7, 2, true⟩, ⟨[], 0, 1, false⟩]
  astIds := [()]
  defMaps := []
  bodies := [(), ()]
  scopes := []
  inferred := []

example : status sample = some [.files (5, .kb), .trees 2 1, .data 2 1 2 (31, .b) 3, .params 2 1 3 2 (105, .b), .astIds 1, .defMaps 0, .bodies 2, .scopes 0, .inferred 0] := by decide
example : none ∉ sample.texts := by decide
example : Same sample { sample with texts := [some 200, some 5000] } := ⟨.swap .., .refl _, .refl _, .refl _, .refl _, .refl _, .refl _, .refl _, .refl _⟩

end Verif.Props.Status
