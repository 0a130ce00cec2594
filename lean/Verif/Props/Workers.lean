import Verif.Lsp.Workers
import Verif.Props.Graph
import Verif.Props.Config
/-!
# What is compiled when a file is saved
-/

namespace Verif.Props.Workers

open Verif.Lsp.Config Verif.Lsp.Workers Verif.Lsp.Workers.Spec Verif.Graph

theorem mem_projects {g : Graph} {root file : Nat} : root ∈ g.projectsForFile g.findRoots file ↔ Project g root file := by
  simp only [Graph.projectsForFile, Graph.findSubgraphs, List.mem_filterMap, List.mem_map, Project]
  constructor
  · rintro ⟨s, ⟨r, hr, rfl⟩, h⟩
    split at h
    · next hm =>
      cases h
      have hroot : (g.subgraphOf r).root = r := by unfold Graph.subgraphOf; split <;> rfl
      rw [hroot]
      exact ⟨hr, (Verif.Props.Graph.project_is_reachable g r file).1 hm⟩
    · cases h
  · rintro ⟨hr, h⟩
    refine ⟨_, ⟨root, hr, rfl⟩, ?_⟩
    rw [if_pos ((Verif.Props.Graph.project_is_reachable g root file).2 h)]
    have hroot : (g.subgraphOf root).root = root := by unfold Graph.subgraphOf; split <;> rfl
    rw [hroot]

/-- Workers have the settings in effect. -/
def Current (s : Server) : Prop := s.data.compilerPath ≠ none → ∀ w ∈ s.workers, Wanted s.data w.2

/-- There is a worker for each root, and no other. -/
def Synced (s : Server) : Prop := s.data.compilerPath ≠ none → ∀ r, (∃ t, (r, t) ∈ s.workers) ↔ r ∈ s.graph.findRoots

theorem reload_current (s : Server) : Current (reloadFlycheck s) := by
  unfold reloadFlycheck
  split
  · next h => exact fun hp => absurd h hp
  · next p h =>
    intro _ w hw
    rw [List.mem_map] at hw
    obtain ⟨r, _, rfl⟩ := hw
    exact ⟨h, rfl, rfl⟩

theorem reload_synced (s : Server) : Synced (reloadFlycheck s) := by
  unfold reloadFlycheck
  split
  · next h => exact fun hp => absurd h hp
  · next p h =>
    intro _ r
    constructor
    · rintro ⟨t, ht⟩
      rw [List.mem_map] at ht
      obtain ⟨r', hr, h⟩ := ht
      cases h
      exact hr
    · exact fun hr => ⟨_, List.mem_map.2 ⟨r, hr, rfl⟩⟩

theorem reload_graph (s : Server) : (reloadFlycheck s).graph = s.graph := by unfold reloadFlycheck; split <;> rfl

theorem reload_data (s : Server) : (reloadFlycheck s).data = s.data := by unfold reloadFlycheck; split <;> rfl

theorem unchanged {old new : Data} (h : ¬ compilerChanged old new = true) :
    new.compilerPath = old.compilerPath ∧ new.compilerArguments = old.compilerArguments ∧ includeDirs new = includeDirs old := by
  simpa [compilerChanged, and_assoc] using h

theorem update_current {new : Data} {s : Server} (h : Current s) : Current (updateConfiguration new s) := by
  unfold updateConfiguration
  split
  · exact reload_current _
  · next hc =>
    obtain ⟨h1, h2, h3⟩ := unchanged hc
    intro hp w hw
    obtain ⟨g1, g2, g3⟩ := h (by rw [← h1]; exact hp) w hw
    exact ⟨h1.trans g1, g2.trans h2.symm, g3.trans h3.symm⟩

theorem update_synced {new : Data} {s : Server} (h : Synced s) : Synced (updateConfiguration new s) := by
  unfold updateConfiguration
  split
  · exact reload_synced _
  · next hc => exact fun hp => h (by rw [← (unchanged hc).1]; exact hp)

theorem update_graph (new : Data) (s : Server) : (updateConfiguration new s).graph = s.graph := by
  unfold updateConfiguration
  split
  · exact reload_graph _
  · rfl

theorem answer_cases (a : Answer) (s : Server) : answer a s = s ∨ ∃ new, answer a s = updateConfiguration new s := by
  unfold answer
  split
  · exact .inl rfl
  · split
    · exact .inr ⟨_, rfl⟩
    · exact .inl rfl

theorem run_current {s : Server} (h : Current s) : ∀ es, Current (run s es) := by
  intro es
  induction es generalizing s with
  | nil => exact h
  | cons e es ih =>
    refine ih (s := step s e) ?_
    cases e with
    | files g => exact h
    | settings a =>
      show Current (answer a s)
      rcases answer_cases a s with he | ⟨new, he⟩ <;> rw [he]
      · exact h
      · exact update_current h

theorem run_synced {s : Server} (h : Synced s) : ∀ es : List Event, (∀ g, .files g ∉ es) → Synced (run s es) := by
  intro es
  induction es generalizing s with
  | nil => exact fun _ => h
  | cons e es ih =>
    intro hes
    refine ih (s := step s e) ?_ (fun g hg => hes g (List.mem_cons_of_mem _ hg))
    cases e with
    | files g => exact absurd List.mem_cons_self (hes g)
    | settings a =>
      show Synced (answer a s)
      rcases answer_cases a s with he | ⟨new, he⟩ <;> rw [he]
      · exact h
      · exact update_synced h

/-- **C75, settings**. At any time, as long as a compiler is set, every worker has the settings in effect. -/
theorem workers_current_partial (d : Data) (g : Graph) (es : List Event) (hp : (run (start d g) es).data.compilerPath ≠ none) :
    ∀ w ∈ (run (start d g) es).workers, Wanted (run (start d g) es).data w.2 :=
  run_current (reload_current _) es hp

theorem save_from {s : Server} (hc : Current s) (hs : Synced s) (hp : s.data.compilerPath ≠ none) (ho : s.data.compilerOnSave = true) {file : Nat}
    (hf : ∃ root, Project s.graph root file) (root : Nat) (t : Settings) :
    (root, t) ∈ didSave s (.file file) ↔ Project s.graph root file ∧ Wanted s.data t := by
  have hwanted : ∀ {t t' : Settings}, Wanted s.data t → Wanted s.data t' → t = t' := by
    rintro ⟨a, b, c⟩ ⟨a', b', c'⟩ ⟨h1, h2, h3⟩ ⟨h4, h5, h6⟩
    simp only at h1 h2 h3 h4 h5 h6
    rw [h1] at h4
    cases h4
    rw [h2, h3, h5, h6]
  have hpick : ∀ r, r ∈ s.graph.findRoots → ∃ t, Wanted s.data t ∧ s.workers.find? (fun w => decide (w.1 = r)) = some (r, t) := by
    intro r hr
    obtain ⟨t, ht⟩ := (hs hp r).2 hr
    cases hfind : s.workers.find? (fun w => decide (w.1 = r)) with
    | none =>
      rw [List.find?_eq_none] at hfind
      exact absurd (decide_eq_true rfl) (hfind _ ht)
    | some w =>
      have h1 := List.find?_some hfind
      have h2 := List.mem_of_find?_eq_some hfind
      obtain ⟨r', t'⟩ := w
      simp only [decide_eq_true_eq] at h1
      subst h1
      exact ⟨t', hc hp _ h2, rfl⟩
  have hmem : ∀ root t, (root, t) ∈ (s.graph.projectsForFile s.graph.findRoots file).filterMap (fun r => s.workers.find? fun w => decide (w.1 = r)) ↔
      Project s.graph root file ∧ Wanted s.data t := by
    intro root t
    rw [List.mem_filterMap]
    constructor
    · rintro ⟨r, hr, h⟩
      have hpr := mem_projects.1 hr
      obtain ⟨t', ht', hf'⟩ := hpick r hpr.1
      rw [hf'] at h
      cases h
      exact ⟨hpr, ht'⟩
    · rintro ⟨h1, h2⟩
      obtain ⟨t', ht', hf'⟩ := hpick root h1.1
      exact ⟨root, mem_projects.2 h1, by rw [hf', hwanted ht' h2]⟩
  simp only [didSave, ho, if_true, runFlycheck]
  split
  · next he =>
    obtain ⟨r, hr⟩ := hf
    obtain ⟨t', ht', _⟩ := hpick r hr.1
    rw [List.isEmpty_iff] at he
    have := (hmem r t').2 ⟨hr, ht'⟩
    rw [he] at this
    cases this
  · exact hmem root t

theorem save_start_partial (d : Data) (g : Graph) (es : List Event) (hes : ∀ g', .files g' ∉ es) (hp : (run (start d g) es).data.compilerPath ≠ none)
    (ho : (run (start d g) es).data.compilerOnSave = true) {file : Nat} (hf : ∃ root, Project (run (start d g) es).graph root file) (root : Nat) (t : Settings) :
    (root, t) ∈ didSave (run (start d g) es) (.file file) ↔ Project (run (start d g) es).graph root file ∧ Wanted (run (start d g) es).data t :=
  save_from (run_current (reload_current _) es) (run_synced (reload_synced _) es hes) hp ho hf root t

/-- **C75, what holds**. After any history in which the settings of the compiler were changed and the files, and what they include, have not changed since: when a
compiler is set and a file of a project is saved, the projects that have the file are compiled, no others, and with the settings in effect. Missing: the same
whatever happens to the files after the change, which is false (`startup_refuted`, `new_project_refuted`). -/
theorem save_partial (d : Data) (g : Graph) (es : List Event) (a : Answer) (es' : List Event)
    (hchange : (run (start d g) (es ++ [.settings a])).data.compilerPath ≠ (run (start d g) es).data.compilerPath ∨
      (run (start d g) (es ++ [.settings a])).data.compilerArguments ≠ (run (start d g) es).data.compilerArguments ∨
      includeDirs (run (start d g) (es ++ [.settings a])).data ≠ includeDirs (run (start d g) es).data)
    (hes : ∀ g', .files g' ∉ es') {s : Server} (hs : s = run (start d g) (es ++ [.settings a] ++ es')) (hp : s.data.compilerPath ≠ none)
    (ho : s.data.compilerOnSave = true) {file : Nat} (hf : ∃ root, Project s.graph root file) (root : Nat) (t : Settings) :
    (root, t) ∈ didSave s (.file file) ↔ Project s.graph root file ∧ Wanted s.data t := by
  subst hs
  refine save_from (run_current (reload_current _) _) ?_ hp ho hf root t
  have happ : ∀ (s : Server) (a b : List Event), run s (a ++ b) = run (run s a) b := fun s a b => List.foldl_append
  rw [happ]
  refine run_synced ?_ es' hes
  rw [happ] at hchange ⊢
  show Synced (run (run (start d g) es) [.settings a])
  generalize run (start d g) es = s0 at hchange ⊢
  show Synced (answer a s0)
  have hchange : (answer a s0).data.compilerPath ≠ s0.data.compilerPath ∨ (answer a s0).data.compilerArguments ≠ s0.data.compilerArguments ∨
    includeDirs (answer a s0).data ≠ includeDirs s0.data := hchange
  rcases answer_cases a s0 with he | ⟨new, he⟩
  · rw [he] at hchange; simp at hchange
  · rw [he] at hchange ⊢
    unfold updateConfiguration at hchange ⊢
    split
    · exact reload_synced _
    · next hc =>
      rw [if_neg hc] at hchange
      obtain ⟨h1, h2, h3⟩ := unchanged hc
      simp [h1, h2, h3] at hchange

/-- Nothing is compiled when saving is not to compile. -/
theorem save_off (s : Server) (f : Saved) (h : s.data.compilerOnSave = false) : didSave s f = [] := by
  cases f <;> simp [didSave, h]

/-! ## What does not hold -/

def configured : Data := { Data.default with compilerPath := some "/spcomp".toList }

/-- Files without includes. -/
def plugins (l : List Nat) : Graph := graphQuery l (fun _ => []) (fun _ => .sp)

theorem project_self {l : List Nat} {f : Nat} (h : f ∈ (plugins l).findRoots) : Project (plugins l) f f := ⟨h, .refl _⟩

/-- **C75 does not hold** after start-up: the workers are made before any file is loaded, so that there are none, and saving compiles nothing. -/
theorem startup_refuted :
    let s := run (start configured (plugins [])) [.files (plugins [0])]
    s.data.compilerPath = some "/spcomp".toList ∧ s.data.compilerOnSave = true ∧ Project s.graph 0 0 ∧ didSave s (.file 0) = [] :=
  ⟨by decide +kernel, by decide +kernel, project_self (by decide +kernel), by decide +kernel⟩

/-- **C75 does not hold** for a project that is new since the workers were made: saving it compiles another one. -/
theorem new_project_refuted :
    let s := run (start configured (plugins [0])) [.files (plugins [0, 1])]
    Project s.graph 1 1 ∧ ¬ Project s.graph 0 1 ∧ (didSave s (.file 1)).map (·.1) = [0] :=
  ⟨project_self (by decide +kernel), fun h => by
    have := (Verif.Props.Graph.project_is_reachable (plugins [0, 1]) 0 1).2 h.2
    revert this; decide +kernel, by decide +kernel⟩

/-- **C75 does not hold** when the compiler is unset: the one set before is still run. -/
theorem unset_refuted :
    let s := run (start configured (plugins [0])) [.settings ⟨false, some (.arr [.obj [("compiler".toList, .obj [("path".toList, .null)])]])⟩]
    s.data.compilerPath = none ∧ didSave s (.file 0) = [(0, ⟨"/spcomp".toList, [], []⟩)] :=
  ⟨by decide +kernel, by decide +kernel⟩

/-- The hypotheses of `save_partial` can be met: two plugins that include a third file, and new arguments. -/
example :
    let g := graphQuery [0, 1, 2] (fun n => if n = 2 then [] else [2]) (fun _ => .sp)
    let s := run (start configured (plugins [])) [.files g, .settings ⟨false, some (.arr [.obj [("compiler".toList,
      .obj [("path".toList, .str "/spcomp".toList), ("arguments".toList, .arr [.str "-O2".toList])])]])⟩]
    (didSave s (.file 2)).map (·.1) = [0, 1] ∧ (didSave s (.file 0)) = [(0, ⟨"/spcomp".toList, ["-O2".toList], []⟩)] := by decide +kernel

end Verif.Props.Workers
