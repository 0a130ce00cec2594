import Verif.Lsp.Snapshot
import Mathlib.Data.List.Induction
/-!
# C83, C84: what answers and diagnostics are computed from
-/

namespace Verif.Props.Snapshot
open Verif.Lsp.Snapshot Verif.Lsp.Snapshot.Spec
variable {F T : Type} [DecidableEq F] [DecidableEq T]

theorem clientDoc_snoc (ms : List (Msg F T)) (m : Msg F T) (f : F) : clientDoc (ms ++ [m]) f = clientStep f (clientDoc ms f) m := by
  simp [clientDoc, List.foldl_append]

/-- What holds of the files. -/
structure Core (s : St F T) : Prop where
  mem : ∀ f, f ∈ s.mem ↔ (clientDoc s.handled f).isSome
  vfs : Matches s.handled s.vfs
  db : s.phase = .idle → s.db = s.vfs

/-- `seen` are the texts of the client at a moment after it sent the request; just after it, if nothing was cancelled. -/
def Good (c : Bool) (handled : List (Msg F T)) (id : Nat) (seen : F → Option T) : Prop :=
  ∃ pre, pre <+: handled ∧ Msg.request id ∈ pre ∧ Matches pre seen ∧ (c = false → ∃ p, pre = p ++ [Msg.request id])

structure Works (c : Bool) (s : St F T) : Prop where
  jobs : ∀ id seen, ⟨.request id, seen⟩ ∈ s.jobs → Good c s.handled id seen
  ended : ∀ id seen, .response id (some seen) ∈ s.ended → Good c s.handled id seen
  tasks : ∀ id seen, .response id (some seen) ∈ s.tasks → Good c s.handled id seen
  answers : ∀ id seen, (id, some seen) ∈ s.answers → Good c s.handled id seen
  retryE : ∀ id, .retry id ∈ s.ended → c = true ∧ Msg.request id ∈ s.handled
  retryT : ∀ id, .retry id ∈ s.tasks → c = true ∧ Msg.request id ∈ s.handled

theorem good_mono {c c' : Bool} {h h' : List (Msg F T)} {id : Nat} {seen : F → Option T} (hg : Good c h id seen) (hh : h <+: h')
    (hc : c' = false → c = false) : Good c' h' id seen := by
  obtain ⟨pre, h1, h2, h3, h4⟩ := hg
  exact ⟨pre, h1.trans hh, h2, h3, fun h => h4 (hc h)⟩

theorem works_of {c : Bool} {s s' : St F T} (h : Works c s) (hh : s.handled <+: s'.handled)
    (hj : ∀ id seen, ⟨.request id, seen⟩ ∈ s'.jobs → ⟨.request id, seen⟩ ∈ s.jobs ∨ Good c s'.handled id seen)
    (he : ∀ t ∈ s'.ended, t ∈ s.ended) (ht : ∀ t ∈ s'.tasks, t ∈ s.tasks) (ha : ∀ p ∈ s'.answers, p ∈ s.answers) : Works c s' where
  jobs id seen hm := (hj id seen hm).elim (fun hm => good_mono (h.jobs id seen hm) hh (fun x => x)) (fun x => x)
  ended id seen hm := good_mono (h.ended id seen (he _ hm)) hh (fun x => x)
  tasks id seen hm := good_mono (h.tasks id seen (ht _ hm)) hh (fun x => x)
  answers id seen hm := good_mono (h.answers id seen (ha _ hm)) hh (fun x => x)
  retryE id hm := ⟨(h.retryE id (he _ hm)).1, hh.subset (h.retryE id (he _ hm)).2⟩
  retryT id hm := ⟨(h.retryT id (ht _ hm)).1, hh.subset (h.retryT id (ht _ hm)).2⟩

/-- The lists of works a turn leaves as they are, but for new computations of diagnostics. -/
structure Same (s s' : St F T) : Prop where
  ended : s'.ended = s.ended
  tasks : s'.tasks = s.tasks
  answers : s'.answers = s.answers
  jobs : ∀ id seen, ⟨.request id, seen⟩ ∈ s'.jobs → ⟨.request id, seen⟩ ∈ s.jobs
  handled : s'.handled = s.handled
  mem : s'.mem = s.mem
  db : s'.db = s.db

theorem Same.refl (s : St F T) : Same s s := ⟨rfl, rfl, rfl, fun _ _ h => h, rfl, rfl, rfl⟩

theorem same_update (s : St F T) : Same s s.updateDiagnostics where
  ended := rfl
  tasks := rfl
  answers := rfl
  jobs id seen h := by
    simp only [St.updateDiagnostics, List.mem_append, List.mem_singleton] at h
    rcases h with h | h
    · exact h
    · injection h with h1 _; cases h1
  handled := rfl
  mem := rfl
  db := rfl

theorem same_set (s : St F T) (f : F) (t : Option T) (docs : Bool) : Same s (s.setContents f t docs) := by
  unfold St.setContents
  split
  · split
    · exact same_update s
    · exact Same.refl s
  · exact ⟨rfl, rfl, rfl, fun _ _ h => h, rfl, rfl, rfl⟩

/-- Contents set in a turn: the file has them, the others are as before, and the database is up to date or about to be written. -/
theorem set_vfs (s : St F T) (f : F) (t : Option T) (docs : Bool) : (s.setContents f t docs).vfs = put s.vfs f t := by
  unfold St.setContents
  split
  · rename_i h
    have : put s.vfs f t = s.vfs := by
      funext g; unfold put; split
      · rename_i hg; rw [hg, h]
      · rfl
    rw [this]
    split <;> rfl
  · rfl

theorem set_phase (s : St F T) (f : F) (t : Option T) (docs : Bool) (h : (s.setContents f t docs).phase = .idle) :
    s.phase = .idle ∧ (s.setContents f t docs).vfs = s.vfs := by
  unfold St.setContents at *
  split at h
  · split at h
    · rename_i h1 h2; rw [if_pos h1, if_pos h2]; exact ⟨h, rfl⟩
    · rename_i h1 h2; rw [if_pos h1, if_neg h2]; exact ⟨h, rfl⟩
  · cases h

theorem set_core {s : St F T} (hm : ∀ f, f ∈ s.mem ↔ (clientDoc s.handled f).isSome) (hdb : s.phase = .idle → s.db = s.vfs) (f : F)
    (t : Option T) (docs : Bool) (hv : Matches s.handled (put s.vfs f t)) : Core (s.setContents f t docs) where
  mem g := by rw [(same_set s f t docs).mem, (same_set s f t docs).handled]; exact hm g
  vfs := by rw [set_vfs, (same_set s f t docs).handled]; exact hv
  db h := by
    obtain ⟨h1, h2⟩ := set_phase s f t docs h
    rw [(same_set s f t docs).db, h2]; exact hdb h1

omit [DecidableEq T] in
theorem filter_mem (l : List F) (f g : F) : g ∈ l.filter (· ≠ f) ↔ g ∈ l ∧ g ≠ f := by simp

/-- A message of the client. -/
theorem handle_core {s : St F T} (h : Core s) (hi : s.phase = .idle) (m : Msg F T) : Core (St.handle { s with handled := s.handled ++ [m] } m) := by
  cases m with
  | didOpen f t =>
    refine set_core (s := { s with handled := s.handled ++ [.didOpen f t], mem := f :: s.mem.filter (· ≠ f) }) ?_ (fun _ => h.db hi) f (some t)
      true ?_
    · intro g
      show g ∈ f :: s.mem.filter (· ≠ f) ↔ _
      rw [clientDoc_snoc]
      by_cases hg : f = g
      · subst hg; simp [clientStep]
      · have hg' : g ≠ f := fun e => hg e.symm
        simp only [List.mem_cons, filter_mem, clientStep, if_neg hg, hg', false_or, ne_eq, not_false_eq_true, and_true]
        exact h.mem g
    · intro g x hx
      change clientDoc (s.handled ++ [_]) g = _ at hx
      rw [clientDoc_snoc] at hx
      simp only [clientStep] at hx
      by_cases hg : f = g
      · subst hg; rw [if_pos rfl] at hx; simpa [put] using hx
      · rw [if_neg hg] at hx
        have hg' : g ≠ f := fun e => hg e.symm
        simp only [put, if_neg hg']
        exact h.vfs g x hx
  | didChange f e =>
    have hmem : ∀ g, g ∈ s.mem ↔ (clientDoc (s.handled ++ [Msg.didChange f e]) g).isSome := by
      intro g
      rw [h.mem g, clientDoc_snoc]
      simp only [clientStep]
      split <;> simp
    have hno : clientDoc s.handled f = none → Matches (s.handled ++ [Msg.didChange f e]) s.vfs := by
      intro hn g x hx
      rw [clientDoc_snoc] at hx
      simp only [clientStep] at hx
      split at hx
      · rename_i hg; subst hg; rw [hn] at hx; cases hx
      · exact h.vfs g x hx
    unfold St.handle
    simp only
    split
    · rename_i hf
      have hs := (h.mem f).1 hf
      obtain ⟨t0, ht0⟩ := Option.isSome_iff_exists.1 hs
      have hv := h.vfs f t0 ht0
      split
      · rename_i t ht
        rw [hv] at ht; injection ht with ht; subst ht
        refine set_core (s := { s with handled := s.handled ++ [.didChange f e] }) hmem (fun _ => h.db hi) f (some (e t0)) false ?_
        intro g x hx
        change clientDoc (s.handled ++ [_]) g = _ at hx
        rw [clientDoc_snoc] at hx
        simp only [clientStep] at hx
        split at hx
        · rename_i hg; subst hg; rw [ht0] at hx; simpa [put] using hx
        · rename_i hg
          have hg' : g ≠ f := fun e => hg e.symm
          simp only [put, if_neg hg']
          exact h.vfs g x hx
      · rename_i ht; rw [hv] at ht; cases ht
    · rename_i hf
      have hn : clientDoc s.handled f = none := by
        cases hc : clientDoc s.handled f with
        | none => rfl
        | some x => exact absurd ((h.mem f).2 (by rw [hc]; rfl)) hf
      exact ⟨hmem, hno hn, fun _ => h.db hi⟩
  | didClose f =>
    refine ⟨?_, ?_, fun _ => h.db hi⟩
    · intro g
      show g ∈ s.mem.filter (· ≠ f) ↔ (clientDoc (s.handled ++ [_]) g).isSome
      rw [clientDoc_snoc, filter_mem]
      simp only [clientStep]
      by_cases hg : f = g
      · subst hg; simp
      · have hg' : g ≠ f := fun e => hg e.symm
        rw [if_neg hg, h.mem g]; simp [hg']
    · intro g x hx
      change clientDoc (s.handled ++ [_]) g = _ at hx
      rw [clientDoc_snoc] at hx
      simp only [clientStep] at hx
      split at hx
      · cases hx
      · exact h.vfs g x hx
  | request id =>
    refine ⟨?_, ?_, fun _ => h.db hi⟩
    · intro g
      show g ∈ s.mem ↔ (clientDoc (s.handled ++ [_]) g).isSome
      rw [clientDoc_snoc]; exact h.mem g
    · intro g x hx
      change clientDoc (s.handled ++ [_]) g = _ at hx
      rw [clientDoc_snoc] at hx
      exact h.vfs g x hx

theorem handle_works {c : Bool} {s : St F T} (hc : Core s) (h : Works c s) (hi : s.phase = .idle) (m : Msg F T) :
    Works c (St.handle { s with handled := s.handled ++ [m] } m) := by
  have step : ∀ (s1 s2 : St F T), Same s1 s2 → s1.ended = s.ended → s1.tasks = s.tasks → s1.answers = s.answers → s1.jobs = s.jobs →
      s1.handled = s.handled ++ [m] → Works c s2 := by
    intro s1 s2 h12 h1 h2 h3 h4 h5
    refine works_of h ?_ ?_ ?_ ?_ ?_
    · rw [h12.handled, h5]; exact List.prefix_append ..
    · intro id seen hm; left; rw [← h4]; exact h12.jobs id seen hm
    · intro t ht; rw [h12.ended, h1] at ht; exact ht
    · intro t ht; rw [h12.tasks, h2] at ht; exact ht
    · intro t ht; rw [h12.answers, h3] at ht; exact ht
  cases m with
  | didOpen f t => exact step _ _ (same_set _ f (some t) true) rfl rfl rfl rfl rfl
  | didChange f e =>
    unfold St.handle
    simp only
    split
    · split
      · rename_i t _
        exact step _ _ (same_set _ f (some (e t)) false) rfl rfl rfl rfl rfl
      · exact step _ _ (Same.refl _) rfl rfl rfl rfl rfl
    · exact step _ _ (Same.refl _) rfl rfl rfl rfl rfl
  | didClose f => exact step _ _ (same_update _) rfl rfl rfl rfl rfl
  | request id =>
    refine works_of h (List.prefix_append ..) ?_ (fun _ ht => ht) (fun _ ht => ht) (fun _ ht => ht)
    intro id' seen hm
    simp only [St.handle, List.mem_append, List.mem_singleton] at hm
    rcases hm with hm | hm
    · exact Or.inl hm
    · right
      injection hm with h1 h2
      injection h1 with h1
      subst h1; subst h2
      refine ⟨s.handled ++ [.request id'], List.prefix_rfl, by simp, ?_, fun _ => ⟨_, rfl⟩⟩
      intro g x hx
      rw [clientDoc_snoc] at hx
      rw [hc.db hi]
      exact hc.vfs g x hx

theorem mem_eraseIdx {α : Type} {l : List α} {i : Nat} {x : α} (h : x ∈ l.eraseIdx i) : x ∈ l := (List.eraseIdx_sublist ..).subset h

/-- Inversion of the task a job leads to. -/
theorem task_response {j : Job F T} {o : Outcome F} {id : Nat} {seen : F → Option T} (h : Verif.Lsp.Snapshot.task j o = .response id (some seen)) :
    j = ⟨.request id, seen⟩ := by
  obtain ⟨w, sn⟩ := j
  cases w <;> cases o <;> simp [Verif.Lsp.Snapshot.task] at h
  obtain ⟨rfl, rfl⟩ := h; rfl

theorem task_retry {j : Job F T} {o : Outcome F} {id : Nat} (h : Verif.Lsp.Snapshot.task j o = .retry id) :
    (∃ seen, j = ⟨.request id, seen⟩) ∧ o.isCancelled = true := by
  obtain ⟨w, sn⟩ := j
  cases w <;> cases o <;> simp [Verif.Lsp.Snapshot.task] at h
  subst h; exact ⟨⟨sn, rfl⟩, rfl⟩

theorem good_request {c : Bool} {h : List (Msg F T)} {id : Nat} {seen : F → Option T} (hg : Good c h id seen) : Msg.request id ∈ h := by
  obtain ⟨pre, h1, h2, _, _⟩ := hg
  exact h1.subset h2

theorem cancelled_snoc (as : List (Act F T)) (a : Act F T) : cancelled (as ++ [a]) = (cancelled as || cancelled [a]) := by
  induction as with
  | nil => cases a <;> simp [cancelled]
  | cons b as ih => cases b <;> simp [cancelled, ih, Bool.or_assoc]

theorem step_inv {as : List (Act F T)} {s s' : St F T} (hc : Core s) (hw : Works (cancelled as) s) (a : Act F T) (hs : s.step a = some s') :
    Core s' ∧ Works (cancelled (as ++ [a])) s' := by
  have weaken : Works (cancelled (as ++ [a])) s := by
    have hle : cancelled (as ++ [a]) = false → cancelled as = false := by
      rw [cancelled_snoc, Bool.or_eq_false_iff]; exact fun h => h.1
    have hle' : cancelled as = true → cancelled (as ++ [a]) = true := by
      rw [cancelled_snoc, Bool.or_eq_true]; exact fun h => Or.inl h
    exact ⟨fun i x h => good_mono (hw.jobs i x h) List.prefix_rfl hle, fun i x h => good_mono (hw.ended i x h) List.prefix_rfl hle,
      fun i x h => good_mono (hw.tasks i x h) List.prefix_rfl hle, fun i x h => good_mono (hw.answers i x h) List.prefix_rfl hle,
      fun i h => ⟨hle' (hw.retryE i h).1, (hw.retryE i h).2⟩, fun i h => ⟨hle' (hw.retryT i h).1, (hw.retryT i h).2⟩⟩
  cases a with
  | client m =>
    simp only [St.step, Option.some.injEq] at hs; subst hs
    exact ⟨⟨hc.mem, hc.vfs, hc.db⟩, works_of weaken List.prefix_rfl (fun _ _ h => Or.inl h) (fun _ h => h) (fun _ h => h) (fun _ h => h)⟩
  | loader f t =>
    simp only [St.step] at hs
    split at hs
    · cases hs
    · split at hs
      · injection hs with hs; subst hs; exact ⟨hc, weaken⟩
      · rename_i hf
        injection hs with hs; subst hs
        have hsm := same_set s f t false
        refine ⟨set_core hc.mem hc.db f t false ?_, ?_⟩
        · intro g x hx
          have hg : g ≠ f := by
            rintro rfl
            exact hf ((hc.mem g).2 (by rw [hx]; rfl))
          simp only [put, if_neg hg]
          exact hc.vfs g x hx
        · refine works_of weaken (by rw [hsm.handled]; exact List.prefix_rfl) (fun id seen h => Or.inl (hsm.jobs id seen h)) ?_ ?_ ?_
          · intro t ht; rw [hsm.ended] at ht; exact ht
          · intro t ht; rw [hsm.tasks] at ht; exact ht
          · intro t ht; rw [hsm.answers] at ht; exact ht
  | recv =>
    simp only [St.step] at hs
    split at hs
    · cases hs
    · rename_i hph
      have hi : s.phase = .idle := by cases h : s.phase <;> simp_all
      split at hs
      · cases hs
      · rename_i m ms hib
        injection hs with hs; subst hs
        have hc' : Core { s with inbox := ms } := ⟨hc.mem, hc.vfs, hc.db⟩
        have hw' : Works (cancelled (as ++ [.recv])) { s with inbox := ms } :=
          works_of weaken List.prefix_rfl (fun _ _ h => Or.inl h) (fun _ h => h) (fun _ h => h) (fun _ h => h)
        exact ⟨handle_core hc' hi m, handle_works hc' hw' hi m⟩
  | apply =>
    simp only [St.step] at hs
    split at hs
    · injection hs with hs; subst hs
      have hsm := same_update { s with db := s.vfs, phase := .idle }
      refine ⟨⟨hc.mem, hc.vfs, fun _ => rfl⟩, works_of weaken List.prefix_rfl (fun id seen h => Or.inl (hsm.jobs id seen h)) (fun _ h => h)
        (fun _ h => h) (fun _ h => h)⟩
    · cases hs
  | finish i o =>
    simp only [St.step] at hs
    split at hs
    · cases hs
    · rename_i j hj
      have hjm := List.mem_of_getElem? hj
      split at hs
      · cases hs
      · injection hs with hs; subst hs
        refine ⟨⟨hc.mem, hc.vfs, hc.db⟩, ?_⟩
        refine ⟨fun id seen h => weaken.jobs id seen (mem_eraseIdx h), ?_, weaken.tasks, weaken.answers, ?_, weaken.retryT⟩
        · intro id seen hm
          simp only [List.mem_append, List.mem_singleton] at hm
          rcases hm with hm | hm
          · exact weaken.ended id seen hm
          · have := task_response hm.symm
            subst this
            exact weaken.jobs id seen hjm
        · intro id hm
          simp only [List.mem_append, List.mem_singleton] at hm
          rcases hm with hm | hm
          · exact weaken.retryE id hm
          · obtain ⟨⟨seen, hj'⟩, ho⟩ := task_retry hm.symm
            subst hj'
            refine ⟨?_, good_request (weaken.jobs id seen hjm)⟩
            rw [cancelled_snoc]; simp [cancelled, ho]
  | send i =>
    simp only [St.step] at hs
    split at hs
    · cases hs
    · rename_i t ht
      have htm := List.mem_of_getElem? ht
      injection hs with hs; subst hs
      refine ⟨⟨hc.mem, hc.vfs, hc.db⟩, ?_⟩
      refine ⟨weaken.jobs, fun id seen h => weaken.ended id seen (mem_eraseIdx h), ?_, weaken.answers,
        fun id h => weaken.retryE id (mem_eraseIdx h), ?_⟩
      · intro id seen hm
        simp only [List.mem_append, List.mem_singleton] at hm
        rcases hm with hm | hm
        · exact weaken.tasks id seen hm
        · subst hm; exact weaken.ended id seen htm
      · intro id hm
        simp only [List.mem_append, List.mem_singleton] at hm
        rcases hm with hm | hm
        · exact weaken.retryT id hm
        · subst hm; exact weaken.retryE id htm
  | task =>
    simp only [St.step] at hs
    split at hs
    · cases hs
    · rename_i hph
      have hi : s.phase = .idle := by cases h : s.phase <;> simp_all
      split at hs
      · cases hs
      · rename_i t ts hts
        injection hs with hs; subst hs
        have hsub : ∀ x ∈ ts, x ∈ s.tasks := fun x hx => by rw [hts]; exact List.mem_cons_of_mem _ hx
        have hin : t ∈ s.tasks := by rw [hts]; exact List.mem_cons_self ..
        cases t with
        | response id seen =>
          simp only [St.handleTask, St.respond]
          split
          · refine ⟨⟨hc.mem, hc.vfs, hc.db⟩, ⟨weaken.jobs, weaken.ended, fun id seen h => weaken.tasks id seen (hsub _ h), ?_, weaken.retryE,
              fun id h => weaken.retryT id (hsub _ h)⟩⟩
            intro id' seen' hm
            simp only [List.mem_append, List.mem_singleton] at hm
            rcases hm with hm | hm
            · exact weaken.answers id' seen' hm
            · injection hm with h1 h2
              subst h1; subst h2
              exact weaken.tasks id' seen' hin
          · exact ⟨⟨hc.mem, hc.vfs, hc.db⟩, works_of weaken List.prefix_rfl (fun _ _ h => Or.inl h) (fun _ h => h) hsub (fun _ h => h)⟩
        | retry id =>
          simp only [St.handleTask]
          split
          · refine ⟨⟨hc.mem, hc.vfs, hc.db⟩, works_of weaken List.prefix_rfl ?_ (fun _ h => h) hsub (fun _ h => h)⟩
            intro id' seen hm
            simp only [List.mem_append, List.mem_singleton] at hm
            rcases hm with hm | hm
            · exact Or.inl hm
            · right
              injection hm with h1 h2
              injection h1 with h1
              subst h1; subst h2
              have := weaken.retryT id' hin
              refine ⟨s.handled, List.prefix_rfl, this.2, ?_, fun hf => by rw [this.1] at hf; cases hf⟩
              rw [hc.db hi]; exact hc.vfs
          · exact ⟨⟨hc.mem, hc.vfs, hc.db⟩, works_of weaken List.prefix_rfl (fun _ _ h => Or.inl h) (fun _ h => h) hsub (fun _ h => h)⟩
        | diags files seen =>
          exact ⟨⟨hc.mem, hc.vfs, hc.db⟩, works_of weaken List.prefix_rfl (fun _ _ h => Or.inl h) (fun _ h => h) hsub (fun _ h => h)⟩

theorem run_inv : ∀ (bs as : List (Act F T)) (s s' : St F T), Core s → Works (cancelled as) s → s.run bs = some s' →
    Core s' ∧ Works (cancelled (as ++ bs)) s' := by
  intro bs
  induction bs with
  | nil => intro as s s' hc hw hs; simp only [St.run, Option.some.injEq] at hs; subst hs; simpa using ⟨hc, hw⟩
  | cons b bs ih =>
    intro as s s' hc hw hs
    simp only [St.run, Option.bind_eq_some_iff] at hs
    obtain ⟨s1, h1, h2⟩ := hs
    obtain ⟨hc1, hw1⟩ := step_inv hc hw b h1
    have := ih (as ++ [b]) s1 s' hc1 hw1 h2
    simpa using this

theorem init_core : Core ({} : St F T) where
  mem f := by simp [clientDoc]
  vfs f t h := by simp [clientDoc] at h
  db _ := rfl

theorem init_works (c : Bool) : Works c ({} : St F T) :=
  ⟨fun _ _ h => (by cases h), fun _ _ h => (by cases h), fun _ _ h => (by cases h), fun _ _ h => (by cases h), fun _ h => (by cases h),
   fun _ h => (by cases h)⟩

theorem inv (as : List (Act F T)) (s : St F T) (h : St.run {} as = some s) : Core s ∧ Works (cancelled as) s := by
  simpa using run_inv as [] _ _ init_core (init_works _) h

/-- The files whose diagnostics are computed after a change are the documents open in the client, and all of them are in the virtual file system, with the
client's text: the `unwrap` of `update_diagnostics` (main_loop.rs:425-428) cannot fail, whatever the client and the loader do. -/
theorem subscriptions_found (as : List (Act F T)) (s : St F T) (h : St.run {} as = some s) (f : F) :
    f ∈ s.mem ↔ ∃ t, clientDoc s.handled f = some t ∧ s.vfs f = some t := by
  have hc := (inv as s h).1
  rw [hc.mem, Option.isSome_iff_exists]
  exact ⟨fun ⟨t, ht⟩ => ⟨t, ht, hc.vfs f t ht⟩, fun ⟨t, ht, _⟩ => ⟨t, ht⟩⟩

/-- **C83.** Every answer was computed from the texts that all open documents of the client had together at one moment after the client sent
the request (and before the answer was sent: `s` may be the state just after that). -/
theorem one_moment (as : List (Act F T)) (s : St F T) (h : St.run {} as = some s) (id : Nat) (seen : F → Option T)
    (ha : (id, some seen) ∈ s.answers) :
    ∃ sent : List (Msg F T), sent <+: s.handled ∧ Msg.request id ∈ sent ∧ Matches sent seen := by
  obtain ⟨pre, h1, h2, h3, _⟩ := (inv as s h).2.answers id seen ha
  exact ⟨pre, h1, h2, h3⟩

/-- If no computation was cancelled, the moment is that of the request itself. -/
theorem moment_of_request (as : List (Act F T)) (s : St F T) (h : St.run {} as = some s) (hc : cancelled as = false) (id : Nat)
    (seen : F → Option T) (ha : (id, some seen) ∈ s.answers) :
    ∃ sent : List (Msg F T), sent ++ [Msg.request id] <+: s.handled ∧ Matches (sent ++ [Msg.request id]) seen := by
  obtain ⟨pre, h1, _, h3, h4⟩ := (inv as s h).2.answers id seen ha
  obtain ⟨p, rfl⟩ := h4 hc
  exact ⟨p, h1, h3⟩

/-! ### Every request is answered once the client pauses -/

/-- Does the task concern the request? -/
def About (id : Nat) : Task F T → Prop
  | .response i _ => i = id
  | .retry i => i = id
  | .diags _ _ => False

/-- Someone is working on the request. -/
def Outstanding (s : St F T) (id : Nat) : Prop :=
  (∃ seen, ⟨.request id, seen⟩ ∈ s.jobs) ∨ (∃ t ∈ s.ended, About id t) ∨ (∃ t ∈ s.tasks, About id t)

structure Live (s : St F T) : Prop where
  work : ∀ id ∈ s.pending, Outstanding s id
  known : ∀ id, Msg.request id ∈ s.handled → id ∈ s.pending ∨ ∃ r ∈ s.answers, r.1 = id

theorem live_of {s s' : St F T} (h : Live s) (hp : s'.pending = s.pending) (hj : ∀ j ∈ s.jobs, j ∈ s'.jobs) (he : s'.ended = s.ended)
    (ht : s'.tasks = s.tasks) (ha : s'.answers = s.answers) (hh : ∀ id, Msg.request id ∈ s'.handled → Msg.request id ∈ s.handled) : Live s' where
  work id hid := by
    rw [hp] at hid
    rcases h.work id hid with ⟨seen, h1⟩ | ⟨t, h1, h2⟩ | ⟨t, h1, h2⟩
    · exact Or.inl ⟨seen, hj _ h1⟩
    · exact Or.inr (Or.inl ⟨t, by rw [he]; exact h1, h2⟩)
    · exact Or.inr (Or.inr ⟨t, by rw [ht]; exact h1, h2⟩)
  known id hid := by
    rw [hp, ha]; exact h.known id (hh id hid)

theorem set_jobs (s : St F T) (f : F) (t : Option T) (docs : Bool) : (∀ j ∈ s.jobs, j ∈ (s.setContents f t docs).jobs) ∧
    (s.setContents f t docs).pending = s.pending := by
  unfold St.setContents
  split
  · split
    · exact ⟨fun j hj => List.mem_append_left _ hj, rfl⟩
    · exact ⟨fun j hj => hj, rfl⟩
  · exact ⟨fun j hj => hj, rfl⟩

theorem live_set {s : St F T} (h : Live s) (f : F) (t : Option T) (docs : Bool) : Live (s.setContents f t docs) :=
  let hs := same_set s f t docs
  live_of h (set_jobs s f t docs).2 (set_jobs s f t docs).1 hs.ended hs.tasks hs.answers (fun id hid => by rw [hs.handled] at hid; exact hid)

theorem mem_eraseIdx_or {α : Type} (l : List α) : ∀ (i : Nat) (x : α), x ∈ l → x ∈ l.eraseIdx i ∨ l[i]? = some x := by
  induction l with
  | nil => intro i x h; cases h
  | cons a l ih =>
    intro i x h
    cases i with
    | zero =>
      rcases List.mem_cons.1 h with rfl | h
      · exact Or.inr rfl
      · exact Or.inl h
    | succ i =>
      rcases List.mem_cons.1 h with rfl | h
      · exact Or.inl (List.mem_cons_self ..)
      · rcases ih i x h with h | h
        · exact Or.inl (List.mem_cons_of_mem _ h)
        · exact Or.inr h

theorem about_task (id : Nat) (seen : F → Option T) (o : Outcome F) : About id (Verif.Lsp.Snapshot.task (⟨.request id, seen⟩ : Job F T) o) := by
  cases o <;> rfl

theorem step_live {s s' : St F T} (h : Live s) (a : Act F T) (hs : s.step a = some s') : Live s' := by
  cases a with
  | client m =>
    simp only [St.step, Option.some.injEq] at hs; subst hs
    exact live_of h rfl (fun _ h => h) rfl rfl rfl (fun _ h => h)
  | loader f t =>
    simp only [St.step] at hs
    split at hs
    · cases hs
    · split at hs
      · injection hs with hs; subst hs; exact h
      · injection hs with hs; subst hs; exact live_set h f t false
  | recv =>
    simp only [St.step] at hs
    split at hs
    · cases hs
    · split at hs
      · cases hs
      · rename_i m ms hib
        injection hs with hs; subst hs
        have base : (∀ id, m ≠ .request id) → ∀ (mem : List F) (shown : F → Option (F → Option T)),
            Live { s with inbox := ms, handled := s.handled ++ [m], mem := mem, shown := shown } := by
          intro hm mem shown
          refine live_of h rfl (fun _ h => h) rfl rfl rfl ?_
          intro id hid
          simp only [List.mem_append, List.mem_singleton] at hid
          rcases hid with hid | hid
          · exact hid
          · exact absurd hid.symm (hm id)
        cases m with
        | didOpen f t => exact live_set (base (by intro id; simp) _ s.shown) f (some t) true
        | didChange f e =>
          have hb := base (by intro id; simp) s.mem s.shown
          unfold St.handle
          simp only
          split
          · split
            · rename_i t _; exact live_set hb f (some (e t)) false
            · exact hb
          · exact hb
        | didClose f =>
          have hb := base (by intro id; simp) (s.mem.filter (· ≠ f)) (put s.shown f none)
          exact live_of hb rfl (fun j hj => List.mem_append_left _ hj) rfl rfl rfl (fun _ h => h)
        | request id =>
          refine ⟨?_, ?_⟩
          · intro id' hid
            simp only [St.handle, List.mem_cons, List.mem_filter] at hid
            rcases hid with rfl | ⟨hid, _⟩
            · exact Or.inl ⟨s.db, by simp [St.handle]⟩
            · rcases h.work id' hid with ⟨seen, h1⟩ | h1 | h1
              · exact Or.inl ⟨seen, List.mem_append_left _ h1⟩
              · exact Or.inr (Or.inl h1)
              · exact Or.inr (Or.inr h1)
          · intro id' hid
            simp only [St.handle, List.mem_append, List.mem_singleton] at hid
            by_cases he : id' = id
            · left; simp [St.handle, he]
            · rcases hid with hid | hid
              · rcases h.known id' hid with h1 | h1
                · left; simp [St.handle, he, h1]
                · exact Or.inr h1
              · injection hid with hid; exact absurd hid he
  | apply =>
    simp only [St.step] at hs
    split at hs
    · injection hs with hs; subst hs
      exact live_of h rfl (fun j hj => List.mem_append_left _ hj) rfl rfl rfl (fun _ h => h)
    · cases hs
  | finish i o =>
    simp only [St.step] at hs
    split at hs
    · cases hs
    · rename_i j hj
      split at hs
      · cases hs
      · injection hs with hs; subst hs
        refine ⟨?_, h.known⟩
        intro id hid
        rcases h.work id hid with ⟨seen, h1⟩ | ⟨t, h1, h2⟩ | h1
        · rcases mem_eraseIdx_or _ i _ h1 with h1 | h1
          · exact Or.inl ⟨seen, h1⟩
          · rw [hj] at h1; injection h1 with h1; subst h1
            exact Or.inr (Or.inl ⟨_, List.mem_append_right _ (List.mem_singleton.2 rfl), about_task id seen o⟩)
        · exact Or.inr (Or.inl ⟨t, List.mem_append_left _ h1, h2⟩)
        · exact Or.inr (Or.inr h1)
  | send i =>
    simp only [St.step] at hs
    split at hs
    · cases hs
    · rename_i t ht
      injection hs with hs; subst hs
      refine ⟨?_, h.known⟩
      intro id hid
      rcases h.work id hid with h1 | ⟨t', h1, h2⟩ | ⟨t', h1, h2⟩
      · exact Or.inl h1
      · rcases mem_eraseIdx_or _ i _ h1 with h1 | h1
        · exact Or.inr (Or.inl ⟨t', h1, h2⟩)
        · rw [ht] at h1; injection h1 with h1; subst h1
          exact Or.inr (Or.inr ⟨_, List.mem_append_right _ (List.mem_singleton.2 rfl), h2⟩)
      · exact Or.inr (Or.inr ⟨t', List.mem_append_left _ h1, h2⟩)
  | task =>
    simp only [St.step] at hs
    split at hs
    · cases hs
    · split at hs
      · cases hs
      · rename_i t ts hts
        injection hs with hs; subst hs
        have other : ∀ id, ¬ About id t → Outstanding s id → Outstanding { s with tasks := ts } id := by
          intro id hn ho
          rcases ho with h1 | h1 | ⟨t', h1, h2⟩
          · exact Or.inl h1
          · exact Or.inr (Or.inl h1)
          · rw [hts] at h1
            rcases List.mem_cons.1 h1 with rfl | h1
            · exact absurd h2 hn
            · exact Or.inr (Or.inr ⟨t', h1, h2⟩)
        cases t with
        | response i seen =>
          simp only [St.handleTask, St.respond]
          split
          · refine ⟨?_, ?_⟩
            · intro id hid
              simp only [List.mem_filter, ne_eq, decide_not, Bool.not_eq_true', decide_eq_false_iff_not] at hid
              exact other id (fun e => hid.2 e.symm) (h.work id hid.1)
            · intro id hid
              rcases h.known id hid with h1 | ⟨r, h1, h2⟩
              · by_cases he : id = i
                · exact Or.inr ⟨(i, seen), List.mem_append_right _ (List.mem_singleton.2 rfl), he.symm⟩
                · left; simp [h1, he]
              · exact Or.inr ⟨r, List.mem_append_left _ h1, h2⟩
          · rename_i hni
            exact ⟨fun id hid => other id (fun e => hni (by rw [show i = id from e]; exact hid)) (h.work id hid), h.known⟩
        | retry i =>
          simp only [St.handleTask]
          split
          · refine ⟨?_, h.known⟩
            intro id hid
            by_cases he : i = id
            · subst he; exact Or.inl ⟨s.db, List.mem_append_right _ (List.mem_singleton.2 rfl)⟩
            · rcases other id he (h.work id hid) with ⟨seen, h1⟩ | h1 | h1
              · exact Or.inl ⟨seen, List.mem_append_left _ h1⟩
              · exact Or.inr (Or.inl h1)
              · exact Or.inr (Or.inr h1)
          · rename_i hni
            exact ⟨fun id hid => other id (fun e => hni (by rw [show i = id from e]; exact hid)) (h.work id hid), h.known⟩
        | diags fs seen => exact ⟨fun id hid => other id (fun e => e) (h.work id hid), h.known⟩

theorem run_live : ∀ (as : List (Act F T)) (s s' : St F T), Live s → s.run as = some s' → Live s' := by
  intro as
  induction as with
  | nil => intro s s' h hs; simp only [St.run, Option.some.injEq] at hs; subst hs; exact h
  | cons a as ih =>
    intro s s' h hs
    simp only [St.run, Option.bind_eq_some_iff] at hs
    obtain ⟨s1, h1, h2⟩ := hs
    exact ih s1 s' (step_live h a h1) h2

theorem init_live : Live ({} : St F T) := ⟨fun _ h => (by cases h), fun _ h => (by cases h)⟩

/-- The server can do nothing more by itself. -/
def Rest (s : St F T) : Prop := ∀ a, Own a → s.step a = none

theorem rest_empty {s : St F T} (h : Rest s) : s.phase = .idle ∧ s.inbox = [] ∧ s.jobs = [] ∧ s.ended = [] ∧ s.tasks = [] := by
  have hj : s.jobs = [] := by
    cases hj : s.jobs with
    | nil => rfl
    | cons j js =>
      have := h (.finish 0 .ok) trivial
      simp [St.step, hj, Outcome.isCancelled] at this
  have hp : s.phase = .idle := by
    cases hp : s.phase with
    | idle => rfl
    | applying =>
      have := h .apply trivial
      simp [St.step, hj, hp] at this
  have he : s.ended = [] := by
    cases he : s.ended with
    | nil => rfl
    | cons j js =>
      have := h (.send 0) trivial
      simp [St.step, he] at this
  have hi : s.inbox = [] := by
    cases hi : s.inbox with
    | nil => rfl
    | cons j js =>
      have := h .recv trivial
      simp [St.step, hi, hp] at this
  have ht : s.tasks = [] := by
    cases ht : s.tasks with
    | nil => rfl
    | cons j js =>
      have := h .task trivial
      simp [St.step, ht, hp] at this
  exact ⟨hp, hi, hj, he, ht⟩

/-- **C83.** When the server is at rest it has received everything the client sent and every request has an answer. -/
theorem answered_at_rest (as : List (Act F T)) (s : St F T) (h : St.run {} as = some s) (hr : Rest s) (id : Nat)
    (hid : Msg.request id ∈ s.handled ++ s.inbox) : ∃ r ∈ s.answers, r.1 = id := by
  obtain ⟨_, hi, hj, he, ht⟩ := rest_empty hr
  have hl := run_live as _ _ init_live h
  rw [hi, List.append_nil] at hid
  rcases hl.known id hid with h1 | h1
  · rcases hl.work id h1 with ⟨x, h2⟩ | ⟨x, h2, _⟩ | ⟨x, h2, _⟩
    · rw [hj] at h2; cases h2
    · rw [he] at h2; cases h2
    · rw [ht] at h2; cases h2
  · exact h1

/-! ### The server comes to rest -/

def weightT : Task F T → Nat
  | .retry _ => 4
  | _ => 1

def jobWeight (s : St F T) : Nat := if s.phase = .applying then 6 else 3

/-- Work in progress. -/
def inWork (s : St F T) : Nat :=
  jobWeight s * s.jobs.length + (s.ended.map (fun t => weightT t + 1)).sum + (s.tasks.map weightT).sum

/-- Turns that may change files. -/
def turns (s : St F T) : Nat := 2 * s.inbox.length + (if s.phase = .applying then 1 else 0)

def size (s : St F T) : Nat := s.jobs.length + s.ended.length + s.tasks.length + turns s

def todo (s : St F T) : Nat := turns s * (6 * size s + 1) + inWork s

theorem weightT_le (t : Task F T) : weightT t ≤ 4 := by cases t <;> simp [weightT]

theorem sum_le {α : Type} (l : List α) (g : α → Nat) (b : Nat) (h : ∀ x, g x ≤ b) : (l.map g).sum ≤ b * l.length := by
  induction l with
  | nil => simp
  | cons x l ih => simp only [List.map_cons, List.sum_cons, List.length_cons]; have := h x; rw [Nat.mul_add]; omega

theorem inWork_le (s : St F T) : inWork s ≤ 6 * size s := by
  unfold inWork size
  have h1 : jobWeight s ≤ 6 := by unfold jobWeight; split <;> omega
  have h2 := Nat.mul_le_mul_right s.jobs.length h1
  have h3 := sum_le s.ended (fun t => weightT t + 1) 5 (fun t => by have := weightT_le t; omega)
  have h4 := sum_le s.tasks weightT 4 weightT_le
  omega

theorem todo_turn {s s' : St F T} (h1 : turns s' < turns s) (h2 : size s' ≤ size s) : todo s' < todo s := by
  unfold todo
  have h3 := inWork_le s'
  have h4 : turns s' * (6 * size s' + 1) + (6 * size s' + 1) ≤ turns s * (6 * size s + 1) := by
    have : (turns s' + 1) * (6 * size s' + 1) ≤ turns s * (6 * size s + 1) := Nat.mul_le_mul h1 (by omega)
    rw [Nat.add_mul, Nat.one_mul] at this
    exact this
  omega

theorem todo_work {s s' : St F T} (h1 : turns s' = turns s) (h2 : size s' ≤ size s) (h3 : inWork s' < inWork s) : todo s' < todo s := by
  unfold todo
  rw [h1]
  have : turns s * (6 * size s' + 1) ≤ turns s * (6 * size s + 1) := Nat.mul_le_mul_left _ (by omega)
  omega

theorem sum_eraseIdx {α : Type} (l : List α) (g : α → Nat) : ∀ (i : Nat) (x : α), l[i]? = some x → ((l.eraseIdx i).map g).sum + g x = (l.map g).sum := by
  induction l with
  | nil => intro i x h; simp at h
  | cons a l ih =>
    intro i x h
    cases i with
    | zero => simp only [List.getElem?_cons_zero, Option.some.injEq] at h; subst h; simp; omega
    | succ i =>
      rw [List.getElem?_cons_succ] at h
      have := ih i x h
      simp only [List.eraseIdx_cons_succ, List.map_cons, List.sum_cons]; omega

theorem length_eraseIdx {α : Type} (l : List α) (i : Nat) (x : α) (h : l[i]? = some x) : (l.eraseIdx i).length + 1 = l.length := by
  obtain ⟨hi, _⟩ := List.getElem?_eq_some_iff.1 h
  rw [List.length_eraseIdx_of_lt hi]; omega

/-- The lists that count for `size`, after contents were set. -/
theorem set_size (s : St F T) (hi : s.phase = .idle) (f : F) (t : Option T) (docs : Bool) :
    turns (s.setContents f t docs) ≤ 2 * s.inbox.length + 1 ∧
      size (s.setContents f t docs) ≤ s.jobs.length + s.ended.length + s.tasks.length + 2 * s.inbox.length + 1 := by
  unfold St.setContents
  split
  · split
    · simp [turns, size, St.updateDiagnostics, hi]; omega
    · simp [turns, size, hi]
  · simp [turns, size]; omega

theorem own_todo {s s' : St F T} {a : Act F T} (ho : Own a) (hs : s.step a = some s') : todo s' < todo s := by
  cases a with
  | client m => exact ho.elim
  | loader f t => exact ho.elim
  | recv =>
    simp only [St.step] at hs
    split at hs
    · cases hs
    · rename_i hph
      have hi : s.phase = .idle := by cases h : s.phase <;> simp_all
      split at hs
      · cases hs
      · rename_i m ms hib
        injection hs with hs; subst hs
        have ht : turns s = 2 * ms.length + 2 := by simp [turns, hib, hi]; omega
        have hsz : size s = s.jobs.length + s.ended.length + s.tasks.length + 2 * ms.length + 2 := by unfold size; rw [ht]; omega
        have fin : ∀ s' : St F T, turns s' ≤ 2 * ms.length + 1 → size s' ≤ s.jobs.length + s.ended.length + s.tasks.length + 2 * ms.length + 1 →
            todo s' < todo s := fun s' h1 h2 => todo_turn (by omega) (by omega)
        have fromSet : ∀ (s1 : St F T), s1.phase = .idle → s1.jobs = s.jobs → s1.ended = s.ended → s1.tasks = s.tasks → s1.inbox = ms →
            ∀ f t docs, todo (s1.setContents f t docs) < todo s := by
          intro s1 h1 h2 h3 h4 h5 f t docs
          have := set_size s1 h1 f t docs
          rw [h2, h3, h4, h5] at this
          exact fin _ this.1 this.2
        cases m with
        | didOpen f t =>
          exact fromSet { s with inbox := ms, handled := s.handled ++ [.didOpen f t], mem := f :: s.mem.filter (· ≠ f) } hi rfl rfl rfl rfl f (some t) true
        | didChange f e =>
          unfold St.handle
          simp only
          split
          · split
            · rename_i t _
              exact fromSet { s with inbox := ms, handled := s.handled ++ [.didChange f e] } hi rfl rfl rfl rfl f (some (e t)) false
            · exact fin _ (by simp [turns, hi]) (by simp [size, turns, hi])
          · exact fin _ (by simp [turns, hi]) (by simp [size, turns, hi])
        | didClose f => exact fin _ (by simp [turns, St.handle, St.updateDiagnostics, hi]) (by simp [size, turns, St.handle, St.updateDiagnostics, hi]; omega)
        | request id => exact fin _ (by simp [turns, St.handle, hi]) (by simp [size, turns, St.handle, hi]; omega)
  | apply =>
    simp only [St.step] at hs
    split at hs
    · rename_i hp
      injection hs with hs; subst hs
      apply todo_turn
      · simp [turns, St.updateDiagnostics, hp.1]
      · simp [size, turns, St.updateDiagnostics, hp.1, hp.2]; omega
    · cases hs
  | finish i o =>
    simp only [St.step] at hs
    split at hs
    · cases hs
    · rename_i j hj
      have hlen := length_eraseIdx _ _ _ hj
      split at hs
      · cases hs
      · rename_i hco
        injection hs with hs; subst hs
        apply todo_work
        · rfl
        · simp only [size, turns, List.length_append, List.length_singleton]; omega
        · have hw : weightT (Verif.Lsp.Snapshot.task j o) + 1 < jobWeight s := by
            unfold jobWeight
            split
            · have := weightT_le (Verif.Lsp.Snapshot.task j o); omega
            · rename_i hp
              have hp : s.phase = .idle := by cases h : s.phase <;> simp_all
              obtain ⟨w, sn⟩ := j
              cases w <;> cases o <;> simp_all [Verif.Lsp.Snapshot.task, weightT, Outcome.isCancelled]
          have h1 : jobWeight s * s.jobs.length = jobWeight s * (s.jobs.eraseIdx i).length + jobWeight s := by
            rw [← hlen, Nat.mul_add, Nat.mul_one]
          simp only [inWork, List.map_append, List.map_cons, List.map_nil, List.sum_append, List.sum_cons, List.sum_nil]
          have h2 : jobWeight { s with jobs := s.jobs.eraseIdx i, ended := s.ended ++ [Verif.Lsp.Snapshot.task j o] } = jobWeight s := rfl
          rw [h2, h1]; omega
  | send i =>
    simp only [St.step] at hs
    split at hs
    · cases hs
    · rename_i t ht
      have hlen := length_eraseIdx _ _ _ ht
      have hsum := sum_eraseIdx _ (fun t => weightT t + 1) _ _ ht
      injection hs with hs; subst hs
      apply todo_work
      · rfl
      · simp only [size, turns, List.length_append, List.length_singleton]; omega
      · simp only [inWork, List.map_append, List.map_cons, List.map_nil, List.sum_append, List.sum_cons, List.sum_nil]
        have h2 : jobWeight { s with ended := s.ended.eraseIdx i, tasks := s.tasks ++ [t] } = jobWeight s := rfl
        rw [h2]; omega
  | task =>
    simp only [St.step] at hs
    split at hs
    · cases hs
    · rename_i hph
      have hi : s.phase = .idle := by cases h : s.phase <;> simp_all
      split at hs
      · cases hs
      · rename_i t ts hts
        injection hs with hs; subst hs
        have drop : ∀ s' : St F T, s'.inbox = s.inbox → s'.phase = s.phase → s'.jobs = s.jobs → s'.ended = s.ended → s'.tasks = ts → todo s' < todo s := by
          intro s' h1 h2 h3 h4 h5
          apply todo_work
          · simp [turns, h1, h2]
          · simp [size, turns, h1, h2, h3, h4, h5, hts]
          · simp only [inWork, jobWeight, h2, h3, h4, h5, hts, List.map_cons, List.sum_cons]
            have : 0 < weightT t := by cases t <;> simp [weightT]
            omega
        cases t with
        | response i seen =>
          simp only [St.handleTask, St.respond]
          split
          · exact drop _ rfl rfl rfl rfl rfl
          · exact drop _ rfl rfl rfl rfl rfl
        | retry i =>
          simp only [St.handleTask]
          split
          · apply todo_work
            · rfl
            · simp [size, turns, hts]; omega
            · simp only [inWork, jobWeight, hi, hts, List.length_append, List.length_singleton, List.map_cons, List.sum_cons, weightT]
              simp; omega
          · exact drop _ rfl rfl rfl rfl rfl
        | diags fs seen => exact drop _ rfl rfl rfl rfl rfl

/-- **C83.** If the client and the loader pause, the server comes to rest: it takes at most `todo s` steps by itself, whatever the schedule,
how often requests are cancelled included. -/
theorem comes_to_rest : ∀ (as : List (Act F T)) (s s' : St F T), (∀ a ∈ as, Own a) → s.run as = some s' → as.length + todo s' ≤ todo s := by
  intro as
  induction as with
  | nil => intro s s' _ h; simp only [St.run, Option.some.injEq] at h; subst h; simp
  | cons a as ih =>
    intro s s' ho h
    simp only [St.run, Option.bind_eq_some_iff] at h
    obtain ⟨s1, h1, h2⟩ := h
    have := ih s1 s' (fun x hx => ho x (List.mem_cons_of_mem _ hx)) h2
    have := own_todo (ho a (List.mem_cons_self ..)) h1
    simp only [List.length_cons]; omega

/-! ### Diagnostics -/

/-- What is shown once the tasks in the channel are handled. -/
def final : List (Task F T) → (F → Option (F → Option T)) → F → Option (F → Option T)
  | [], sh, f => sh f
  | .diags fs seen :: ts, sh, f => final ts (fun g => if g ∈ fs then some seen else sh g) f
  | .response _ _ :: ts, sh, f => final ts sh f
  | .retry _ :: ts, sh, f => final ts sh f

omit [DecidableEq T] in
theorem final_congr (ts : List (Task F T)) : ∀ (sh sh' : F → Option (F → Option T)) (f : F), sh f = sh' f → final ts sh f = final ts sh' f := by
  induction ts with
  | nil => intro sh sh' f h; exact h
  | cons t ts ih =>
    intro sh sh' f h
    cases t with
    | diags fs seen => exact ih _ _ f (by split <;> simp [h])
    | response i x => exact ih sh sh' f h
    | retry i => exact ih sh sh' f h

omit [DecidableEq T] in
theorem final_snoc (ts : List (Task F T)) (t : Task F T) : ∀ (sh : F → Option (F → Option T)) (f : F),
    final (ts ++ [t]) sh f = match t with
      | .diags fs seen => if f ∈ fs then some seen else final ts sh f
      | _ => final ts sh f := by
  induction ts with
  | nil => intro sh f; cases t <;> simp [final]
  | cons u ts ih => intro sh f; cases u <;> simp only [List.cons_append, final, ih]

structure Fresh (s : St F T) : Prop where
  jobs : ∀ subs seen, ⟨.diags subs, seen⟩ ∈ s.jobs → seen = s.db
  ended : ∀ fs seen, .diags fs seen ∈ s.ended → seen = s.db
  due : s.phase = .idle → ∀ f ∈ s.mem, (∃ subs seen, ⟨.diags subs, seen⟩ ∈ s.jobs ∧ f ∈ subs) ∨
    (∃ fs seen, .diags fs seen ∈ s.ended ∧ f ∈ fs) ∨ final s.tasks s.shown f = some s.db

/-- New diagnostics are under way for every open document. -/
theorem fresh_update {s : St F T} (h1 : ∀ subs seen, ⟨.diags subs, seen⟩ ∈ s.jobs → seen = s.db) (h2 : ∀ fs seen, .diags fs seen ∈ s.ended → seen = s.db) :
    Fresh s.updateDiagnostics where
  jobs subs seen hm := by
    simp only [St.updateDiagnostics, List.mem_append, List.mem_singleton] at hm
    rcases hm with hm | hm
    · exact h1 subs seen hm
    · injection hm
  ended fs seen hm := h2 fs seen hm
  due _ f hf := Or.inl ⟨s.mem, s.db, List.mem_append_right _ (List.mem_singleton.2 rfl), hf⟩

theorem fresh_set {s : St F T} (h1 : ∀ subs seen, ⟨.diags subs, seen⟩ ∈ s.jobs → seen = s.db) (h2 : ∀ fs seen, .diags fs seen ∈ s.ended → seen = s.db)
    (f : F) (t : Option T) (docs : Bool) (h3 : docs = false → s.vfs f = t → Fresh s) : Fresh (s.setContents f t docs) := by
  unfold St.setContents
  split
  · rename_i hv
    cases docs with
    | true => exact fresh_update h1 h2
    | false => exact h3 rfl hv
  · exact ⟨h1, h2, fun h => by cases h⟩

theorem fresh_of {s s' : St F T} (h : Fresh s) (hj : ∀ subs seen, ⟨.diags subs, seen⟩ ∈ s'.jobs ↔ ⟨.diags subs, seen⟩ ∈ s.jobs)
    (he : s'.ended = s.ended) (hp : s'.phase = s.phase) (hm : s'.mem = s.mem) (hd : s'.db = s.db)
    (hf : ∀ f, final s'.tasks s'.shown f = final s.tasks s.shown f) : Fresh s' where
  jobs subs seen hx := by rw [hd]; exact h.jobs subs seen ((hj subs seen).1 hx)
  ended fs seen hx := by rw [he] at hx; rw [hd]; exact h.ended fs seen hx
  due hi f hx := by
    rw [hp] at hi; rw [hm] at hx
    rcases h.due hi f hx with ⟨subs, seen, h1, h2⟩ | h1 | h1
    · exact Or.inl ⟨subs, seen, (hj subs seen).2 h1, h2⟩
    · rw [he]; exact Or.inr (Or.inl h1)
    · rw [hf, hd]; exact Or.inr (Or.inr h1)

theorem task_diags {j : Job F T} {o : Outcome F} {fs : List F} {seen : F → Option T} (h : Verif.Lsp.Snapshot.task j o = .diags fs seen) :
    ∃ subs, j = ⟨.diags subs, seen⟩ := by
  obtain ⟨w, sn⟩ := j
  cases w <;> cases o <;> simp [Verif.Lsp.Snapshot.task] at h
  all_goals obtain ⟨_, rfl⟩ := h
  all_goals exact ⟨_, rfl⟩

theorem step_fresh {s s' : St F T} (h : Fresh s) (a : Act F T) (hp : a = .apply → s.ended = []) (hs : s.step a = some s') : Fresh s' := by
  cases a with
  | client m =>
    simp only [St.step, Option.some.injEq] at hs; subst hs
    exact fresh_of h (fun _ _ => Iff.rfl) rfl rfl rfl rfl (fun _ => rfl)
  | loader f t =>
    simp only [St.step] at hs
    split at hs
    · cases hs
    · split at hs
      · injection hs with hs; subst hs; exact h
      · injection hs with hs; subst hs
        exact fresh_set h.jobs h.ended f t false (fun _ _ => h)
  | recv =>
    simp only [St.step] at hs
    split at hs
    · cases hs
    · split at hs
      · cases hs
      · rename_i m ms hib
        injection hs with hs; subst hs
        have hb : Fresh { s with inbox := ms, handled := s.handled ++ [m] } := fresh_of h (fun _ _ => Iff.rfl) rfl rfl rfl rfl (fun _ => rfl)
        cases m with
        | didOpen f t =>
          exact fresh_set (s := { s with inbox := ms, handled := s.handled ++ [.didOpen f t], mem := f :: s.mem.filter (· ≠ f) }) h.jobs h.ended
            f (some t) true (fun h => by cases h)
        | didChange f e =>
          unfold St.handle
          simp only
          split
          · split
            · rename_i t _
              exact fresh_set (s := { s with inbox := ms, handled := s.handled ++ [.didChange f e] }) h.jobs h.ended f (some (e t)) false (fun _ _ => hb)
            · exact hb
          · exact hb
        | didClose f => exact fresh_update h.jobs h.ended
        | request id =>
          refine fresh_of h ?_ rfl rfl rfl rfl (fun _ => rfl)
          intro subs seen
          simp [St.handle]
  | apply =>
    simp only [St.step] at hs
    split at hs
    · rename_i hc
      injection hs with hs; subst hs
      refine fresh_update ?_ ?_
      · intro subs seen hm
        simp only [hc.2] at hm; cases hm
      · intro fs seen hm
        simp only [hp rfl] at hm; cases hm
    · cases hs
  | finish i o =>
    simp only [St.step] at hs
    split at hs
    · cases hs
    · rename_i j hj
      have hjm := List.mem_of_getElem? hj
      split at hs
      · cases hs
      · rename_i hco
        injection hs with hs; subst hs
        refine ⟨fun subs seen hm => h.jobs subs seen (mem_eraseIdx hm), ?_, ?_⟩
        · intro fs seen hm
          simp only [List.mem_append, List.mem_singleton] at hm
          rcases hm with hm | hm
          · exact h.ended fs seen hm
          · obtain ⟨subs, rfl⟩ := task_diags hm.symm
            exact h.jobs subs seen hjm
        · intro hi f hf
          have hno : o.isCancelled = false := by
            cases ho : o.isCancelled with
            | false => rfl
            | true => exact absurd ⟨ho, hi⟩ hco
          rcases h.due hi f hf with ⟨subs, seen, h1, h2⟩ | ⟨fs, seen, h1, h2⟩ | h1
          · rcases mem_eraseIdx_or _ i _ h1 with h1 | h1
            · exact Or.inl ⟨subs, seen, h1, h2⟩
            · rw [hj] at h1; injection h1 with h1; subst h1
              refine Or.inr (Or.inl ⟨subs, seen, List.mem_append_right _ (List.mem_singleton.2 ?_), h2⟩)
              cases o <;> simp_all [Verif.Lsp.Snapshot.task, Outcome.isCancelled]
          · exact Or.inr (Or.inl ⟨fs, seen, List.mem_append_left _ h1, h2⟩)
          · exact Or.inr (Or.inr h1)
  | send i =>
    simp only [St.step] at hs
    split at hs
    · cases hs
    · rename_i t ht
      have htm := List.mem_of_getElem? ht
      injection hs with hs; subst hs
      refine ⟨h.jobs, fun fs seen hm => h.ended fs seen (mem_eraseIdx hm), ?_⟩
      intro hi f hf
      have hfin : final s.tasks s.shown f = some s.db → final (s.tasks ++ [t]) s.shown f = some s.db := by
        intro h1
        rw [final_snoc]
        cases t with
        | diags fs seen =>
          simp only
          split
          · rw [h.ended fs seen htm]
          · exact h1
        | response _ _ => exact h1
        | retry _ => exact h1
      rcases h.due hi f hf with h1 | ⟨fs, seen, h1, h2⟩ | h1
      · exact Or.inl h1
      · rcases mem_eraseIdx_or _ i _ h1 with h1 | h1
        · exact Or.inr (Or.inl ⟨fs, seen, h1, h2⟩)
        · rw [ht] at h1; injection h1 with h1; subst h1
          refine Or.inr (Or.inr ?_)
          show final (s.tasks ++ [_]) s.shown f = some s.db
          rw [final_snoc]
          simp only [if_pos h2]
          rw [h.ended fs seen htm]
      · exact Or.inr (Or.inr (hfin h1))
  | task =>
    simp only [St.step] at hs
    split at hs
    · cases hs
    · split at hs
      · cases hs
      · rename_i t ts hts
        injection hs with hs; subst hs
        cases t with
        | response i seen =>
          have hf : ∀ f, final ts s.shown f = final s.tasks s.shown f := fun f => by rw [hts]; rfl
          simp only [St.handleTask, St.respond]
          split
          · exact fresh_of h (fun _ _ => Iff.rfl) rfl rfl rfl rfl hf
          · exact fresh_of h (fun _ _ => Iff.rfl) rfl rfl rfl rfl hf
        | retry i =>
          have hf : ∀ f, final ts s.shown f = final s.tasks s.shown f := fun f => by rw [hts]; rfl
          simp only [St.handleTask]
          split
          · refine fresh_of h ?_ rfl rfl rfl rfl hf
            intro subs seen; simp
          · exact fresh_of h (fun _ _ => Iff.rfl) rfl rfl rfl rfl hf
        | diags fs seen => exact fresh_of h (fun _ _ => Iff.rfl) rfl rfl rfl rfl (fun f => by rw [hts]; rfl)

theorem run_snoc : ∀ (as : List (Act F T)) (a : Act F T) (s s' : St F T), s.run (as ++ [a]) = some s' → ∃ s1, s.run as = some s1 ∧ s1.step a = some s' := by
  intro as
  induction as with
  | nil =>
    intro a s s' h
    simp only [List.nil_append, St.run, Option.bind_eq_some_iff, Option.some.injEq] at h
    obtain ⟨s1, h1, rfl⟩ := h
    exact ⟨s, rfl, h1⟩
  | cons b as ih =>
    intro a s s' h
    simp only [List.cons_append, St.run, Option.bind_eq_some_iff] at h
    obtain ⟨s1, h1, h2⟩ := h
    obtain ⟨s2, h3, h4⟩ := ih a s1 s' h2
    exact ⟨s2, by simp only [St.run, h1, Option.bind_some, h3], h4⟩

theorem run_fresh (as : List (Act F T)) : ∀ (s : St F T), Prompt as → St.run {} as = some s → Fresh s := by
  induction as using List.reverseRecOn with
  | nil =>
    intro s _ h
    simp only [St.run, Option.some.injEq] at h; subst h
    exact ⟨fun _ _ h => (by cases h), fun _ _ h => (by cases h), fun _ f h => (by cases h)⟩
  | append_singleton as a ih =>
    intro s hp h
    obtain ⟨s1, h1, h2⟩ := run_snoc as a _ s h
    refine step_fresh (ih s1 ?_ h1) a ?_ h2
    · intro pre post s' he hr
      exact hp pre (post ++ [a]) s' (by rw [he]; simp) hr
    · intro ha; subst ha
      exact hp as [] s1 (by simp) h1

/-- **C84.** When the server is at rest, the diagnostics shown for an open document were computed from the texts all open documents of the
client have now (and from the files the server has now) — if the results of computations are put into the channel before the next change is
written to the database.
Missing: histories in which a thread is suspended between the end of its computation and handing over the result (`stale_refuted`). -/
theorem current_at_rest_partial (as : List (Act F T)) (s : St F T) (h : St.run {} as = some s) (hp : Prompt as) (hr : Rest s) (f : F)
    (hf : (clientDoc (s.handled ++ s.inbox) f).isSome) :
    ∃ seen, s.shown f = some seen ∧ seen = s.vfs ∧ Matches (s.handled ++ s.inbox) seen := by
  obtain ⟨hi, hib, hj, he, ht⟩ := rest_empty hr
  have hc := (inv as s h).1
  rw [hib, List.append_nil] at hf ⊢
  rcases (run_fresh as s hp h).due hi f ((hc.mem f).2 hf) with ⟨_, _, h1, _⟩ | ⟨_, _, h1, _⟩ | h1
  · rw [hj] at h1; cases h1
  · rw [he] at h1; cases h1
  · rw [ht] at h1
    exact ⟨s.db, h1, hc.db hi, by rw [hc.db hi]; exact hc.vfs⟩

/-! ### Histories -/

/-- A document is opened, a request is sent, the document is edited; the request is cancelled by the edit and tried again. -/
def retried : List (Act Unit Nat) :=
  [.client (.didOpen () 1), .recv, .apply, .client (.request 0), .recv, .client (.didChange () (· + 1)), .recv,
   .finish 1 (.cancelled []), .finish 0 (.cancelled []), .send 0, .send 0, .apply, .task, .task, .finish 1 .ok, .send 0, .task,
   .finish 0 .ok, .send 0, .task]

/-- The request of `retried` is answered for the text after the edit, which the client did not have when it asked. -/
theorem moment_of_request_refuted : ∃ (as : List (Act Unit Nat)) (s : St Unit Nat) (seen : Unit → Option Nat),
    St.run {} as = some s ∧ (0, some seen) ∈ s.answers ∧
      ∀ sent, sent ++ [Msg.request 0] <+: s.handled → ¬ Matches (sent ++ [Msg.request 0]) seen := by
  have hrun : ∃ (s : St Unit Nat) (seen : Unit → Option Nat), St.run {} retried = some s ∧
      s.handled = [.didOpen () 1, .request 0, .didChange () (· + 1)] ∧ (0, some seen) ∈ s.answers ∧ seen () = some 2 :=
    ⟨_, _, rfl, rfl, List.mem_cons_self .., rfl⟩
  obtain ⟨s, seen, h1, h2, h3, h4⟩ := hrun
  refine ⟨retried, s, seen, h1, h3, ?_⟩
  rintro sent ⟨post, hs⟩ hm
  rw [h2] at hs
  have hd : sent = [.didOpen () 1] := by
    rcases sent with _ | ⟨a, _ | ⟨b, _ | ⟨c, sent⟩⟩⟩
    · injection hs with h1 _; cases h1
    · injection hs with h1 _; rw [h1]
    · injection hs with _ h2; injection h2 with _ h2; injection h2 with h2 _; cases h2
    · have := congrArg List.length hs
      simp at this
  subst hd
  have := hm () 1 rfl
  rw [h4] at this
  simp at this

/-- A document is opened and a request is answered. -/
def calm : List (Act Unit Nat) :=
  [.client (.didOpen () 1), .client (.request 7), .recv, .apply, .recv, .finish 0 .ok, .send 0, .task, .finish 0 .ok, .send 0, .task]

example : Prompt calm ∧ ∃ s, St.run {} calm = some s ∧ Rest s ∧ (clientDoc (s.handled ++ s.inbox) ()).isSome ∧ cancelled calm = false ∧
    ∃ seen, (7, some seen) ∈ s.answers := by
  refine ⟨?_, ?_⟩
  · intro pre post s hs hr
    have : pre = [.client (.didOpen () 1), .client (.request 7), .recv] := by
      rcases pre with _ | ⟨a, _ | ⟨b, _ | ⟨c, _ | ⟨d, pre⟩⟩⟩⟩
      · injection hs with h _; cases h
      · injection hs with _ h; injection h with h _; cases h
      · injection hs with _ h; injection h with _ h; injection h with h _; cases h
      · injection hs with h1 h; injection h with h2 h; injection h with h3 h; rw [← h1, ← h2, ← h3]
      · exfalso
        injection hs with _ h; injection h with _ h; injection h with _ h; injection h with _ h
        have hm : Act.apply ∈ List.append pre (Act.apply :: post) := List.mem_append_right _ (List.mem_cons_self ..)
        rw [← h] at hm
        simp at hm
    subst this
    injection hr with hr
    rw [← hr]; rfl
  · refine ⟨_, rfl, ?_, rfl, rfl, _, List.mem_cons_self ..⟩
    intro a ha
    cases a with
    | client m => exact ha.elim
    | loader f t => exact ha.elim
    | recv => rfl
    | apply => rfl
    | finish i o => rfl
    | send i => rfl
    | task => rfl

/-- The end of the computation of diagnostics and the delivery of the result are two steps; a change is applied in between, and the new
result overtakes the old one. -/
def overtaken : List (Act Unit Nat) :=
  [.client (.didOpen () 1), .recv, .apply, .client (.didChange () (· + 1)), .recv, .finish 0 .ok, .apply, .finish 0 .ok, .send 1, .send 0,
   .task, .task]

/-- **C84 is false in general.** In `overtaken` the server is at rest, the text of the open document is 2, and the diagnostics shown were
computed from the text 1. -/
theorem stale_refuted : ∃ (as : List (Act Unit Nat)) (s : St Unit Nat) (seen : Unit → Option Nat),
    St.run {} as = some s ∧ s.inbox = [] ∧ s.jobs = [] ∧ s.ended = [] ∧ s.tasks = [] ∧ s.phase = .idle ∧
      clientDoc s.handled () = some 2 ∧ s.shown () = some seen ∧ seen () = some 1 :=
  ⟨overtaken, _, _, rfl, rfl, rfl, rfl, rfl, rfl, rfl, rfl, rfl⟩

end Verif.Props.Snapshot
