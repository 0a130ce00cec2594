import Verif.Lsp.Lookup
import Verif.Props.Snapshot
/-! # C112: a request is answered from the file it names -/

namespace Verif.Props.Lookup
open Verif.Lsp.Snapshot Verif.Lsp.Snapshot.Spec Verif.Lsp.Lookup
variable {F T : Type} [DecidableEq F] [DecidableEq T]

theorem set_seen {s : St F T} (h : ∀ j ∈ s.jobs, j.seen = s.db) (f : F) (t : Option T) (docs : Bool) :
    ∀ j ∈ (s.setContents f t docs).jobs, j.seen = (s.setContents f t docs).db := by
  unfold St.setContents
  split
  · split
    · intro j hj
      simp only [St.updateDiagnostics, List.mem_append, List.mem_singleton] at hj
      rcases hj with hj | rfl
      · exact h j hj
      · rfl
    · exact h
  · exact h

/-- All jobs see the database as it is: it is not written while there are any. -/
theorem step_seen {s s' : St F T} (h : ∀ j ∈ s.jobs, j.seen = s.db) (a : Act F T) (hs : s.step a = some s') : ∀ j ∈ s'.jobs, j.seen = s'.db := by
  have snoc : ∀ (w : Work F), ∀ j ∈ s.jobs ++ [⟨w, s.db⟩], j.seen = s.db := by
    intro w j hj
    simp only [List.mem_append, List.mem_singleton] at hj
    rcases hj with hj | rfl
    · exact h j hj
    · rfl
  cases a with
  | client m => simp only [St.step, Option.some.injEq] at hs; subst hs; exact h
  | loader f t =>
    simp only [St.step] at hs
    split at hs
    · cases hs
    · split at hs
      · simp only [Option.some.injEq] at hs; subst hs; exact h
      · simp only [Option.some.injEq] at hs; subst hs; exact set_seen h f t false
  | recv =>
    simp only [St.step] at hs
    split at hs
    · cases hs
    · split at hs
      · cases hs
      · next m ms _ =>
        simp only [Option.some.injEq] at hs
        subst hs
        cases m with
        | didOpen f t => exact set_seen (s := { s with inbox := ms, handled := _, mem := _ }) h f _ true
        | didChange f e =>
          simp only [St.handle]
          split
          · split
            · exact set_seen (s := { s with inbox := ms, handled := _ }) h f _ false
            · exact h
          · exact h
        | didClose f => exact snoc _
        | request id => exact snoc _
  | apply =>
    simp only [St.step] at hs
    split at hs
    · next hc =>
      simp only [Option.some.injEq] at hs
      subst hs
      intro j hj
      simp only [St.updateDiagnostics, hc.2, List.nil_append, List.mem_singleton] at hj
      subst hj
      rfl
    · cases hs
  | finish i o =>
    simp only [St.step] at hs
    split at hs
    · cases hs
    · split at hs
      · cases hs
      · simp only [Option.some.injEq] at hs; subst hs
        exact fun j hj => h j ((List.eraseIdx_sublist ..).subset hj)
  | send i =>
    simp only [St.step] at hs
    split at hs
    · cases hs
    · simp only [Option.some.injEq] at hs; subst hs; exact h
  | task =>
    simp only [St.step] at hs
    split at hs
    · cases hs
    · split at hs
      · cases hs
      · next t ts _ =>
        simp only [Option.some.injEq] at hs
        subst hs
        cases t with
        | response id seen =>
          simp only [St.handleTask, St.respond]
          split <;> exact h
        | retry id =>
          simp only [St.handleTask]
          split
          · exact snoc _
          · exact h
        | diags files seen => exact h

theorem run_seen : ∀ (as : List (Act F T)) (s s' : St F T), (∀ j ∈ s.jobs, j.seen = s.db) → s.run as = some s' → ∀ j ∈ s'.jobs, j.seen = s'.db
  | [], s, s', h, hs => by simp only [St.run, Option.some.injEq] at hs; subst hs; exact h
  | a :: as, s, s', h, hs => by
    simp only [St.run, Option.bind_eq_some_iff] at hs
    obtain ⟨s1, h1, h2⟩ := hs
    exact run_seen as s1 s' (step_seen h a h1) h2

/-- **C112 for documents that stay open**. Whatever the client, the loader and the workers do: while a request is worked on, a document that is open in the client
since the request, in every state of the client from then on, is found, and what is read is the text the client had at one of these moments. -/
theorem open_found_partial (as : List (Act F T)) (s : St F T) (h : St.run {} as = some s) (id : Nat) (seen : F → Option T) (hj : ⟨.request id, seen⟩ ∈ s.jobs)
    (f : F) (ho : ∀ pre, pre <+: s.handled → Msg.request id ∈ pre → (clientDoc pre f).isSome) :
    ∃ pre t, pre <+: s.handled ∧ Msg.request id ∈ pre ∧ clientDoc pre f = some t ∧ lookup s ⟨.request id, seen⟩ f = .text t := by
  obtain ⟨hc, hw⟩ := Verif.Props.Snapshot.inv as s h
  obtain ⟨pre, h1, h2, h3, -⟩ := hw.jobs id seen hj
  obtain ⟨t, ht⟩ := Option.isSome_iff_exists.1 (ho pre h1 h2)
  obtain ⟨t', ht'⟩ := Option.isSome_iff_exists.1 (ho s.handled List.prefix_rfl (h1.subset h2))
  refine ⟨pre, t, h1, h2, ht, ?_⟩
  simp only [lookup, hc.vfs f t' ht', h3 f t ht]

/-- **C112 for all files, while the main loop is not about to write changes**: a file is found exactly if the server has it, and its text is read. -/
theorem at_rest_partial (as : List (Act F T)) (s : St F T) (h : St.run {} as = some s) (hp : s.phase = .idle) (j : Job F T) (hj : j ∈ s.jobs) (f : F) :
    lookup s j f = match s.vfs f with | none => .notFound | some t => .text t := by
  have hs : j.seen = s.db := run_seen as {} s (fun j hj => by cases hj) h j hj
  have hd := (Verif.Props.Snapshot.inv as s h).1.db hp
  unfold lookup
  rw [hs, hd]
  cases s.vfs f <;> rfl

/-- Exactly when a request fails: the file is not in the virtual file system any more, or it is there already and not in the database yet. -/
theorem fails_iff (as : List (Act F T)) (s : St F T) (h : St.run {} as = some s) (j : Job F T) (hj : j ∈ s.jobs) (f : F) :
    (lookup s j f = .notFound ↔ s.vfs f = none) ∧ (lookup s j f = .missing ↔ (s.vfs f).isSome ∧ s.db f = none) ∧
    ∀ t, lookup s j f = .text t ↔ (s.vfs f).isSome ∧ s.db f = some t := by
  have hs : j.seen = s.db := run_seen as {} s (fun j hj => by cases hj) h j hj
  unfold lookup
  rw [hs]
  cases s.vfs f <;> cases s.db f <;> simp

/-- **C112 is violated** by a request for a file that is opened just after it: the name is looked up in the file system that has the file already, and the
text in the snapshot that does not; the request panics. (The server could have said that the file was not found, or that it changed meanwhile.) -/
theorem opened_refuted : ∃ (as : List (Act Nat Nat)) (s : St Nat Nat), St.run {} as = some s ∧ ∃ j ∈ s.jobs, j.work = .request 1 ∧ lookup s j 7 = .missing :=
  ⟨[.client (.request 1), .client (.didOpen 7 5), .recv, .recv], _, rfl, ⟨.request 1, fun _ => none⟩, by simp [St.run, St.step, St.handle, St.setContents, put], rfl, rfl⟩

/-- **C112 is violated** by a request for a document that is closed and deleted after it: the answer is that there is no such file, although it is in the snapshot. -/
theorem deleted_refuted : ∃ (as : List (Act Nat Nat)) (s : St Nat Nat), St.run {} as = some s ∧ clientDoc [.didOpen 7 5, .request 1] 7 = some 5 ∧
    [Msg.didOpen 7 5, .request 1] <+: s.handled ∧ ∃ j ∈ s.jobs, j.work = .request 1 ∧ j.seen 7 = some 5 ∧ lookup s j 7 = .notFound := by
  exact ⟨[.client (.didOpen 7 5), .recv, .apply, .finish 0 .ok, .client (.request 1), .client (.didClose 7), .recv, .recv, .loader 7 none], _, rfl, rfl,
    ⟨[.didClose 7], rfl⟩, _, List.mem_of_getElem? (i := 0) rfl, rfl, rfl, rfl⟩

/-- A document is opened, asked about, and changed while the request is worked on. -/
def changing : List (Act Nat Nat) :=
  [.client (.didOpen 7 5), .client (.request 1), .client (.didChange 7 (· + 1)), .recv, .apply, .recv, .recv]

/-- The hypotheses of `open_found_partial` hold of it: what is read is the text before the change. -/
example : ∃ s : St Nat Nat, St.run {} changing = some s ∧ s.vfs 7 = some 6 ∧ ∃ seen, ⟨.request 1, seen⟩ ∈ s.jobs ∧
    (∀ pre, pre <+: s.handled → Msg.request 1 ∈ pre → (clientDoc pre 7).isSome) ∧ lookup s ⟨.request 1, seen⟩ 7 = .text 5 := by
  refine ⟨_, rfl, rfl, _, List.mem_of_getElem? (i := 1) rfl, fun pre hp hr => ?_, rfl⟩
  have hp' : pre <+: [Msg.didOpen 7 5, .request 1, .didChange 7 (· + 1)] := hp
  rw [List.prefix_iff_eq_take] at hp'
  generalize pre.length = n at hp'
  subst hp'
  rcases n with _ | _ | _ | n
  · simp at hr
  · simp at hr
  · rfl
  · simp [clientDoc, clientStep]

end Verif.Props.Lookup
