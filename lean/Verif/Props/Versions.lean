import Verif.Lsp.Versions
import Verif.Props.Snapshot
/-!
# C107: the versions of published diagnostics
-/

namespace Verif.Props.Versions
open Verif.Lsp.Snapshot (Msg Work Job put)
open Verif.Lsp.Versions Verif.Lsp.Versions.Spec
open Verif.Lsp.Snapshot.Spec (clientDoc clientStep Matches)
variable {F T : Type} [DecidableEq F] [DecidableEq T]

theorem doc_snoc (ms : List (Msg F T × Int)) (m : Msg F T × Int) (f : F) : doc (ms ++ [m]) f = docStep f (doc ms f) m := by
  simp [doc, List.foldl_append]

/-- The text is the one `Lsp/Snapshot` speaks of. -/
theorem doc_text (ms : List (Msg F T × Int)) (f : F) : (doc ms f).map (·.1) = clientDoc (ms.map (·.1)) f := by
  induction ms using List.reverseRecOn with
  | nil => rfl
  | append_singleton ms m ih =>
    rw [doc_snoc, List.map_append, List.map_singleton, Snapshot.clientDoc_snoc, ← ih]
    obtain ⟨m, v⟩ := m
    cases m <;> simp only [docStep, clientStep] <;> split <;> simp [Function.comp_def]

/-- The versions are recorded. -/
theorem record_doc {docs : F → Option Int} {ms : List (Msg F T × Int)} (h : ∀ f, docs f = (doc ms f).map (·.2)) (m : Msg F T) (v : Int) (f : F) :
    record docs v m f = (doc (ms ++ [(m, v)]) f).map (·.2) := by
  rw [doc_snoc]
  cases m with
  | didOpen g t =>
    simp only [record, put, docStep]
    by_cases hg : g = f
    · subst hg; simp
    · rw [if_neg hg, if_neg fun e => hg e.symm, h]
  | didChange g e =>
    simp only [record, docStep]
    by_cases hg : g = f
    · subst hg
      rw [if_pos rfl]
      have := h g
      cases hd : doc ms g with
      | none => rw [hd] at this; simp [this]
      | some d => rw [hd] at this; simp [this, put]
    · rw [if_neg hg]
      split
      · simp only [put, if_neg (fun e : f = g => hg e.symm)]; exact h f
      · exact h f
  | didClose g =>
    simp only [record, put, docStep]
    by_cases hg : g = f
    · subst hg; simp
    · rw [if_neg hg, if_neg fun e => hg e.symm, h]
  | request id => exact h f

/-- What holds in every state. -/
structure Inv (s : St F T) : Prop where
  reach : ∃ bs, Verif.Lsp.Snapshot.St.run {} bs = some s.base
  got : s.got.map (·.1) = s.base.handled
  docs : ∀ f, s.docs f = (doc s.got f).map (·.2)

/-- The texts are those the client has now. -/
def Now (handled : List (Msg F T)) (files : List F) (seen : F → Option T) : Prop :=
  ∀ f ∈ files, (seen f).isSome ∧ seen f = clientDoc handled f

def UW (s : Verif.Lsp.Snapshot.St F T) (files : List F) (seen : F → Option T) : Prop :=
  ⟨.diags files, seen⟩ ∈ s.jobs ∨ .diags files seen ∈ s.ended ∨ .diags files seen ∈ s.tasks

/-- Computations that begin see what the client has. -/
theorem new_now {s : Verif.Lsp.Snapshot.St F T} (hm : ∀ f, f ∈ s.mem ↔ (clientDoc s.handled f).isSome) (hv : Matches s.handled s.db) : Now s.handled s.mem s.db := by
  intro f hf
  obtain ⟨t, ht⟩ := Option.isSome_iff_exists.1 ((hm f).1 hf)
  rw [hv f t ht, ht]
  exact ⟨rfl, rfl⟩

/-- Diagnostics under way after a step were so before it, perhaps for more files, or see what the client has now. -/
def Origin (s s' : Verif.Lsp.Snapshot.St F T) : Prop :=
  ∀ files seen, UW s' files seen → (∃ files', UW s files' seen ∧ ∀ f ∈ files, f ∈ files') ∨ Now s'.handled files seen

theorem origin_same {s s' : Verif.Lsp.Snapshot.St F T} (hj : s'.jobs = s.jobs) (he : s'.ended = s.ended) (ht : s'.tasks = s.tasks) : Origin s s' := by
  intro files seen h
  refine .inl ⟨files, ?_, fun _ h => h⟩
  simpa [UW, hj, he, ht] using h

theorem origin_update {s s' : Verif.Lsp.Snapshot.St F T} (hj : s'.jobs = s.jobs ++ [⟨.diags s'.mem, s'.db⟩]) (he : s'.ended = s.ended) (ht : s'.tasks = s.tasks)
    (hm : ∀ f, f ∈ s'.mem ↔ (clientDoc s'.handled f).isSome) (hv : Matches s'.handled s'.db) : Origin s s' := by
  intro files seen h
  simp only [UW, hj, he, ht, List.mem_append, List.mem_singleton] at h
  rcases h with (h | h) | h | h
  · exact .inl ⟨files, .inl h, fun _ h => h⟩
  · injection h with h1 h2
    injection h1 with h1
    subst h1; subst h2
    exact .inr (new_now hm hv)
  · exact .inl ⟨files, .inr (.inl h), fun _ h => h⟩
  · exact .inl ⟨files, .inr (.inr h), fun _ h => h⟩

theorem origin_set {s0 s : Verif.Lsp.Snapshot.St F T} (hj : s.jobs = s0.jobs) (he : s.ended = s0.ended) (ht : s.tasks = s0.tasks)
    (hi : s.phase = .idle) (f : F) (t : Option T) (docs : Bool) (hc : Snapshot.Core (s.setContents f t docs)) : Origin s0 (s.setContents f t docs) := by
  unfold Verif.Lsp.Snapshot.St.setContents at *
  split
  · rename_i h1
    rw [if_pos h1] at hc
    split
    · rename_i h2
      rw [if_pos h2] at hc
      refine origin_update (by simp [Verif.Lsp.Snapshot.St.updateDiagnostics, hj]) he ht hc.mem ?_
      have := hc.db hi
      rw [this]; exact hc.vfs
    · exact origin_same hj he ht
  · exact origin_same hj he ht

theorem origin_handle {s0 s : Verif.Lsp.Snapshot.St F T} (hj : s.jobs = s0.jobs) (he : s.ended = s0.ended) (ht : s.tasks = s0.tasks)
    (hi : s.phase = .idle) (m : Msg F T) (hc : Snapshot.Core (s.handle m)) : Origin s0 (s.handle m) := by
  cases m with
  | didOpen f t => exact origin_set (s := { s with mem := f :: s.mem.filter (· ≠ f) }) hj he ht hi f (some t) true hc
  | didChange f e =>
    simp only [Verif.Lsp.Snapshot.St.handle] at *
    split
    · rename_i h1
      rw [if_pos h1] at hc
      split
      · rename_i t h2
        rw [h2] at hc
        exact origin_set hj he ht hi f (some (e t)) false hc
      · exact origin_same hj he ht
    · exact origin_same hj he ht
  | didClose f =>
    refine origin_update (by simp [Verif.Lsp.Snapshot.St.handle, Verif.Lsp.Snapshot.St.updateDiagnostics, hj]) he ht hc.mem ?_
    have := hc.db hi
    rw [this]; exact hc.vfs
  | request id =>
    intro files seen h
    simp only [UW, Verif.Lsp.Snapshot.St.handle, hj, he, ht, List.mem_append, List.mem_singleton] at h
    rcases h with (h | h) | h | h
    · exact .inl ⟨files, .inl h, fun _ h => h⟩
    · cases h
    · exact .inl ⟨files, .inr (.inl h), fun _ h => h⟩
    · exact .inl ⟨files, .inr (.inr h), fun _ h => h⟩

theorem task_diags {j : Job F T} {o : Verif.Lsp.Snapshot.Outcome F} {files : List F} {seen : F → Option T}
    (h : Verif.Lsp.Snapshot.task j o = .diags files seen) : ∃ subs, j = ⟨.diags subs, seen⟩ ∧ ∀ f ∈ files, f ∈ subs := by
  obtain ⟨w, sn⟩ := j
  cases w <;> cases o <;> simp [Verif.Lsp.Snapshot.task] at h
  · obtain ⟨rfl, rfl⟩ := h; exact ⟨_, rfl, fun _ h => h⟩
  · obtain ⟨rfl, rfl⟩ := h; exact ⟨_, rfl, fun _ h => h⟩
  · obtain ⟨rfl, rfl⟩ := h; exact ⟨_, rfl, fun f h => (List.mem_filter.1 h).1⟩

theorem origin_step {s s' : Verif.Lsp.Snapshot.St F T} (hc' : Snapshot.Core s') (a : Verif.Lsp.Snapshot.Act F T) (hs : s.step a = some s') :
    Origin s s' := by
  cases a with
  | client m => cases hs; exact origin_same rfl rfl rfl
  | loader f t =>
    simp only [Verif.Lsp.Snapshot.St.step] at hs
    split at hs
    · cases hs
    · rename_i hp
      have hi : s.phase = .idle := by cases h : s.phase <;> simp_all
      split at hs
      · cases hs; exact origin_same rfl rfl rfl
      · cases hs; exact origin_set rfl rfl rfl hi f t false hc'
  | recv =>
    simp only [Verif.Lsp.Snapshot.St.step] at hs
    split at hs
    · cases hs
    · rename_i hp
      have hi : s.phase = .idle := by cases h : s.phase <;> simp_all
      split at hs
      · cases hs
      · rename_i m ms _
        cases hs
        exact origin_handle (s := { s with inbox := ms, handled := s.handled ++ [m] }) rfl rfl rfl hi m hc'
  | apply =>
    simp only [Verif.Lsp.Snapshot.St.step] at hs
    split at hs
    · cases hs
      exact origin_update rfl rfl rfl hc'.mem hc'.vfs
    · cases hs
  | finish i o =>
    simp only [Verif.Lsp.Snapshot.St.step] at hs
    split at hs
    · cases hs
    · rename_i j hj
      split at hs
      · cases hs
      · cases hs
        intro files seen h
        simp only [UW, List.mem_append, List.mem_singleton] at h
        rcases h with h | (h | h) | h
        · exact .inl ⟨files, .inl (Snapshot.mem_eraseIdx h), fun _ h => h⟩
        · exact .inl ⟨files, .inr (.inl h), fun _ h => h⟩
        · obtain ⟨subs, rfl, h2⟩ := task_diags h.symm
          exact .inl ⟨subs, .inl (List.mem_of_getElem? hj), h2⟩
        · exact .inl ⟨files, .inr (.inr h), fun _ h => h⟩
  | send i =>
    simp only [Verif.Lsp.Snapshot.St.step] at hs
    split at hs
    · cases hs
    · rename_i t ht
      cases hs
      intro files seen h
      simp only [UW, List.mem_append, List.mem_singleton] at h
      rcases h with h | h | (h | h)
      · exact .inl ⟨files, .inl h, fun _ h => h⟩
      · exact .inl ⟨files, .inr (.inl (Snapshot.mem_eraseIdx h)), fun _ h => h⟩
      · exact .inl ⟨files, .inr (.inr h), fun _ h => h⟩
      · subst h; exact .inl ⟨files, .inr (.inl (List.mem_of_getElem? ht)), fun _ h => h⟩
  | task =>
    simp only [Verif.Lsp.Snapshot.St.step] at hs
    split at hs
    · cases hs
    · split at hs
      · cases hs
      · rename_i t ts hts
        cases hs
        have hsub : ∀ x ∈ ts, x ∈ s.tasks := fun x hx => by rw [hts]; exact List.mem_cons_of_mem _ hx
        have key : ∀ files seen, UW { s with tasks := ts } files seen → UW s files seen := by
          intro files seen h
          rcases h with h | h | h
          · exact .inl h
          · exact .inr (.inl h)
          · exact .inr (.inr (hsub _ h))
        intro files seen h
        cases t with
        | response id x =>
          refine .inl ⟨files, key _ _ ?_, fun _ h => h⟩
          simp only [Verif.Lsp.Snapshot.St.handleTask, Verif.Lsp.Snapshot.St.respond] at h
          split at h <;> exact h
        | retry id =>
          refine .inl ⟨files, key _ _ ?_, fun _ h => h⟩
          simp only [Verif.Lsp.Snapshot.St.handleTask] at h
          split at h
          · simp only [UW, List.mem_append, List.mem_singleton] at h
            rcases h with (h | h) | h | h
            · exact .inl h
            · cases h
            · exact .inr (.inl h)
            · exact .inr (.inr h)
          · exact h
        | diags fs sn => exact .inl ⟨files, key _ _ h, fun _ h => h⟩

/-! ### Steps with versions -/

theorem run_snoc {s : Verif.Lsp.Snapshot.St F T} {bs : List (Verif.Lsp.Snapshot.Act F T)} {b b' : Verif.Lsp.Snapshot.St F T}
    {a : Verif.Lsp.Snapshot.Act F T} (h : s.run bs = some b) (ha : b.step a = some b') : s.run (bs ++ [a]) = some b' := by
  induction bs generalizing s with
  | nil => cases h; simp [Verif.Lsp.Snapshot.St.run, ha]
  | cons c bs ih =>
    simp only [Verif.Lsp.Snapshot.St.run, Option.bind_eq_some_iff, List.cons_append] at h ⊢
    obtain ⟨k, h1, h2⟩ := h
    exact ⟨k, h1, ih h2⟩

theorem reach_core {b : Verif.Lsp.Snapshot.St F T} (h : ∃ bs, Verif.Lsp.Snapshot.St.run {} bs = some b) : Snapshot.Core b := by
  obtain ⟨bs, h⟩ := h
  exact (Snapshot.inv bs b h).1

theorem handle_handled (s : Verif.Lsp.Snapshot.St F T) (m : Msg F T) : (s.handle m).handled = s.handled := by
  cases m with
  | didOpen f t => exact (Snapshot.same_set _ f (some t) true).handled
  | didChange f e =>
    simp only [Verif.Lsp.Snapshot.St.handle]
    split
    · split
      · exact (Snapshot.same_set _ f _ false).handled
      · rfl
    · rfl
  | didClose f => rfl
  | request id => rfl

/-- What a step with versions does to the state without them. -/
theorem step_base {s s' : St F T} {a : Act F T} (h : s.step a = some s') (hi : Inv s) : Inv s' ∧ Origin s.base s'.base ∧
    ((s'.base.handled = s.base.handled ∧ s'.got = s.got ∧ s'.docs = s.docs) ∨
      ∃ m rest v, a = .recv ∧ s.base.inbox = m :: rest ∧ s'.got = s.got ++ [(m, v)]) := by
  obtain ⟨bs, hbs⟩ := hi.reach
  have step : ∀ (c : Verif.Lsp.Snapshot.Act F T) b, s.base.step c = some b → (∃ bs, Verif.Lsp.Snapshot.St.run {} bs = some b) ∧ Origin s.base b := by
    intro c b hb
    have hr := run_snoc hbs hb
    exact ⟨⟨_, hr⟩, origin_step (reach_core ⟨_, hr⟩) c hb⟩
  cases a with
  | client m v =>
    simp only [St.step, Option.map_eq_some_iff] at h
    obtain ⟨b, h1, rfl⟩ := h
    obtain ⟨h2, h3⟩ := step _ b h1
    have hh : b.handled = s.base.handled := by cases h1; rfl
    exact ⟨⟨h2, hi.got.trans hh.symm, hi.docs⟩, h3, .inl ⟨hh, rfl, rfl⟩⟩
  | recv =>
    simp only [St.step] at h
    split at h
    · rename_i m rest v q hib _
      simp only [Option.map_eq_some_iff] at h
      obtain ⟨b, h1, rfl⟩ := h
      obtain ⟨h2, h3⟩ := step _ b h1
      have hh : b.handled = s.base.handled ++ [m] := by
        simp only [Verif.Lsp.Snapshot.St.step, hib] at h1
        split at h1
        · cases h1
        · cases h1; rw [handle_handled]
      exact ⟨⟨h2, by simp [hi.got, hh], record_doc hi.docs m v⟩, h3, .inr ⟨m, rest, v, rfl, hib, rfl⟩⟩
    · cases h
  | task changed =>
    simp only [St.step] at h
    split at h
    · rename_i t ts hts
      simp only [Option.map_eq_some_iff] at h
      obtain ⟨b, h1, rfl⟩ := h
      obtain ⟨h2, h3⟩ := step _ b h1
      have hh : b.handled = s.base.handled := by
        simp only [Verif.Lsp.Snapshot.St.step, hts] at h1
        split at h1
        · cases h1
        · cases h1
          cases t with
          | response id x => simp only [Verif.Lsp.Snapshot.St.handleTask, Verif.Lsp.Snapshot.St.respond]; split <;> rfl
          | retry id => simp only [Verif.Lsp.Snapshot.St.handleTask]; split <;> rfl
          | diags fs sn => rfl
      exact ⟨⟨h2, hi.got.trans hh.symm, hi.docs⟩, h3, .inl ⟨hh, rfl, rfl⟩⟩
    · cases h
  | other c =>
    have hc : ∀ b, s.base.step c = some b → (∀ m, c ≠ .client m) → c ≠ .recv → c ≠ .task → b.handled = s.base.handled := by
      intro b hb n1 n2 n3
      cases c with
      | client m => exact absurd rfl (n1 m)
      | recv => exact absurd rfl n2
      | task => exact absurd rfl n3
      | loader f t =>
        simp only [Verif.Lsp.Snapshot.St.step] at hb
        split at hb
        · cases hb
        · split at hb
          · cases hb; rfl
          · cases hb; exact (Snapshot.same_set _ f t false).handled
      | apply => simp only [Verif.Lsp.Snapshot.St.step] at hb; split at hb <;> cases hb; rfl
      | finish i o =>
        simp only [Verif.Lsp.Snapshot.St.step] at hb
        split at hb
        · cases hb
        · split at hb <;> cases hb; rfl
      | send i => simp only [Verif.Lsp.Snapshot.St.step] at hb; split at hb <;> cases hb; rfl
    simp only [St.step] at h
    split at h
    · cases h
    · cases h
    · cases h
    · rename_i n1 n2 n3
      simp only [Option.map_eq_some_iff] at h
      obtain ⟨b, h1, rfl⟩ := h
      obtain ⟨h2, h3⟩ := step _ b h1
      have hh := hc b h1 n1 n2 n3
      exact ⟨⟨h2, hi.got.trans hh.symm, hi.docs⟩, h3, .inl ⟨hh, rfl, rfl⟩⟩

theorem inv_init : Inv ({} : St F T) := ⟨⟨[], rfl⟩, rfl, fun _ => rfl⟩

/-- Diagnostics under way see texts the client had at some moment. -/
def Past (s : St F T) : Prop := ∀ files seen, UnderWay s files seen → ∃ earlier, earlier <+: s.got ∧ ∀ f ∈ files, ∃ v, ∃ t, seen f = some t ∧ doc earlier f = some (t, v)

/-- Diagnostics under way see the texts the client has now. -/
def Present (s : St F T) : Prop := ∀ files seen, UnderWay s files seen → ∀ f ∈ files, ∃ v t, seen f = some t ∧ doc s.got f = some (t, v)

theorem now_doc {s : St F T} (hi : Inv s) {files : List F} {seen : F → Option T} (h : Now s.base.handled files seen) :
    ∀ f ∈ files, ∃ v t, seen f = some t ∧ doc s.got f = some (t, v) := by
  intro f hf
  obtain ⟨h1, h2⟩ := h f hf
  obtain ⟨t, ht⟩ := Option.isSome_iff_exists.1 h1
  rw [← hi.got, ← doc_text, ht] at h2
  cases hd : doc s.got f with
  | none => rw [hd] at h2; cases h2
  | some d =>
    rw [hd] at h2
    simp only [Option.map_some, Option.some.injEq] at h2
    exact ⟨d.2, t, ht, by rw [h2]⟩

theorem past_step {s s' : St F T} {a : Act F T} (h : s.step a = some s') (hi : Inv s) (hp : Past s) : Past s' := by
  obtain ⟨hi', ho, hg⟩ := step_base h hi
  intro files seen hu
  rcases ho files seen hu with ⟨files', h1, h2⟩ | h1
  · obtain ⟨e, h3, h4⟩ := hp files' seen h1
    refine ⟨e, h3.trans ?_, fun f hf => h4 f (h2 f hf)⟩
    rcases hg with ⟨-, hg, -⟩ | ⟨m, rest, v, -, -, hg⟩
    · rw [hg]; exact List.prefix_rfl
    · rw [hg]; exact List.prefix_append ..
  · refine ⟨s'.got, List.prefix_rfl, fun f hf => ?_⟩
    obtain ⟨v, t, h3, h4⟩ := now_doc hi' h1 f hf
    exact ⟨v, t, h3, h4⟩

theorem present_step {s s' : St F T} {a : Act F T} (h : s.step a = some s') (hi : Inv s) (hp : Present s)
    (hc : ∀ m rest, a = .recv → s.base.inbox = m :: rest → isDoc m = true → ∀ files seen, ¬ UnderWay s files seen) : Present s' := by
  obtain ⟨hi', ho, hg⟩ := step_base h hi
  intro files seen hu
  rcases ho files seen hu with ⟨files', h1, h2⟩ | h1
  · intro f hf
    obtain ⟨v, t, h3, h4⟩ := hp files' seen h1 f (h2 f hf)
    refine ⟨v, t, h3, ?_⟩
    rcases hg with ⟨-, hg, -⟩ | ⟨m, rest, w, ha, hb, hg⟩
    · rw [hg]; exact h4
    · cases hm : isDoc m with
      | true => exact absurd h1 (hc m rest ha hb hm files' seen)
      | false =>
        cases m <;> simp [isDoc] at hm
        rw [hg, doc_snoc]; exact h4
  · exact now_doc hi' h1

theorem split_run {s s' : St F T} (as : List (Act F T)) (a : Act F T) (h : s.run (as ++ [a]) = some s') : ∃ k, s.run as = some k ∧ k.step a = some s' := by
  induction as generalizing s with
  | nil =>
    simp only [List.nil_append, St.run, Option.bind_eq_some_iff] at h
    obtain ⟨k, h1, h2⟩ := h
    cases h2
    exact ⟨s, rfl, h1⟩
  | cons b as ih =>
    simp only [List.cons_append, St.run, Option.bind_eq_some_iff] at h
    obtain ⟨k, h1, h2⟩ := h
    obtain ⟨j, h3, h4⟩ := ih h2
    exact ⟨j, by simp [St.run, h1, h3], h4⟩

theorem reach (as : List (Act F T)) : ∀ s : St F T, St.run {} as = some s → Inv s ∧ Past s := by
  induction as using List.reverseRecOn with
  | nil => intro s h; cases h; exact ⟨inv_init, fun _ _ h => by simp [UnderWay] at h⟩
  | append_singleton as a ih =>
    intro s h
    obtain ⟨k, h1, h2⟩ := split_run as a h
    obtain ⟨i1, i2⟩ := ih k h1
    exact ⟨(step_base h2 i1).1, past_step h2 i1 i2⟩

theorem calm_reach (as : List (Act F T)) : Calm as → ∀ s : St F T, St.run {} as = some s → Present s := by
  induction as using List.reverseRecOn with
  | nil => intro _ s h; cases h; exact fun _ _ h => by simp [UnderWay] at h
  | append_singleton as a ih =>
    intro hc s h
    obtain ⟨k, h1, h2⟩ := split_run as a h
    have hc' : Calm as := fun pre post t m rest e => hc pre (post ++ [a]) t m rest (by rw [e]; simp)
    refine present_step h2 (reach as k h1).1 (ih hc' k h1) ?_
    intro m rest ha hb hm
    subst ha
    exact hc as [] k m rest rfl h1 hb hm

/-- What a step publishes: all of it comes out of the task handled. -/
theorem published {s s' : St F T} {a : Act F T} (h : s.step a = some s') : ∃ new, s'.out = s.out ++ new ∧
    ∀ p ∈ new, p.version = s.docs p.file ∧ ∃ files, p.file ∈ files ∧ UnderWay s files p.seen := by
  cases a with
  | client m v =>
    simp only [St.step, Option.map_eq_some_iff] at h
    obtain ⟨b, h1, rfl⟩ := h
    exact ⟨[], by simp, by simp⟩
  | recv =>
    simp only [St.step] at h
    split at h
    · simp only [Option.map_eq_some_iff] at h
      obtain ⟨b, h1, rfl⟩ := h
      exact ⟨[], by simp, by simp⟩
    · cases h
  | task changed =>
    simp only [St.step] at h
    split at h
    · rename_i t ts hts
      simp only [Option.map_eq_some_iff] at h
      obtain ⟨b, h1, rfl⟩ := h
      refine ⟨_, rfl, fun p hp => ?_⟩
      cases t with
      | diags files seen =>
        simp only [publish, List.mem_map, List.mem_filter] at hp
        obtain ⟨f, ⟨hf, -⟩, rfl⟩ := hp
        exact ⟨rfl, files, hf, .inr (.inr (by rw [hts]; exact List.mem_cons_self ..))⟩
      | _ => simp [publish] at hp
    · cases h
  | other c =>
    simp only [St.step] at h
    split at h
    · cases h
    · cases h
    · cases h
    · simp only [Option.map_eq_some_iff] at h
      obtain ⟨b, h1, rfl⟩ := h
      exact ⟨[], by simp, by simp⟩

/-- **C107, which version.** Whatever a step publishes after any history has the version the document has, as far as its messages were received, and none if it
is not open; and it was computed from the text the document had after some earlier message, never from any other text. -/
theorem version_partial (as : List (Act F T)) (a : Act F T) (s s' : St F T) (h : St.run {} as = some s) (hs : s.step a = some s') :
    ∃ new, s'.out = s.out ++ new ∧ ∀ p ∈ new, p.version = (doc s.got p.file).map (·.2) ∧
      ∃ earlier, earlier <+: s.got ∧ ∃ t v, doc earlier p.file = some (t, v) ∧ p.seen p.file = some t := by
  obtain ⟨i1, i2⟩ := reach as s h
  obtain ⟨new, h1, h2⟩ := published hs
  refine ⟨new, h1, fun p hp => ?_⟩
  obtain ⟨h3, files, h4, h5⟩ := h2 p hp
  obtain ⟨e, h6, h7⟩ := i2 files p.seen h5
  obtain ⟨v, t, h8, h9⟩ := h7 _ h4
  exact ⟨by rw [h3, i1.docs], e, h6, t, v, h9, h8⟩

/-- **C107, the version of the text.** If no message about a document is received while diagnostics are under way, all diagnostics published are those of the
text of the version they name. -/
theorem version_calm_partial (as : List (Act F T)) (a : Act F T) (s s' : St F T) (h : St.run {} as = some s) (hs : s.step a = some s') (hc : Calm as) :
    ∃ new, s'.out = s.out ++ new ∧ ∀ p ∈ new, ∃ t v, doc s.got p.file = some (t, v) ∧ p.version = some v ∧ p.seen p.file = some t := by
  obtain ⟨i1, -⟩ := reach as s h
  obtain ⟨new, h1, h2⟩ := published hs
  refine ⟨new, h1, fun p hp => ?_⟩
  obtain ⟨h3, files, h4, h5⟩ := h2 p hp
  obtain ⟨v, t, h6, h7⟩ := calm_reach as hc s h files p.seen h5 _ h4
  exact ⟨t, v, h7, by rw [h3, i1.docs, h7]; rfl, h6⟩

/-- A document is opened and its diagnostics are computed. -/
def opened : List (Act String String) :=
  [.client (.didOpen "a" "one") 1, .recv, .other .apply, .other (.finish 0 .ok), .other (.send 0)]

/-- Before they are handled, the document is changed to version 2. -/
def overtaken : List (Act String String) :=
  opened ++ [.client (.didChange "a" fun _ => "two") 2, .recv, .other .apply, .task fun _ => true]

/-- **C107 is false of the code.** The diagnostics of version 1 are published as those of version 2, whose text is another one. -/
theorem version_refuted : ∃ s : St String String, St.run {} overtaken = some s ∧ s.out.map (fun p => (p.file, p.version, p.seen "a")) = [("a", some 2, some "one")] ∧
    doc s.got "a" = some ("two", 2) :=
  ⟨_, rfl, by decide +kernel, by decide +kernel⟩

/-- The hypotheses of `version_calm_partial` are met when the diagnostics are handled first. -/
example : Calm (opened ++ [.task fun _ => true]) := by
  intro pre post s m rest e h hb hm
  have hp : pre = [.client (.didOpen "a" "one") 1] := by
    rcases pre with _ | ⟨p0, _ | ⟨p1, _ | ⟨p2, _ | ⟨p3, _ | ⟨p4, _ | ⟨p5, pre⟩⟩⟩⟩⟩⟩ <;> simp [opened] at e ⊢
    exact e.1.symm
  subst hp
  cases h
  intro files seen hu
  simp [UnderWay] at hu

example : ∃ s : St String String, St.run {} (opened ++ [.task fun _ => true]) = some s ∧
    s.out.map (fun p => (p.file, p.version, p.seen "a")) = [("a", some 1, some "one")] :=
  ⟨_, rfl, by decide +kernel⟩

end Verif.Props.Versions
