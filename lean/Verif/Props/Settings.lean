import Verif.Lsp.Settings
import Verif.Props.Config
/-!
# C93: changed settings take effect
-/

namespace Verif.Props.Settings

open Verif.Lsp.Config Verif.Lsp.Config.Spec Verif.Lsp.Settings Verif.Lsp.Settings.Spec
open Verif.Props.Config (Given update_given settings_read)

/-- The ids of the answers in the queue. -/
def answerIds : List Msg → List Nat
  | [] => []
  | .didChangeConfiguration _ :: ms => answerIds ms
  | .response id _ :: ms => id :: answerIds ms

theorem answerIds_append (a b : List Msg) : answerIds (a ++ b) = answerIds a ++ answerIds b := by
  induction a with
  | nil => rfl
  | cons m a ih => cases m <;> simp [answerIds, ih]

theorem answerIds_changes (fs : List (Section → Json)) : answerIds (fs.map .didChangeConfiguration) = [] := by
  induction fs with
  | nil => rfl
  | cons f fs ih => simpa [answerIds] using ih

/-- The open requests of the server are those on their way, those the client has, and those whose answer is on its way, each once. -/
structure Ids (w : World) : Prop where
  perm : (w.server.pending.map (·.1)).Perm (w.toClient.map (·.id) ++ w.open_.map (·.id) ++ answerIds w.toServer)
  nodup : (w.server.pending.map (·.1)).Nodup
  below : ∀ p ∈ w.server.pending, p.1 < w.server.nextId

theorem lookup_isSome {β : Type} (l : List (Nat × β)) (k : Nat) (h : k ∈ l.map (·.1)) : ∃ b, l.lookup k = some b := by
  induction l with
  | nil => simp at h
  | cons p l ih =>
    obtain ⟨a, b⟩ := p
    rw [List.lookup_cons]
    by_cases e : k = a
    · subst e; simp
    · rw [show (k == a) = false by simpa using e]
      exact ih (by simpa [e] using h)

theorem map_filter_ne {β : Type} (l : List (Nat × β)) (k : Nat) : (l.filter fun p => decide (p.1 ≠ k)).map (·.1) = (l.map (·.1)).filter fun x => decide (x ≠ k) := by
  rw [List.filter_map]; rfl

theorem ids_send {w : World} (h : Ids w) (ask : Option Section) :
    Ids { w with toClient := w.toClient ++ [(w.server.sendRequest ask).2], server := (w.server.sendRequest ask).1 } := by
  refine ⟨?_, ?_, ?_⟩
  · simp only [Server.sendRequest, List.map_cons, List.map_append, List.map_nil, List.append_assoc, List.singleton_append]
    have := h.perm
    rw [List.append_assoc] at this
    exact (this.cons _).trans List.perm_middle.symm
  · simp only [Server.sendRequest, List.map_cons, List.nodup_cons]
    refine ⟨fun hm => ?_, h.nodup⟩
    obtain ⟨p, hp, e⟩ := List.mem_map.1 hm
    have := h.below p hp
    omega
  · intro p hp
    simp only [Server.sendRequest, List.mem_cons] at hp ⊢
    rcases hp with rfl | hp
    · exact Nat.lt_succ_self _
    · exact Nat.lt_succ_of_lt (h.below p hp)

theorem eraseIdx_perm {α : Type} (l : List α) (i : Nat) (x : α) (h : l[i]? = some x) : l.Perm (x :: l.eraseIdx i) := by
  induction l generalizing i with
  | nil => simp at h
  | cons a l ih =>
    cases i with
    | zero =>
      simp only [List.getElem?_cons_zero, Option.some.injEq] at h
      subst h; simp
    | succ i =>
      simp only [List.getElem?_cons_succ] at h
      rw [List.eraseIdx_cons_succ]
      exact ((ih i h).cons a).trans (List.Perm.swap _ _ _)

theorem ids_answer {w : World} (h : Ids w) {i : Nat} {r : Request} (hr : w.open_[i]? = some r) (a : Answer) :
    Ids { w with open_ := w.open_.eraseIdx i, toServer := w.toServer ++ [.response r.id a] } := by
  refine ⟨h.perm.trans ?_, h.nodup, h.below⟩
  simp only [answerIds_append, answerIds, List.append_assoc]
  refine List.Perm.append_left _ ?_
  have := (eraseIdx_perm _ i r hr).map (·.id)
  rw [List.map_cons] at this
  refine (this.append_right _).trans ?_
  rw [List.cons_append]
  refine List.perm_middle.symm.trans ?_ 
  exact List.Perm.append_left _ (List.perm_append_singleton _ _).symm

theorem ids_step {w : World} (h : Ids w) (a : Act) : ∃ w', w.step a = some w' ∧ Ids w' := by
  cases a with
  | change f =>
    refine ⟨_, rfl, ?_, h.nodup, h.below⟩
    simpa [answerIds_append, answerIds] using h.perm
  | receive =>
    simp only [World.step]
    split
    · exact ⟨_, rfl, h⟩
    · next r rs hc =>
      refine ⟨_, rfl, h.perm.trans ?_, h.nodup, h.below⟩
      rw [hc]
      simp only [List.map_cons, List.map_append, List.map_nil, List.cons_append, List.append_assoc, List.singleton_append]
      refine (List.perm_middle.symm).trans (List.Perm.append_left _ ?_)
      exact List.perm_middle.symm
  | answer i =>
    simp only [World.step]
    split
    · exact ⟨_, rfl, h⟩
    · next r hr => exact ⟨_, rfl, ids_answer h hr _⟩
  | refuse i =>
    simp only [World.step]
    split
    · exact ⟨_, rfl, h⟩
    · next r hr => exact ⟨_, rfl, ids_answer h hr _⟩
  | other => exact ⟨_, rfl, ids_send h none⟩
  | deliver =>
    simp only [World.step]
    split
    · exact ⟨_, rfl, h⟩
    · next m ms hc =>
      cases m with
      | didChangeConfiguration f =>
        have h' : Ids { w with toServer := ms } := by
          refine ⟨?_, h.nodup, h.below⟩
          have := h.perm
          rw [hc] at this
          exact this
        simp only [Server.handle, Server.didChangeConfiguration, Option.map_some]
        by_cases hp : w.server.pull
        · rw [if_pos hp]
          exact ⟨_, rfl, ids_send h' _⟩
        · rw [if_neg hp, List.append_nil]
          exact ⟨_, rfl, h'⟩
      | response id a =>
        have hperm := h.perm
        rw [hc] at hperm
        have hmem : id ∈ w.server.pending.map (·.1) := hperm.mem_iff.2 (by simp [answerIds])
        obtain ⟨b, hb⟩ := lookup_isSome _ _ hmem
        simp only [Server.handle, Server.completeRequest, hb, Option.map_some, List.append_nil]
        have key : ∀ sv : Server, sv.pending = (w.server.pending.filter fun p => decide (p.1 ≠ id)) → sv.nextId = w.server.nextId →
            Ids { w with toServer := ms, toClient := w.toClient, server := sv } := by
          intro sv h1 h2
          have hnd := h.nodup
          refine ⟨?_, ?_, ?_⟩
          · rw [h1, map_filter_ne]
            simp only
            have hsplit : (w.toClient.map (·.id) ++ w.open_.map (·.id) ++ answerIds (.response id a :: ms)).Perm
                (id :: (w.toClient.map (·.id) ++ w.open_.map (·.id) ++ answerIds ms)) := List.perm_middle
            have hp2 := hperm.trans hsplit
            have hnd2 := hp2.nodup_iff.1 hnd
            refine (hp2.filter _).trans ?_
            rw [List.filter_cons_of_neg (by simp)]
            have : (w.toClient.map (·.id) ++ w.open_.map (·.id) ++ answerIds ms).filter (fun x => decide (x ≠ id)) =
                w.toClient.map (·.id) ++ w.open_.map (·.id) ++ answerIds ms := by
              rw [List.filter_eq_self]
              intro x hx
              have : x ≠ id := by
                rintro rfl
                exact (List.nodup_cons.1 hnd2).1 hx
              simpa using this
            rw [this]
          · rw [h1, map_filter_ne]
            exact hnd.filter _
          · intro p hp
            rw [h1] at hp
            rw [h2]
            exact h.below p (List.mem_filter.1 hp).1
        refine ⟨_, rfl, ?_⟩
        cases b
        · exact key _ rfl rfl
        · exact key _ rfl rfl

theorem ids_run {w : World} (h : Ids w) (as : List Act) : ∃ w', w.run as = some w' ∧ Ids w' := by
  induction as generalizing w with
  | nil => exact ⟨w, rfl, h⟩
  | cons a as ih =>
    obtain ⟨w₁, h1, h2⟩ := ids_step h a
    obtain ⟨w₂, h3, h4⟩ := ih h2
    exact ⟨w₂, by rw [World.run, h1]; exact h3, h4⟩

theorem ids_init (pull amxx : Bool) (o : Option Json) (f : Section → Json) (early : List (Section → Json)) : Ids (World.init pull amxx o f early) := by
  refine ⟨?_, List.nodup_nil, by simp [World.init, boot]⟩
  simp [World.init, boot, answerIds_changes]

/-- **C93, answers.** In no history, with whatever the client answers in whatever order, does an answer bring the server down. -/
theorem answers_harmless (pull amxx : Bool) (options : Option Json) (f : Section → Json) (early : List (Section → Json)) (as : List Act) :
    ∃ w, (World.init pull amxx options f early).run as = some w :=
  let ⟨w, h, _⟩ := ids_run (ids_init pull amxx options f early) as
  ⟨w, h⟩

/-! ### The settings -/

/-- What the settings will be when the answers in the queue have been handled. -/
def drain (p : List (Nat × Bool)) : State → List Msg → State
  | c, [] => c
  | c, .didChangeConfiguration _ :: ms => drain p c ms
  | c, .response id a :: ms => drain p (if p.lookup id = some true then answered c a else c) ms

theorem drain_append (p : List (Nat × Bool)) (a b : List Msg) : ∀ c, drain p c (a ++ b) = drain p (drain p c a) b := by
  induction a with
  | nil => intro c; rfl
  | cons m a ih => intro c; cases m <;> simp only [List.cons_append, drain, ih]

theorem drain_congr {p q : List (Nat × Bool)} (ms : List Msg) (h : ∀ id ∈ answerIds ms, p.lookup id = q.lookup id) : ∀ c, drain p c ms = drain q c ms := by
  induction ms with
  | nil => intro c; rfl
  | cons m ms ih =>
    intro c
    cases m with
    | didChangeConfiguration f => exact ih h c
    | response id a =>
      simp only [drain]
      rw [h id (by simp [answerIds])]
      exact ih (fun k hk => h k (by simp [answerIds, hk])) _

/-- The handlers kept for the requests under way are the right ones, and every question is for the right section. -/
def Kinds (w : World) : Prop :=
  ∀ r ∈ w.toClient ++ w.open_, w.server.pending.lookup r.id = some r.ask.isSome ∧ ∀ sec, r.ask = some sec → sec = w.server.section_

/-- The client's settings have arrived, or something under way will fetch them. -/
def Fresh (w : World) : Prop :=
  (∃ f, Msg.didChangeConfiguration f ∈ w.toServer) ∨ (∃ r ∈ w.toClient ++ w.open_, r.ask.isSome = true) ∨
  (Given (w.settings w.server.section_) → (drain w.server.pending w.server.config w.toServer).data = (fromJson (w.settings w.server.section_)).1)

theorem lookup_filter {β : Type} (l : List (Nat × β)) (k id : Nat) (h : k ≠ id) : (l.filter fun p => decide (p.1 ≠ id)).lookup k = l.lookup k := by
  induction l with
  | nil => rfl
  | cons p l ih =>
    obtain ⟨a, b⟩ := p
    by_cases e : a = id
    · rw [List.filter_cons_of_neg (by simpa using e), ih, List.lookup_cons]
      rw [show (k == a) = false by simp; omega]
    · rw [List.filter_cons_of_pos (by simpa using e), List.lookup_cons, List.lookup_cons, ih]

theorem lookup_new {s : Server} (b : Bool) (k : Nat) (h : k < s.nextId) : ((s.nextId, b) :: s.pending).lookup k = s.pending.lookup k := by
  rw [List.lookup_cons, show (k == s.nextId) = false by simp; omega]

theorem under_way_lt {w : World} (h : Ids w) : (∀ r ∈ w.toClient ++ w.open_, r.id < w.server.nextId) ∧ ∀ id ∈ answerIds w.toServer, id < w.server.nextId := by
  have key : ∀ id, id ∈ w.toClient.map (·.id) ++ w.open_.map (·.id) ++ answerIds w.toServer → id < w.server.nextId := by
    intro id hid
    obtain ⟨p, hp, rfl⟩ := List.mem_map.1 (h.perm.mem_iff.2 hid)
    exact h.below p hp
  refine ⟨fun r hr => key _ ?_, fun id hid => key _ (List.mem_append_right _ hid)⟩
  rw [← List.map_append]
  exact List.mem_append_left _ (List.mem_map_of_mem hr)

theorem kinds_send {w : World} (hi : Ids w) (hk : Kinds w) (ask : Option Section) (ha : ∀ sec, ask = some sec → sec = w.server.section_) :
    Kinds { w with toClient := w.toClient ++ [(w.server.sendRequest ask).2], server := (w.server.sendRequest ask).1 } := by
  intro r hr
  simp only [Server.sendRequest] at hr ⊢
  rw [List.append_assoc, List.mem_append, List.mem_append, List.mem_singleton] at hr
  have old : r ∈ w.toClient ++ w.open_ → List.lookup r.id ((w.server.nextId, ask.isSome) :: w.server.pending) = some r.ask.isSome ∧
      ∀ sec, r.ask = some sec → sec = w.server.section_ := by
    intro hr
    rw [lookup_new _ _ ((under_way_lt hi).1 r hr)]
    exact hk r hr
  rcases hr with hr | rfl | hr
  · exact old (List.mem_append_left _ hr)
  · refine ⟨by simp, ha⟩
  · exact old (List.mem_append_right _ hr)

theorem mem_eraseIdx_or {α : Type} {l : List α} {i : Nat} {x y : α} (h : l[i]? = some x) (hy : y ∈ l) : y = x ∨ y ∈ l.eraseIdx i :=
  List.mem_cons.1 ((eraseIdx_perm l i x h).mem_iff.1 hy)

/-- One step keeps the handlers right and the settings on their way. -/
theorem fresh_step {w w' : World} (hi : Ids w) (hk : Kinds w) (hp : w.server.pull = true) (a : Act)
    (hw : ∀ i r, a = .refuse i → w.open_[i]? = some r → r.ask = none) (hs : w.step a = some w') :
    Kinds w' ∧ w'.server.pull = true ∧ w'.server.amxx = w.server.amxx ∧ (Fresh w ∨ (∃ f, a = .change f) → Fresh w') := by
  have answerCase : ∀ (i : Nat) (r : Request) (x : Answer), w.open_[i]? = some r →
      (r.ask = none ∨ x = reply w.settings r.ask) →
      Kinds { w with open_ := w.open_.eraseIdx i, toServer := w.toServer ++ [.response r.id x] } ∧
      (Fresh w → Fresh { w with open_ := w.open_.eraseIdx i, toServer := w.toServer ++ [.response r.id x] }) := by
    intro i r x hr hx
    have hro : r ∈ w.open_ := List.mem_of_getElem? hr
    refine ⟨fun q hq => hk q ?_, fun hf => ?_⟩
    · rcases List.mem_append.1 hq with hq | hq
      · exact List.mem_append_left _ hq
      · exact List.mem_append_right _ (List.mem_of_mem_eraseIdx hq)
    · obtain ⟨h1, h2⟩ := hk r (List.mem_append_right _ hro)
      cases hask : r.ask with
      | some sec =>
        rw [hask] at h1 h2 hx
        rcases hx with hx | hx
        · cases hx
        · refine .inr (.inr fun hg => ?_)
          simp only [drain_append]
          rw [drain, h1, hx, drain]
          simp only [Option.isSome_some, if_true]
          obtain rfl := h2 sec rfl
          exact congrArg Prod.fst (update_given hg _)
      | none =>
        rw [hask] at h1
        rcases hf with ⟨f, hf⟩ | ⟨q, hq, hqa⟩ | hf
        · exact .inl ⟨f, List.mem_append_left _ hf⟩
        · refine .inr (.inl ⟨q, ?_, hqa⟩)
          rcases List.mem_append.1 hq with hq | hq
          · exact List.mem_append_left _ hq
          · rcases mem_eraseIdx_or hr hq with rfl | hq
            · rw [hask] at hqa; cases hqa
            · exact List.mem_append_right _ hq
        · refine .inr (.inr fun hg => ?_)
          simp only [drain_append]
          rw [drain, h1, drain]
          simpa using hf hg
  cases a with
  | change f =>
    cases hs
    exact ⟨hk, hp, rfl, fun _ => .inl ⟨f, by simp⟩⟩
  | receive =>
    simp only [World.step] at hs
    split at hs
    · cases hs
      exact ⟨hk, hp, rfl, fun h => h.elim id fun ⟨_, h⟩ => nomatch h⟩
    · next r rs hc =>
      cases hs
      have hmem : ∀ q, q ∈ rs ++ (w.open_ ++ [r]) ↔ q ∈ w.toClient ++ w.open_ := by
        intro q
        rw [hc]
        simp only [List.mem_append, List.mem_cons, List.not_mem_nil, or_false]
        constructor
        · rintro (h | h | h)
          · exact .inl (.inr h)
          · exact .inr h
          · exact .inl (.inl h)
        · rintro ((h | h) | h)
          · exact .inr (.inr h)
          · exact .inl h
          · exact .inr (.inl h)
      refine ⟨fun q hq => hk q ((hmem q).1 hq), hp, rfl, fun h => ?_⟩
      rcases h with h | ⟨f, h⟩
      · rcases h with h | ⟨q, hq, hqa⟩ | h
        · exact .inl h
        · exact .inr (.inl ⟨q, (hmem q).2 hq, hqa⟩)
        · exact .inr (.inr h)
      · cases h
  | answer i =>
    simp only [World.step] at hs
    split at hs
    · cases hs
      exact ⟨hk, hp, rfl, fun h => h.elim id fun ⟨_, h⟩ => nomatch h⟩
    · next r hr =>
      cases hs
      obtain ⟨h1, h2⟩ := answerCase i r _ hr (.inr rfl)
      exact ⟨h1, hp, rfl, fun h => h.elim h2 fun ⟨_, h⟩ => nomatch h⟩
  | refuse i =>
    simp only [World.step] at hs
    split at hs
    · cases hs
      exact ⟨hk, hp, rfl, fun h => h.elim id fun ⟨_, h⟩ => nomatch h⟩
    · next r hr =>
      cases hs
      obtain ⟨h1, h2⟩ := answerCase i r ⟨true, none⟩ hr (.inl (hw i r rfl hr))
      exact ⟨h1, hp, rfl, fun h => h.elim h2 fun ⟨_, h⟩ => nomatch h⟩
  | other =>
    cases hs
    refine ⟨kinds_send hi hk none (by simp), hp, rfl, fun h => ?_⟩
    rcases h with h | ⟨f, h⟩
    · rcases h with h | ⟨q, hq, hqa⟩ | h
      · exact .inl h
      · refine .inr (.inl ⟨q, ?_, hqa⟩)
        rcases List.mem_append.1 hq with hq | hq
        · exact List.mem_append_left _ (List.mem_append_left _ hq)
        · exact List.mem_append_right _ hq
      · refine .inr (.inr fun hg => ?_)
        simp only [Server.sendRequest]
        rw [drain_congr w.toServer (q := w.server.pending) fun id hid => lookup_new _ _ ((under_way_lt hi).2 id hid)]
        exact h hg
    · cases h
  | deliver =>
    simp only [World.step] at hs
    split at hs
    · cases hs
      exact ⟨hk, hp, rfl, fun h => h.elim id fun ⟨_, h⟩ => nomatch h⟩
    · next m ms hc =>
      cases m with
      | didChangeConfiguration g =>
        simp only [Server.handle, Server.didChangeConfiguration, Option.map_some, hp, if_true, Option.some.injEq] at hs
        subst hs
        have hi' : Ids { w with toServer := ms } := by
          refine ⟨?_, hi.nodup, hi.below⟩
          have := hi.perm
          rw [hc] at this
          exact this
        refine ⟨kinds_send hi' hk _ (fun sec h => by cases h; rfl), hp, rfl, fun _ => .inr (.inl ⟨(w.server.sendRequest (some w.server.section_)).2, by simp, rfl⟩)⟩
      | response id x =>
        have hperm := hi.perm
        rw [hc] at hperm
        have hmem : id ∈ w.server.pending.map (·.1) := hperm.mem_iff.2 (by simp [answerIds])
        obtain ⟨b, hb⟩ := lookup_isSome _ _ hmem
        have hnd := (hperm.trans List.perm_middle).nodup_iff.1 hi.nodup
        have hnot := (List.nodup_cons.1 hnd).1
        simp only [Server.handle, Server.completeRequest, hb, Option.map_some, List.append_nil, Option.some.injEq] at hs
        have key : ∀ sv : Server, sv.pending = (w.server.pending.filter fun p => decide (p.1 ≠ id)) → sv.section_ = w.server.section_ →
            sv.config = (if b = true then answered w.server.config x else w.server.config) →
            Kinds { w with toServer := ms, toClient := w.toClient, server := sv } ∧
            (Fresh w → Fresh { w with toServer := ms, toClient := w.toClient, server := sv }) := by
          intro sv h1 h2 h3
          refine ⟨fun q hq => ?_, fun hf => ?_⟩
          · simp only [h1, h2]
            rw [lookup_filter]
            · exact hk q hq
            · rintro rfl
              refine hnot (List.mem_append_left _ ?_)
              rw [← List.map_append]
              exact List.mem_map_of_mem hq
          · rcases hf with ⟨f, hf⟩ | hf | hf
            · rw [hc] at hf
              refine .inl ⟨f, ?_⟩
              rcases List.mem_cons.1 hf with h | h
              · cases h
              · exact h
            · exact .inr (.inl hf)
            · refine .inr (.inr fun hg => ?_)
              simp only [h2] at hg ⊢
              rw [h3, h1, drain_congr ms (q := w.server.pending)]
              · have := hf hg
                rw [hc, drain, hb] at this
                rw [← this]
                cases b <;> rfl
              · intro k hk'
                refine lookup_filter _ _ _ ?_
                rintro rfl
                exact hnot (List.mem_append_right _ hk')
        subst hs
        cases b
        · obtain ⟨h1, h2⟩ := key { w.server with pending := w.server.pending.filter fun p => decide (p.1 ≠ id) } rfl rfl rfl
          exact ⟨h1, hp, rfl, fun h => h.elim h2 fun ⟨_, h⟩ => nomatch h⟩
        · obtain ⟨h1, h2⟩ := key { w.server with pending := w.server.pending.filter fun p => decide (p.1 ≠ id), config := answered w.server.config x } rfl rfl rfl
          exact ⟨h1, hp, rfl, fun h => h.elim h2 fun ⟨_, h⟩ => nomatch h⟩

theorem fresh_run (as : List Act) : ∀ {w w' : World}, Ids w → Kinds w → w.server.pull = true → Willing w as → (Fresh w ∨ ∃ f, Act.change f ∈ as) →
    w.run as = some w' → Fresh w' ∧ w'.server.amxx = w.server.amxx := by
  induction as with
  | nil =>
    intro w w' _ _ _ _ hf h
    cases h
    rcases hf with hf | ⟨f, hf⟩
    · exact ⟨hf, rfl⟩
    · cases hf
  | cons a as ih =>
    intro w w' hi hk hp hw hf h
    obtain ⟨w₁, h1, hi₁⟩ := ids_step hi a
    rw [World.run, h1] at h
    obtain ⟨h2, h3, h4, h5⟩ := fresh_step hi hk hp a hw.1 h1
    obtain ⟨h6, h7⟩ := ih hi₁ h2 h3 (hw.2 w₁ h1) (by
      rcases hf with hf | ⟨f, hf⟩
      · exact .inl (h5 (.inl hf))
      · rcases List.mem_cons.1 hf with hf | hf
        · exact .inl (h5 (.inr ⟨f, hf.symm⟩))
        · exact .inr ⟨f, hf⟩) h
    exact ⟨h6, h7.trans h4⟩

/-- **C93.** A client that can be asked changes its settings at any moments, answers questions for them, and other requests, in any order and at any time.
Whenever nothing is under way, the settings in effect are those the client has. Missing: settings `null` and `{}` (C74); a client that has to push its
settings (`push_refuted`); in AMXX mode, the time before the first change (`first_refuted`). -/
theorem settings_arrive_partial (amxx : Bool) (options : Option Json) (f : Section → Json) (early : List (Section → Json)) (as : List Act) (w : World)
    (hr : (World.init true amxx options f early).run as = some w) (hw : Willing (World.init true amxx options f early) as)
    (ha : amxx = false ∨ early ≠ [] ∨ ∃ g, Act.change g ∈ as) (hs : Settled w)
    (hg : Given (w.settings (if amxx then .amxxPawn else .sourcePawn))) :
    Means (w.settings (if amxx then .amxxPawn else .sourcePawn)) w.server.config.data := by
  have h0 : Fresh (World.init true amxx options f early) ∨ ∃ g, Act.change g ∈ as := by
    rcases ha with rfl | ha | ha
    · refine .inl ?_
      cases early with
      | cons g _ => exact .inl ⟨g, by simp [World.init]⟩
      | nil =>
        refine .inr (.inr fun hg => ?_)
        simp only [World.init, boot, Server.section_, List.map_nil, drain, start, if_true] at hg ⊢
        exact congrArg Prod.fst (update_given hg _)
    · cases early with
      | nil => exact absurd rfl ha
      | cons g _ => exact .inl (.inl ⟨g, by simp [World.init]⟩)
    · exact .inr ha
  obtain ⟨h1, h2⟩ := fresh_run as (ids_init _ _ _ _ _) (by intro r hr; simp [World.init] at hr) rfl hw h0 hr
  have hsec : w.server.section_ = if amxx then .amxxPawn else .sourcePawn := by
    rw [Server.section_, h2]; rfl
  obtain ⟨hs1, hs2, hs3⟩ := hs
  rcases h1 with ⟨g, h⟩ | ⟨r, h, _⟩ | h
  · rw [hs1] at h; cases h
  · rw [hs2, hs3] at h; cases h
  · rw [hsec, hs1, drain] at h
    rw [h hg]
    exact settings_read _

/-! ### Everything under way is handled -/

/-- How many steps a message still needs. -/
def cost : Msg → Nat
  | .didChangeConfiguration _ => 4
  | .response _ _ => 1

def left (w : World) : Nat := (w.toServer.map cost).sum + 3 * w.toClient.length + 2 * w.open_.length

theorem handle_next {w : World} (h : Ids w) (hs : ¬ Settled w) : ∃ a w', Handling a ∧ w.step a = some w' ∧ left w' < left w := by
  by_cases h1 : w.toServer = []
  · by_cases h2 : w.toClient = []
    · cases h3 : w.open_ with
      | nil => exact absurd ⟨h1, h2, h3⟩ hs
      | cons r rs =>
        refine ⟨.answer 0, { w with open_ := rs, toServer := w.toServer ++ [.response r.id (reply w.settings r.ask)] }, trivial, ?_, ?_⟩
        · simp only [World.step, h3]; rfl
        · simp only [left, h1, h2, h3, List.nil_append, List.map_cons, List.map_nil, cost, List.sum_cons, List.sum_nil, List.length_cons, List.length_nil]
          omega
    · cases h3 : w.toClient with
      | nil => exact absurd h3 h2
      | cons r rs =>
        refine ⟨.receive, { w with open_ := w.open_ ++ [r], toClient := rs }, trivial, ?_, ?_⟩
        · simp only [World.step, h3]
        · simp only [left, h3, List.length_append, List.length_cons, List.length_nil]
          omega
  · obtain ⟨w', h4, -⟩ := ids_step h .deliver
    refine ⟨.deliver, w', trivial, h4, ?_⟩
    cases h3 : w.toServer with
    | nil => exact absurd h3 h1
    | cons m ms =>
      simp only [World.step, h3] at h4
      cases m with
      | didChangeConfiguration f =>
        simp only [Server.handle, Server.didChangeConfiguration, Option.map_some, Option.some.injEq] at h4
        subst h4
        simp only [left, h3, List.map_cons, cost, List.sum_cons, List.length_append]
        split <;> simp only [List.length_cons, List.length_nil] <;> omega
      | response id x =>
        simp only [Server.handle, Option.map_map] at h4
        obtain ⟨sv, -, rfl⟩ := Option.map_eq_some_iff.1 h4
        simp only [left, h3, List.map_cons, cost, List.sum_cons, List.length_append, Function.comp, List.length_nil]
        omega

/-- **C93, everything is handled.** After any history, once the client stops changing its settings and the messages under way are handled and questions
answered, nothing is under way any more. -/
theorem settles (pull amxx : Bool) (options : Option Json) (f : Section → Json) (early : List (Section → Json)) (as : List Act) :
    ∃ bs w, (∀ b ∈ bs, Handling b) ∧ (World.init pull amxx options f early).run (as ++ bs) = some w ∧ Settled w := by
  have run_append : ∀ (a b : List Act) (w : World), w.run (a ++ b) = (w.run a).bind fun w => w.run b := by
    intro a
    induction a with
    | nil => intro b w; rfl
    | cons x a ih =>
      intro b w
      rw [List.cons_append, World.run, World.run]
      cases w.step x with
      | none => rfl
      | some w₁ => exact ih b w₁
  obtain ⟨w₀, h0, hi0⟩ := ids_run (ids_init pull amxx options f early) as
  suffices ∀ n (w : World), left w ≤ n → Ids w → ∃ bs w', (∀ b ∈ bs, Handling b) ∧ w.run bs = some w' ∧ Settled w' by
    obtain ⟨bs, w', h1, h2, h3⟩ := this _ w₀ (Nat.le_refl _) hi0
    exact ⟨bs, w', h1, by rw [run_append, h0]; exact h2, h3⟩
  intro n
  induction n with
  | zero =>
    intro w hn hi
    by_cases hs : Settled w
    · exact ⟨[], w, by simp, rfl, hs⟩
    · obtain ⟨a, w', _, _, h⟩ := handle_next hi hs
      omega
  | succ n ih =>
    intro w hn hi
    by_cases hs : Settled w
    · exact ⟨[], w, by simp, rfl, hs⟩
    · obtain ⟨a, w₁, h1, h2, h3⟩ := handle_next hi hs
      obtain ⟨w₂, h4, hi'⟩ := ids_step hi a
      rw [h2] at h4; cases h4
      obtain ⟨bs, w', h5, h6, h7⟩ := ih w₁ (by omega) hi'
      refine ⟨a :: bs, w', ?_, by rw [World.run, h2]; exact h6, h7⟩
      intro b hb
      rcases List.mem_cons.1 hb with rfl | hb
      · exact h1
      · exact h5 b hb

/-! ### An example, and where it fails -/

/-- The same settings in both sections. -/
def both (j : Json) : Section → Json := fun _ => j

theorem willing_step {w w' : World} {a : Act} {as : List Act} (h : ∀ i, a ≠ .refuse i) (hs : w.step a = some w') (hw : Willing w' as) : Willing w (a :: as) :=
  ⟨fun i _ e => absurd e (h i), fun _ h' => by rw [hs] at h'; cases h'; exact hw⟩

theorem willing_refuse {w w' : World} {i : Nat} {r : Request} {as : List Act} (hr : w.open_[i]? = some r) (ha : r.ask = none)
    (hs : w.step (.refuse i) = some w') (hw : Willing w' as) : Willing w (.refuse i :: as) :=
  ⟨fun _ _ e h => by cases e; rw [hr] at h; cases h; exact ha, fun _ h' => by rw [hs] at h'; cases h'; exact hw⟩

/-- Two changes in quick succession while the server shows progress; the questions are answered in the other order, the second change comes between the
answers, and the progress request is refused. -/
def sampleActs : List Act :=
  [.other, .change (both (Config.path "/one")), .deliver, .receive, .change (both (Config.path "/two")), .deliver, .receive, .receive, .answer 2, .answer 1,
    .refuse 0, .deliver, .deliver, .deliver]

example : ∃ w, (World.init true false none (both .null) []).run sampleActs = some w ∧ Willing (World.init true false none (both .null) []) sampleActs ∧ Settled w ∧ Given (w.settings .sourcePawn) ∧
    w.server.config.data.compilerPath = some "/two".toList := by
  refine ⟨_, rfl, ?_, ⟨rfl, rfl, rfl⟩, ⟨by simp [both, Config.path], by simp [both, Config.path]⟩, ?_⟩
  · unfold sampleActs
    repeat
      first
      | exact trivial
      | refine willing_refuse rfl rfl rfl ?_
      | refine willing_step (by intro i h; cases h) rfl ?_
  · decide +kernel

theorem maybe_text {t : Str} {v : Option Str} (h : Maybe Text (.str t) v) : v = some t := by
  cases h with
  | some h => cases h; rfl

theorem path_means {p : String} {d : Data} (h : Means (Config.path p) d) : d.compilerPath = some p.toList := by
  rcases h.path with ⟨j, h1, h2⟩ | ⟨h1, -⟩
  · cases h1 with
    | inside e1 e2 =>
      cases e1 with
      | here =>
        cases e2 with
        | inside e3 e4 =>
          cases e3 with
          | here =>
            cases e4
            exact maybe_text h2
          | there h _ => exact absurd rfl h
      | there h _ => exact absurd rfl h
  · exact absurd (.some (.mk _)) (h1 _ (some p.toList) (.inside .here (.inside .here .here)))

/-- **C93 is violated** for a client that cannot be asked and pushes its settings: whatever it sends, the settings stay as they were at start-up. -/
theorem push_refuted (amxx : Bool) (options : Option Json) (f : Section → Json) :
    ∃ as w, (World.init false amxx options f []).run as = some w ∧ Settled w ∧ (∀ sec, Given (w.settings sec)) ∧
      ∀ sec, ¬ Means (w.settings sec) w.server.config.data := by
  let d := (start options none).1.data
  have pick : ∃ p : String, d.compilerPath ≠ some p.toList := by
    by_cases h : d.compilerPath = some "/one".toList
    · exact ⟨"/two", by rw [h]; decide⟩
    · exact ⟨"/one", h⟩
  obtain ⟨p, hp⟩ := pick
  refine ⟨[.change (both (Config.path p)), .deliver], _, rfl, ⟨rfl, rfl, rfl⟩, fun sec => ⟨by simp [both, Config.path], by simp [both, Config.path]⟩, fun sec hm => ?_⟩
  exact hp (path_means hm)

/-- **C93 is violated** in AMXX mode until the first change: the server starts with the settings for SourcePawn. -/
theorem first_refuted : ∃ f : Section → Json, Settled (World.init true true none f []) ∧ Given (f .amxxPawn) ∧
    ¬ Means (f .amxxPawn) (World.init true true none f []).server.config.data := by
  refine ⟨fun | .sourcePawn => Config.path "/one" | .amxxPawn => Config.path "/two", ⟨rfl, rfl, rfl⟩, ⟨by simp [Config.path], by simp [Config.path]⟩, fun hm => ?_⟩
  have := path_means hm
  revert this
  decide +kernel

end Verif.Props.Settings
