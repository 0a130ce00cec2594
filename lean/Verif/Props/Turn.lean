import Verif.Props.Loading
/-!
# C106: what a turn starts when loading is over or a file changes

The states reached by `Lsp/Loading`. The specification is in the statements: `refreshes` and `indexings` count what the client and the thread pool are sent.
-/

namespace Verif.Props.Turn
open Verif.Lsp.Loading
open Verif.Vfs (Bytes)
open Verif.Lsp.OpQueue (Queue)

variable {P : Type} [DecidableEq P]

/-- Requests to the client to fetch semantic tokens again. -/
def refreshes (l : List (Out P)) : Nat := l.countP fun o => match o with | .refreshTokens => true | _ => false

/-- Indexing jobs started. -/
def indexings (l : List (Out P)) : Nat := l.countP fun o => match o with | .prime => true | _ => false

/-- The action is a turn in which the end of an indexing job is handled. -/
def ends (s : Sys P) : Act P → Bool
  | .turnPrimed _ => s.main.running && s.main.primeQueue.inProgress
  | _ => false

/-- The action is a turn in which the end of a cancelled indexing job is handled. -/
def cancelled (s : Sys P) : Act P → Bool
  | .turnPrimed c => s.main.running && s.main.primeQueue.inProgress && c
  | _ => false

/-- The occasions for indexing in a history: steps in which the server becomes quiescent and indexing is wanted, and ends of cancelled jobs. -/
def occasions (s : Sys P) : List (Act P) → Nat
  | [] => 0
  | a :: as => (s.step a).elim 0 fun s' =>
      (!s.main.isQuiescent && s'.main.isQuiescent && s'.main.prefill).toNat + (cancelled s a).toNat + occasions s' as

/-- Indexing jobs whose end is handled in a history. -/
def ended (s : Sys P) : List (Act P) → Nat
  | [] => 0
  | a :: as => (ends s a).toNat + ((s.step a).elim 0 fun s => ended s as)

/-! ### The end of a turn -/

theorem update_counts (m : Main P) : refreshes m.updateStatus.out = refreshes m.out ∧ indexings m.updateStatus.out = indexings m.out ∧
    m.updateStatus.primeQueue = m.primeQueue ∧ m.updateStatus.refresh = m.refresh ∧ m.updateStatus.prefill = m.prefill := by
  unfold Main.updateStatus
  split <;> simp [refreshes, indexings, List.countP_append, List.countP_cons]

theorem start_counts (m : Main P) : refreshes m.startPriming.out = refreshes m.out ∧
    indexings m.startPriming.out + m.primeQueue.inProgress.toNat = indexings m.out + m.startPriming.primeQueue.inProgress.toNat ∧
    (m.primeQueue.inProgress = true ∨ m.primeQueue.requested.isSome = true → m.startPriming.primeQueue.inProgress = true) ∧
    indexings m.startPriming.out + m.startPriming.primeQueue.requested.isSome.toNat = indexings m.out + m.primeQueue.requested.isSome.toNat ∧
    m.startPriming.refresh = m.refresh ∧ m.startPriming.prefill = m.prefill := by
  obtain ⟨q, h⟩ : ∃ q, m.primeQueue = q := ⟨_, rfl⟩
  obtain ⟨r, b⟩ := q
  cases b <;> cases r <;> simp [Main.startPriming, Queue.shouldStartOp, h, refreshes, indexings, List.countP_append, List.countP_cons]

theorem quiet_counts (m : Main P) (w c d : Bool) :
    refreshes (m.whenQuiescent w c d).out = refreshes m.out + (if (!w || c) && m.refresh then 1 else 0) ∧
    indexings (m.whenQuiescent w c d).out = indexings m.out ∧
    (m.whenQuiescent w c d).primeQueue.inProgress = m.primeQueue.inProgress ∧
    (w = false → m.prefill = true → (m.whenQuiescent w c d).primeQueue.requested.isSome = true) ∧
    (m.whenQuiescent w c d).primeQueue.requested.isSome.toNat ≤ m.primeQueue.requested.isSome.toNat + (!w && m.prefill).toNat ∧
    (m.whenQuiescent w c d).refresh = m.refresh ∧ (m.whenQuiescent w c d).prefill = m.prefill := by
  cases w <;> cases c <;> cases d <;> cases hp : m.prefill <;> cases hr : m.refresh <;>
    simp [Main.whenQuiescent, hp, hr, refreshes, indexings, Queue.requestOp, List.countP_append, List.countP_cons]

theorem end_counts (m : Main P) (w : Bool) :
    refreshes (m.endTurn w).out = refreshes m.out + (if m.isQuiescent && (!w || !m.vfs.pending.isEmpty) && m.refresh then 1 else 0) ∧
    indexings (m.endTurn w).out + m.primeQueue.inProgress.toNat = indexings m.out + (m.endTurn w).primeQueue.inProgress.toNat ∧
    (m.isQuiescent = true → w = false → m.prefill = true → (m.endTurn w).primeQueue.inProgress = true) ∧
    indexings (m.endTurn w).out + (m.endTurn w).primeQueue.requested.isSome.toNat ≤
      indexings m.out + m.primeQueue.requested.isSome.toNat + (m.isQuiescent && !w && m.prefill).toNat ∧
    (m.endTurn w).refresh = m.refresh ∧ (m.endTurn w).prefill = m.prefill := by
  obtain ⟨k, hk⟩ : ∃ k, k = (if m.takeChanges.isQuiescent then
      m.takeChanges.whenQuiescent w (!m.vfs.pending.isEmpty) m.docsChanged else m.takeChanges) := ⟨_, rfl⟩
  have he : m.endTurn w = k.startPriming.updateStatus := by simp only [Main.endTurn]; rw [hk]
  have hq : m.takeChanges.isQuiescent = m.isQuiescent := rfl
  rw [hq] at hk
  obtain ⟨u1, u2, u3, u4, u5⟩ := update_counts k.startPriming
  obtain ⟨p1, p2, p3, pr, p4, p5⟩ := start_counts k
  obtain ⟨q1, q2, q3, q4, qr, q5, q6⟩ := quiet_counts m.takeChanges w (!m.vfs.pending.isEmpty) m.docsChanged
  rw [he, u1, u2, u3, u4, u5, p1, p4, p5]
  cases hb : m.isQuiescent with
  | true =>
    rw [hb, if_pos rfl] at hk
    subst hk
    rw [q1, q5, q6]
    rw [q2, q3] at p2
    rw [q2] at pr
    refine ⟨by simp [Main.takeChanges], p2, fun _ h1 h2 => p3 (.inr (q4 h1 h2)), ?_, rfl, rfl⟩
    rw [pr, Bool.true_and]
    have : m.takeChanges.primeQueue = m.primeQueue ∧ m.takeChanges.out = m.out ∧ m.takeChanges.prefill = m.prefill := ⟨rfl, rfl, rfl⟩
    rw [this.1, this.2.2] at qr
    rw [this.2.1]
    omega
  | false =>
    rw [hb, if_neg (by simp)] at hk
    subst hk
    exact ⟨by simp [Main.takeChanges], p2, fun h => by simp at h, by rw [pr]; simp [Main.takeChanges], rfl, rfl⟩

/-! ### What comes before the end of a turn -/

/-- Handling leaves the queue and the counts alone, and whatever changes the contents of a file is left to be taken. -/
structure Handled (m m' : Main P) : Prop where
  refreshes : refreshes m'.out = refreshes m.out
  indexings : indexings m'.out = indexings m.out
  refresh : m'.refresh = m.refresh
  status : m'.lastStatus = m.lastStatus
  pending : m.vfs.pending.isEmpty = false → m'.vfs.pending.isEmpty = false
  changed : m'.vfs.content ≠ m.vfs.content → m'.vfs.pending.isEmpty = false

theorem Handled.refl (m : Main P) : Handled m m := ⟨rfl, rfl, rfl, rfl, id, fun h => absurd rfl h⟩

theorem Handled.trans {a b c : Main P} (h : Handled a b) (h' : Handled b c) : Handled a c where
  refreshes := h'.refreshes.trans h.refreshes
  indexings := h'.indexings.trans h.indexings
  refresh := h'.refresh.trans h.refresh
  status := h'.status.trans h.status
  pending := fun x => h'.pending (h.pending x)
  changed := fun x => by
    by_cases e : b.vfs.content = a.vfs.content
    · exact h'.changed (e ▸ x)
    · exact h'.pending (h.changed e)

theorem handled_set (m m' : Main P) (p : P) (c : Option Bytes) (ho : m'.out = m.out) (hr : m'.refresh = m.refresh)
    (hl : m'.lastStatus = m.lastStatus) (hv : m'.vfs = (m.vfs.step (.set p c)).1) : Handled m m' := by
  refine ⟨by rw [ho], by rw [ho], hr, hl, fun h => ?_, fun h => ?_⟩
  · rw [hv, Vfs.Spec.State.step]
    split
    · exact h
    · simp
  · rw [hv, Vfs.Spec.State.step] at h
    rw [hv, Vfs.Spec.State.step]
    split
    · rename_i e; rw [if_pos e] at h; exact absurd rfl h
    · simp

theorem handled_loaded (fs : Files P) : ∀ m : Main P, Handled m (m.loaded fs) ∧ (m.loaded fs).primeQueue = m.primeQueue := by
  induction fs with
  | nil => intro m; exact ⟨.refl m, rfl⟩
  | cons f fs ih =>
    intro m
    obtain ⟨q, c⟩ := f
    simp only [Main.loaded]
    split
    · exact ih m
    · obtain ⟨h1, h2⟩ := ih { m with vfs := (m.vfs.step (.set q c)).1 }
      have h0 : Handled m { m with vfs := (m.vfs.step (.set q c)).1 } := handled_set m _ q c rfl rfl rfl rfl
      exact ⟨h0.trans h1, h2⟩

theorem handled_msg (m m' : Main P) (x : Msg P) (h : m.vfsMsg x = some m') : Handled m m' ∧ m'.primeQueue = m.primeQueue := by
  cases x with
  | loaded fs => cases h; exact handled_loaded fs m
  | progress t d v =>
    simp only [Main.vfsMsg] at h
    split at h
    · split at h
      · split at h
        · cases h
          exact ⟨⟨by simp [Turn.refreshes, List.countP_append], by simp [Turn.indexings, List.countP_append], rfl, rfl, id, fun h => absurd rfl h⟩, rfl⟩
        · cases h
      · split at h
        · cases h
          exact ⟨⟨by simp [Turn.refreshes, List.countP_append], by simp [Turn.indexings, List.countP_append], rfl, rfl, id, fun h => absurd rfl h⟩, rfl⟩
        · split at h
          · cases h
            exact ⟨⟨by simp [Turn.refreshes, List.countP_append], by simp [Turn.indexings, List.countP_append], rfl, rfl, id, fun h => absurd rfl h⟩, rfl⟩
          · cases h
    · cases h

theorem handled_msgs (xs : List (Msg P)) : ∀ m m' : Main P, m.vfsMsgs xs = some m' → Handled m m' ∧ m'.primeQueue = m.primeQueue := by
  induction xs with
  | nil => intro m m' h; cases h; exact ⟨.refl m, rfl⟩
  | cons x xs ih =>
    intro m m' h
    simp only [Main.vfsMsgs, Option.bind_eq_some_iff] at h
    obtain ⟨k, h1, h2⟩ := h
    obtain ⟨a1, a2⟩ := handled_msg m k x h1
    obtain ⟨b1, b2⟩ := ih k m' h2
    exact ⟨a1.trans b1, b2.trans a2⟩

theorem handled_client (m : Main P) (c : ClientMsg P) : Handled m (m.clientMsg c).1 ∧ (m.clientMsg c).1.primeQueue = m.primeQueue := by
  cases c with
  | didOpen p t => exact ⟨handled_set m _ p (some t) rfl rfl rfl rfl, rfl⟩
  | didChange p t =>
    simp only [Main.clientMsg]
    split
    · exact ⟨handled_set m _ p (some t) rfl rfl rfl rfl, rfl⟩
    · exact ⟨.refl m, rfl⟩
  | didClose p => exact ⟨⟨rfl, rfl, rfl, rfl, id, fun h => absurd rfl h⟩, rfl⟩
  | watched ps => exact ⟨.refl m, rfl⟩
  | configuration ch n bad pf =>
    simp only [Main.clientMsg]
    split <;> exact ⟨⟨rfl, rfl, rfl, rfl, id, fun h => absurd rfl h⟩, rfl⟩
  | other => exact ⟨.refl m, rfl⟩

theorem client_version (m : Main P) (c : ClientMsg P) : (m.clientMsg c).1.progressVersion = m.progressVersion ∧ m.configVersion ≤ (m.clientMsg c).1.configVersion := by
  cases c with
  | didChange p t => simp only [Main.clientMsg]; split <;> simp
  | configuration ch n bad pf => simp only [Main.clientMsg]; split <;> simp
  | _ => exact ⟨rfl, Nat.le_refl _⟩

/-! ### Steps -/

/-- Every action either leaves the main loop alone, or is the initial status, or is a turn: something is handled and the turn ends. -/
theorem step_turn {s s' : Sys P} {a : Act P} (h : s.step a = some s') :
    (s'.main = s.main ∧ ends s a = false) ∨ (s.main.running = false ∧ s'.main = { s.main.updateStatus with running := true } ∧ ends s a = false) ∨
    ∃ m : Main P, Handled s.main m ∧ s'.main = m.endTurn s.main.isQuiescent ∧
      (s.main.running = true ∨ (m.progressVersion = s.main.progressVersion ∧ s.main.configVersion ≤ m.configVersion)) ∧
      ((m.primeQueue = s.main.primeQueue ∧ ends s a = false) ∨
        (ends s a = true ∧ s.main.primeQueue.inProgress = true ∧ m.primeQueue.inProgress = false ∧
          m.primeQueue.requested.isSome.toNat ≤ s.main.primeQueue.requested.isSome.toNat + (cancelled s a).toNat)) := by
  cases a with
  | write p c => cases h; exact .inl ⟨rfl, rfl⟩
  | report p => cases h; exact .inl ⟨rfl, rfl⟩
  | send m => cases h; exact .inl ⟨rfl, rfl⟩
  | actorTake => simp only [Sys.step] at h; split at h <;> cases h <;> exact .inl ⟨rfl, rfl⟩
  | actorWatch => simp only [Sys.step] at h; split at h <;> cases h <;> exact .inl ⟨rfl, rfl⟩
  | actorRead p => simp only [Sys.step] at h; split at h <;> cases h <;> exact .inl ⟨rfl, rfl⟩
  | actorSend => simp only [Sys.step] at h; split at h <;> cases h <;> exact .inl ⟨rfl, rfl⟩
  | start =>
    simp only [Sys.step] at h
    split at h <;> cases h
    · exact .inl ⟨rfl, rfl⟩
    · rename_i hr
      exact .inr (.inl ⟨by simpa using hr, rfl, rfl⟩)
  | turnClient =>
    simp only [Sys.step] at h
    split at h
    · cases h; exact .inl ⟨rfl, rfl⟩
    · rename_i c rest _
      cases h
      obtain ⟨h1, h2⟩ := handled_client s.main c
      exact .inr (.inr ⟨_, h1, rfl, .inr (client_version s.main c), .inl ⟨h2, rfl⟩⟩)
  | turnLoader k =>
    simp only [Sys.step] at h
    split at h
    · rename_i hr
      simp only [Option.map_eq_some_iff] at h
      obtain ⟨m, h1, h2⟩ := h
      cases h2
      obtain ⟨h3, h4⟩ := handled_msgs _ _ _ h1
      exact .inr (.inr ⟨m, h3, rfl, .inl hr.1, .inl ⟨h4, rfl⟩⟩)
    · cases h; exact .inl ⟨rfl, rfl⟩
  | turnPrimed c =>
    simp only [Sys.step] at h
    split at h
    · rename_i hr
      simp only [Option.map_eq_some_iff] at h
      obtain ⟨q, h1, h2⟩ := h
      cases h2
      refine .inr (.inr ⟨{ s.main with primeQueue := if c then q.requestOp () else q }, ⟨rfl, rfl, rfl, rfl, id, fun h => absurd rfl h⟩, rfl, .inl hr.1, .inr ⟨by simp [ends, hr.1, hr.2], hr.2, ?_, ?_⟩⟩)
      · simp only [Queue.opCompleted, hr.2, if_true, Option.some.injEq] at h1
        subst h1
        cases c <;> rfl
      · simp only [Queue.opCompleted, hr.2, if_true, Option.some.injEq] at h1
        subst h1
        cases c <;> simp [cancelled, hr.1, hr.2, Queue.requestOp]
    · rename_i hr
      cases h
      exact .inl ⟨rfl, by simpa [ends] using hr⟩
  | turnOther =>
    simp only [Sys.step] at h
    split at h <;> cases h
    · rename_i hr
      exact .inr (.inr ⟨_, .refl _, rfl, .inl hr, .inl ⟨rfl, rfl⟩⟩)
    · exact .inl ⟨rfl, rfl⟩

theorem step_accounts {s s' : Sys P} {a : Act P} (h : s.step a = some s') : s'.main.refresh = s.main.refresh ∧
    indexings s'.main.out + s.main.primeQueue.inProgress.toNat =
      indexings s.main.out + (ends s a).toNat + s'.main.primeQueue.inProgress.toNat := by
  rcases step_turn h with ⟨hm, he⟩ | ⟨-, hm, he⟩ | ⟨m, m1, m2, -, m3⟩
  · rw [hm, he]; exact ⟨rfl, by simp⟩
  · obtain ⟨-, u2, u3, u4, -⟩ := update_counts s.main
    rw [hm, he]
    refine ⟨u4, ?_⟩
    simp only [u2, u3]
    simp
  · obtain ⟨-, e2, -, -, e4, -⟩ := end_counts m s.main.isQuiescent
    have hx := m1.indexings
    rw [m2]
    refine ⟨by rw [e4, m1.refresh], ?_⟩
    rcases m3 with ⟨m3, m4⟩ | ⟨m3, m4, m5, -⟩
    · rw [m3] at e2; rw [m4]; simp; omega
    · rw [m5] at e2; rw [m3, m4]; simp at e2 ⊢; omega

theorem run_accounts (as : List (Act P)) : ∀ s s' : Sys P, s.run as = some s' → s'.main.refresh = s.main.refresh ∧
    indexings s'.main.out + s.main.primeQueue.inProgress.toNat =
      indexings s.main.out + ended s as + s'.main.primeQueue.inProgress.toNat := by
  induction as with
  | nil => intro s s' h; cases h; exact ⟨rfl, by simp [ended]⟩
  | cons a as ih =>
    intro s s' h
    simp only [Sys.run, Option.bind_eq_some_iff] at h
    obtain ⟨k, h1, h2⟩ := h
    obtain ⟨i1, i2⟩ := ih k s' h2
    obtain ⟨j1, j2⟩ := step_accounts h1
    refine ⟨i1.trans j1, ?_⟩
    simp only [ended, h1, Option.elim_some]
    omega

/-- A server quiescent after a turn was so when the event had been handled. -/
theorem quiescent_before {s s' : Sys P} {z : Loading.T} (hi : Loading.Inv s z) {m : Main P} (m1 : Handled s.main m)
    (m2 : s'.main = m.endTurn s.main.isQuiescent)
    (m3 : s.main.running = true ∨ (m.progressVersion = s.main.progressVersion ∧ s.main.configVersion ≤ m.configVersion))
    (hq : s'.main.isQuiescent = true) : m.isQuiescent = true := by
  have h0 : m.lastStatus = none → Loading.Main.ready m = false := by
    intro hn
    rw [m1.status] at hn
    rcases m3 with m3 | ⟨m3, m4⟩
    · exact absurd hn (hi.runs m3)
    · cases hr : s.main.running with
      | true => exact absurd hn (hi.runs hr)
      | false =>
        have h1 := hi.idle hr
        have h2 := hi.cv
        simp only [Loading.triple, Loading.T.mk.injEq] at h1
        simp only [Loading.Main.ready, m3, h1.1]
        simp
        omega
  obtain ⟨e1, -⟩ := Loading.endTurn_spec m s.main.isQuiescent h0
  rw [m2, Loading.quiescent_eq, Loading.ready_same e1] at hq
  simp only [Bool.and_eq_true] at hq
  rw [Loading.quiescent_eq]
  cases hl : m.lastStatus with
  | none => rw [h0 hl] at hq; cases hq.2
  | some x => simp [hq.2]

/-- The initial status does not make the server quiescent. -/
theorem start_busy {s : Sys P} {z : Loading.T} (hi : Loading.Inv s z) (hr : s.main.running = false) :
    ({ s.main.updateStatus with running := true } : Main P).isQuiescent = false := by
  have h1 := hi.idle hr
  have h2 := hi.cv
  obtain ⟨-, u1, u2, -⟩ := (Loading.updateStatus_spec s.main).1
  simp only [Loading.triple, Loading.T.mk.injEq] at h1
  simp only [Main.isQuiescent, u1, u2, h1.1]
  simp
  omega

/-- **C106, the client is told to fetch tokens again.** Take any step after any history, for a client that can be told. If the server is quiescent after the
step, and before it was not quiescent or the contents of some file were other ones, then in this step the client is asked to fetch its semantic tokens
again, once. -/
theorem tokens_again (disk : P → Option Bytes) (n : Nat) (pf : Bool) (as : List (Act P)) (a : Act P) (s s' : Sys P)
    (h : (Sys.init disk n pf true).run as = some s) (hs : s.step a = some s') (hq : s'.main.isQuiescent = true)
    (hc : s.main.isQuiescent = false ∨ ∃ p, s'.main.vfs.content p ≠ s.main.vfs.content p) :
    refreshes s'.main.out = refreshes s.main.out + 1 := by
  obtain ⟨i1, -⟩ := run_accounts as _ s h
  obtain ⟨z, hi, -⟩ := Loading.reached h
  rcases step_turn hs with ⟨hm, -⟩ | ⟨hr, hm, -⟩ | ⟨m, m1, m2, m3, -⟩
  · rw [hm] at hq hc
    rcases hc with hc | ⟨p, hc⟩
    · rw [hq] at hc; cases hc
    · exact absurd rfl hc
  · rw [hm, start_busy hi hr] at hq; cases hq
  · have hb := quiescent_before hi m1 m2 m3 hq
    obtain ⟨e1, -⟩ := end_counts m s.main.isQuiescent
    have hrf : m.refresh = true := by rw [m1.refresh, i1]; rfl
    have hch : (!s.main.isQuiescent || !m.vfs.pending.isEmpty) = true := by
      rcases hc with hc | ⟨p, hc⟩
      · simp [hc]
      · rw [m2, (Loading.endTurn_vfs m s.main.isQuiescent).1] at hc
        have := m1.changed fun e => hc (by rw [e])
        simp [this]
    rw [m2, e1, hb, hch, hrf, m1.refreshes]
    simp

/-- **C106, clients that cannot be told are not told.** -/
theorem tokens_never (disk : P → Option Bytes) (n : Nat) (pf : Bool) (as : List (Act P)) (s : Sys P)
    (h : (Sys.init disk n pf false).run as = some s) : refreshes s.main.out = 0 := by
  suffices H : ∀ (as : List (Act P)) (s s' : Sys P), s.main.refresh = false → refreshes s.main.out = 0 → s.run as = some s' → refreshes s'.main.out = 0 from
    H as _ s rfl rfl h
  intro as
  induction as with
  | nil => intro s s' _ h0 h; cases h; exact h0
  | cons a as ih =>
    intro s s' hr h0 h
    simp only [Sys.run, Option.bind_eq_some_iff] at h
    obtain ⟨k, h1, h2⟩ := h
    refine ih k s' ((step_accounts h1).1.trans hr) ?_ h2
    rcases step_turn h1 with ⟨hm, -⟩ | ⟨-, hm, -⟩ | ⟨m, m1, m2, -⟩
    · rw [hm]; exact h0
    · rw [hm]; simpa [(update_counts s.main).1] using h0
    · obtain ⟨e1, -⟩ := end_counts m s.main.isQuiescent
      rw [m2, e1, m1.refreshes, h0, m1.refresh, hr]
      simp

/-- **C106, one indexing job at a time.** In every history as many indexing jobs were started as ended, or one more. -/
theorem one_indexing (disk : P → Option Bytes) (n : Nat) (pf rf : Bool) (as : List (Act P)) (s : Sys P)
    (h : (Sys.init disk n pf rf).run as = some s) :
    ended (Sys.init disk n pf rf) as ≤ indexings s.main.out ∧ indexings s.main.out ≤ ended (Sys.init disk n pf rf) as + 1 := by
  obtain ⟨-, i2⟩ := run_accounts as _ s h
  have h0 : indexings (Sys.init disk n pf rf).main.out = 0 := rfl
  have h1 : (Sys.init disk n pf rf).main.primeQueue.inProgress.toNat = 0 := rfl
  have h2 := Bool.toNat_le s.main.primeQueue.inProgress
  omega

/-- **C106, indexing starts when loading is over.** After a step in which the server becomes quiescent and indexing is wanted, a job is at work: one more
was started than ended. -/
theorem indexing_starts (disk : P → Option Bytes) (n : Nat) (pf rf : Bool) (as : List (Act P)) (a : Act P) (s s' : Sys P)
    (h : (Sys.init disk n pf rf).run as = some s) (hs : s.step a = some s') (hb : s.main.isQuiescent = false)
    (hq : s'.main.isQuiescent = true) (hp : s'.main.prefill = true) :
    indexings s'.main.out = ended (Sys.init disk n pf rf) (as ++ [a]) + 1 := by
  have hr : (Sys.init disk n pf rf).run (as ++ [a]) = some s' := by
    rw [Loading.run_append, h]; simp [Sys.run, hs]
  obtain ⟨-, i2⟩ := run_accounts _ _ s' hr
  have h0 : indexings (Sys.init disk n pf rf).main.out = 0 := rfl
  have h1 : (Sys.init disk n pf rf).main.primeQueue.inProgress.toNat = 0 := rfl
  obtain ⟨z, hi, -⟩ := Loading.reached h
  have hg : s'.main.primeQueue.inProgress = true := by
    rcases step_turn hs with ⟨hm, -⟩ | ⟨hr, hm, -⟩ | ⟨m, m1, m2, m3, -⟩
    · rw [hm, hb] at hq; cases hq
    · rw [hm, start_busy hi hr] at hq; cases hq
    · obtain ⟨-, -, e3, -, -, e5⟩ := end_counts m s.main.isQuiescent
      rw [m2, e5] at hp
      rw [m2]
      exact e3 (quiescent_before hi m1 m2 m3 hq) hb hp
  rw [hg] at i2
  simp at i2
  omega

/-- A server quiescent when the event had been handled is so after the turn. -/
theorem quiescent_after {m : Main P} (w : Bool) (hq : m.isQuiescent = true) : (m.endTurn w).isQuiescent = true := by
  have hn : m.lastStatus ≠ none := by
    intro hn
    rw [Loading.quiescent_eq, hn] at hq
    simp at hq
  obtain ⟨-, -, -, -, -, e, -⟩ := Loading.endTurn_spec m w fun h => absurd h hn
  rw [e hn, hq]

/-- **C106, indexing is not started for nothing.** In every history, there are at most as many indexing jobs as occasions for them: steps in which the server
becomes quiescent while indexing is wanted, and ends of jobs that were cancelled. -/
theorem indexing_only (disk : P → Option Bytes) (n : Nat) (pf rf : Bool) (as : List (Act P)) (s : Sys P)
    (h : (Sys.init disk n pf rf).run as = some s) : indexings s.main.out ≤ occasions (Sys.init disk n pf rf) as := by
  suffices H : ∀ (as pre : List (Act P)) (s s' : Sys P), (Sys.init disk n pf rf).run pre = some s → s.run as = some s' →
      indexings s'.main.out + s'.main.primeQueue.requested.isSome.toNat ≤
        indexings s.main.out + s.main.primeQueue.requested.isSome.toNat + occasions s as by
    have := H as [] _ s rfl h
    have h0 : indexings (Sys.init disk n pf rf).main.out = 0 := rfl
    have h1 : (Sys.init disk n pf rf).main.primeQueue.requested.isSome.toNat = 0 := rfl
    omega
  intro as
  induction as with
  | nil => intro pre s s' _ h; cases h; simp [occasions]
  | cons a as ih =>
    intro pre s s' hp h
    simp only [Sys.run, Option.bind_eq_some_iff] at h
    obtain ⟨k, h1, h2⟩ := h
    have hk : (Sys.init disk n pf rf).run (pre ++ [a]) = some k := by
      rw [Loading.run_append, hp]; simp [Sys.run, h1]
    have hi := ih _ k s' hk h2
    simp only [occasions, h1, Option.elim_some]
    rcases step_turn h1 with ⟨hm, -⟩ | ⟨-, hm, -⟩ | ⟨m, m1, m2, m3, m4⟩
    · rw [hm] at hi; omega
    · obtain ⟨-, u2, u3, -⟩ := update_counts s.main
      have e1 : k.main.out = s.main.updateStatus.out := by rw [hm]
      have e2 : k.main.primeQueue = s.main.primeQueue := by rw [hm]; exact u3
      rw [e1, u2, e2] at hi
      omega
    · obtain ⟨-, -, -, e, -, e5⟩ := end_counts m s.main.isQuiescent
      rw [m2] at hi
      have hx := m1.indexings
      have hb : (m.isQuiescent && !s.main.isQuiescent && m.prefill).toNat ≤
          (!s.main.isQuiescent && k.main.isQuiescent && k.main.prefill).toNat := by
        cases hq : m.isQuiescent with
        | false => simp
        | true =>
          rw [m2, quiescent_after _ hq, e5]
          simp
      rcases m4 with ⟨m4, -⟩ | ⟨-, -, -, m4⟩
      · rw [m4] at e; omega
      · omega

/-- No include directories and one file in the root: it is loaded, which starts indexing; then the file is changed, and the indexing is cancelled and started
again. -/
def sample : List (Act String) :=
  [.start, .actorTake, .actorRead "a", .actorSend, .actorSend, .turnLoader 0, .turnLoader 1, .send (.didOpen "a" [1]), .turnClient, .turnPrimed true, .turnOther]

example : ∃ s, (Sys.init (fun p => if p = "a" then some [0] else none) 0 true true).run sample = some s ∧ s.main.isQuiescent = true ∧
    refreshes s.main.out = 2 ∧ indexings s.main.out = 2 ∧
    ended (Sys.init (fun p => if p = "a" then some [0] else none) 0 true true) sample = 1 ∧
    occasions (Sys.init (fun p => if p = "a" then some [0] else none) 0 true true) sample = 2 :=
  ⟨_, rfl, by decide +kernel, by decide +kernel, by decide +kernel, by decide +kernel, by decide +kernel⟩

end Verif.Props.Turn
