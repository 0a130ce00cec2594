import Verif.Lsp.Lifecycle
/-!
# C95: messages reach their handler, and the server ends when it is told to
-/

namespace Verif.Props.Lifecycle

open Verif.Lsp Verif.Lsp.Lifecycle Verif.Lsp.Lifecycle.Spec

variable {J H : Type}

theorem known_iff (m : String) : Known m ↔ m ∈ methods := by
  simp [Known, methods]

theorem methods_nodup : methods.Nodup := by decide

theorem fold_none (hs : Handlers J H) (ms : List String) : ms.foldl (onSyncMut hs) none = none := by
  induction ms with
  | nil => rfl
  | cons m ms ih => exact ih

theorem fold_taken (hs : Handlers J H) (ms : List String) (h : H) : ms.foldl (onSyncMut hs) (some (none, h)) = some (none, h) := by
  induction ms with
  | nil => rfl
  | cons m ms ih => exact ih

theorem fold_spec (hs : Handlers J H) (method : String) (p : J) (h : H) : ∀ ms : List String,
    (ms.foldl (onSyncMut hs) (some (some (method, p), h))).map Prod.snd =
      if method ∈ ms then (if hs.accepts method p then hs.act method p h else none) else some h := by
  intro ms
  induction ms with
  | nil => rfl
  | cons m ms ih =>
    rw [List.foldl_cons]
    by_cases e : method = m
    · subst e
      simp only [onSyncMut, if_true, List.mem_cons, true_or]
      split
      · cases ha : hs.act method p h with
        | none => simp only [Option.map_none, fold_none]
        | some h' => simp only [Option.map_some, fold_taken]
      · simp only [fold_none, Option.map_none]
    · simp only [onSyncMut, if_neg e, List.mem_cons, e, false_or]
      exact ih

theorem notification_eq (hs : Handlers J H) (h : H) (m : String) (p : J) :
    onNotification hs h m p = if m ∈ methods then (if hs.accepts m p then hs.act m p h else none) else some h :=
  fold_spec hs m p h methods

/-- What a turn that goes on did. -/
theorem turn_running {hs : Handlers J H} {s s' : St H} {e : Event J H} (h : s.turn hs e = .running s') :
    Effect hs e s.host s'.host ∧ isExit e = false := by
  cases e with
  | other ask f =>
    simp only [St.turn] at h
    cases h
    refine ⟨?_, rfl⟩
    cases ask <;> exact .other
  | disp a =>
    refine ⟨?_, rfl⟩
    cases a with
    | recv r => simp only [St.turn] at h; cases h; exact .disp
    | done i o => simp only [St.turn] at h; cases h; exact .disp
    | task => simp only [St.turn] at h; cases h; exact .disp
  | msg m =>
    cases m with
    | request r => simp only [St.turn, St.handle] at h; cases h; exact ⟨.request, rfl⟩
    | response id =>
      refine ⟨?_, rfl⟩
      simp only [St.turn, St.handle] at h
      split at h
      · next hx =>
        split at hx
        · cases hx; cases h; exact .response
        · cases hx
      · cases h
    | notification m p =>
      simp only [St.turn] at h
      split at h
      · cases h
      · next hm =>
        refine ⟨?_, by simpa [isExit] using hm⟩
        simp only [St.handle, notification_eq] at h
        split at h
        · next hx =>
          cases h
          split at hx
          · next hk =>
            split at hx
            · cases ha : hs.act m p s.host with
              | none => rw [ha] at hx; cases hx
              | some h' => rw [ha] at hx; cases hx; exact .known ((known_iff m).2 hk) ha
            · cases hx
          · next hk => cases hx; exact .unknown fun h => hk ((known_iff m).1 h)
        · cases h

/-- A turn ends the server only for `exit`. -/
theorem turn_ended {hs : Handlers J H} {s s' : St H} {e : Event J H} {n : Nat} (h : s.turn hs e = .ended s' n) : isExit e = true ∧ s' = s ∧ n = 0 := by
  cases e with
  | other ask f => simp only [St.turn] at h; cases h
  | disp a => cases a <;> (simp only [St.turn] at h; cases h)
  | msg m =>
    cases m with
    | request r => simp only [St.turn, St.handle] at h; cases h
    | response id =>
      simp only [St.turn] at h
      split at h <;> cases h
    | notification m p =>
      simp only [St.turn] at h
      split at h
      · next hm => cases h; exact ⟨by simp [isExit, hm], rfl, rfl⟩
      · split at h <;> cases h

theorem run_crashed (hs : Handlers J H) (es : List (Event J H)) : run hs .crashed es = .crashed := by
  cases es <;> rfl

theorem run_ended (hs : Handlers J H) (es : List (Event J H)) (s : St H) (n : Nat) : run hs (.ended s n) es = .ended s n := by
  cases es <;> rfl

/-- **C95, handlers.** As long as the server is at work, what it has done is, in order, for each notification of a known method what its handler does,
once, and for the others nothing; and it was not told to exit. -/
theorem handled_once {hs : Handlers J H} (es : List (Event J H)) : ∀ {s s' : St H}, run hs (.running s) es = .running s' →
    Effects hs es s.host s'.host ∧ ∀ e ∈ es, isExit e = false := by
  induction es with
  | nil => intro s s' h; cases h; exact ⟨.nil, by simp⟩
  | cons e es ih =>
    intro s s' h
    rw [run] at h
    cases ht : s.turn hs e with
    | running s₁ =>
      rw [ht] at h
      obtain ⟨h1, h2⟩ := turn_running ht
      obtain ⟨h3, h4⟩ := ih h
      exact ⟨.cons h1 h3, by simpa [h2] using h4⟩
    | ended s₁ n => rw [ht, run_ended] at h; cases h
    | crashed => rw [ht, run_crashed] at h; cases h

/-- **C95, the end.** The server ends by itself only when told to: the messages before are handled as above, and nothing of the rest is. -/
theorem ends_at_exit {hs : Handlers J H} (es : List (Event J H)) : ∀ {s s' : St H} {n : Nat}, run hs (.running s) es = .ended s' n →
    ∃ before e after, es = before ++ e :: after ∧ isExit e = true ∧ (∀ e ∈ before, isExit e = false) ∧ Effects hs before s.host s'.host := by
  induction es with
  | nil => intro s s' n h; cases h
  | cons e es ih =>
    intro s s' n h
    rw [run] at h
    cases ht : s.turn hs e with
    | running s₁ =>
      rw [ht] at h
      obtain ⟨h1, h2⟩ := turn_running ht
      obtain ⟨b, e', a, h3, h4, h5, h6⟩ := ih h
      exact ⟨e :: b, e', a, by rw [h3]; rfl, h4, by simpa [h2] using h5, .cons h1 h6⟩
    | ended s₁ m =>
      rw [ht, run_ended] at h
      cases h
      obtain ⟨h1, rfl, -⟩ := turn_ended ht
      exact ⟨[], e, es, rfl, h1, by simp, .nil⟩
    | crashed => rw [ht, run_crashed] at h; cases h

theorem turn_steps {hs : Handlers J H} {s s' : St H} {e : Event J H} (h : s.turn hs e = .running s') : s'.disp = s.disp.run (steps e) := by
  cases e with
  | other ask f => simp only [St.turn] at h; cases h; cases ask <;> rfl
  | disp a => cases a <;> (simp only [St.turn] at h; cases h; rfl)
  | msg m =>
    cases m with
    | request r => simp only [St.turn, St.handle] at h; cases h; rfl
    | response id =>
      simp only [St.turn, St.handle] at h
      split at h
      · next hx =>
        split at hx
        · cases hx; cases h; rfl
        · cases hx
      · cases h
    | notification m p =>
      simp only [St.turn] at h
      split at h
      · cases h
      · simp only [St.handle] at h
        split at h
        · next hx =>
          obtain ⟨h', -, rfl⟩ := Option.map_eq_some_iff.1 hx
          cases h; rfl
        · cases h

/-- **C95, requests.** Every request of the client goes to the dispatcher of C30, in order, and nothing else happens to it: C30 and C31 hold of the whole
server. -/
theorem requests_dispatched {hs : Handlers J H} (es : List (Event J H)) : ∀ {s s' : St H}, run hs (.running s) es = .running s' →
    s'.disp = s.disp.run (es.flatMap steps) := by
  induction es with
  | nil => intro s s' h; cases h; rfl
  | cons e es ih =>
    intro s s' h
    rw [run] at h
    cases ht : s.turn hs e with
    | running s₁ =>
      rw [ht] at h
      rw [ih h, turn_steps ht, List.flatMap_cons, Dispatch.St.run, Dispatch.St.run, Dispatch.St.run, List.foldl_append]
    | ended s₁ n => rw [ht, run_ended] at h; cases h
    | crashed => rw [ht, run_crashed] at h; cases h

/-- The state follows what the client may assume. -/
theorem polite_turn {hs : Handlers J H} (hact : ∀ m p h, (hs.act m p h).isSome) {e : Event J H} {es : List (Event J H)} {s : St H}
    (hp : Polite hs s.outgoing s.next (e :: es)) :
    (∃ s', s.turn hs e = .running s' ∧ Polite hs s'.outgoing s'.next es ∧ isExit e = false) ∨
    (isExit e = true ∧ s.turn hs e = .ended s 0) := by
  cases e with
  | other ask f =>
    refine .inl ⟨_, rfl, ?_, rfl⟩
    cases ask <;> exact hp
  | disp a =>
    refine .inl ?_
    cases a <;> exact ⟨_, rfl, hp, rfl⟩
  | msg m =>
    cases m with
    | request r => exact .inl ⟨_, rfl, hp, rfl⟩
    | response id =>
      obtain ⟨h1, h2⟩ := hp
      refine .inl ⟨{ s with outgoing := s.outgoing.filter (· ≠ id), host := hs.answered id s.host }, ?_, h2, rfl⟩
      simp only [St.turn, St.handle, if_pos h1]
    | notification m p =>
      obtain ⟨h1, h2⟩ := hp
      by_cases hm : m = "exit"
      · exact .inr ⟨by simp [isExit, hm], by simp only [St.turn, if_pos hm]⟩
      · refine .inl ?_
        have hx : isExit (H := H) (.msg (.notification m p)) = false := by simpa [isExit] using hm
        by_cases hk : m ∈ methods
        · obtain ⟨h', ha⟩ := Option.isSome_iff_exists.1 (hact m p s.host)
          refine ⟨{ s with host := h' }, ?_, h2, hx⟩
          simp only [St.turn, if_neg hm, St.handle, notification_eq, if_pos hk, h1 ((known_iff m).2 hk), if_true, ha, Option.map_some]
        · refine ⟨s, ?_, h2, hx⟩
          simp only [St.turn, if_neg hm, St.handle, notification_eq, if_neg hk, Option.map_some]

/-- **C95, the server outlives its messages.** With a client that keeps to the protocol, and handlers that do not panic (which is C64 for documents), the
server is at work until it is told to exit, and ends then. -/
theorem survives_partial {hs : Handlers J H} (hact : ∀ m p h, (hs.act m p h).isSome) (es : List (Event J H)) : ∀ (s : St H),
    Polite hs s.outgoing s.next es →
    ((∀ e ∈ es, isExit e = false) ∧ ∃ s', run hs (.running s) es = .running s') ∨
    ((∃ e ∈ es, isExit e = true) ∧ ∃ s', run hs (.running s) es = .ended s' 0) := by
  induction es with
  | nil => intro s _; exact .inl ⟨by simp, s, rfl⟩
  | cons e es ih =>
    intro s hp
    rcases polite_turn hact hp with ⟨s₁, h1, h2, h3⟩ | ⟨h1, h2⟩
    · simp only [run, h1]
      rcases ih s₁ h2 with ⟨h4, h5⟩ | ⟨⟨e', h4, h6⟩, h5⟩
      · exact .inl ⟨by simpa [h3] using h4, h5⟩
      · exact .inr ⟨⟨e', List.mem_cons_of_mem _ h4, h6⟩, h5⟩
    · simp only [run, h2, run_ended]
      exact .inr ⟨⟨e, List.mem_cons_self, h1⟩, s, rfl⟩

/-- What is missing in `survives_partial`: a notification whose parameters are not as prescribed brings the server down (a request is only refused), and so
does a response to a request that was never sent, whatever the state. -/
theorem survives_refuted (hs : Handlers J H) (s : St H) :
    (∀ p, hs.accepts "textDocument/didSave" p = false → run hs (.running s) [.msg (.notification "textDocument/didSave" p)] = .crashed) ∧
    (∀ id, id ∉ s.outgoing → run hs (.running s) [.msg (.response id)] = .crashed) := by
  refine ⟨fun p hp => ?_, fun id hid => ?_⟩
  · have hm : "textDocument/didSave" ∈ methods := by decide
    simp only [run, St.turn, St.handle, notification_eq, if_pos hm, hp]
    rfl
  · simp only [run, St.turn, St.handle, if_neg hid]

/-- The protocol wants the status 1 when `exit` comes without `shutdown` before; the server always ends with 0. -/
theorem status_refuted (hs : Handlers J H) (h : H) (p : J) :
    ∃ s', run hs (.running { host := h }) [.msg (.notification "exit" p)] = .ended s' 0 ∧ s'.disp.shutdown = false :=
  ⟨_, rfl, rfl⟩

/-- Handlers that count: opening adds one, closing removes one; the parameters must be a number below ten. -/
def counting : Handlers Nat Nat where
  accepts _ p := decide (p < 10)
  act m _ h := some (if m = "textDocument/didOpen" then h + 1 else if m = "textDocument/didClose" then h - 1 else h)
  answered _ h := h + 100

def sampleEvents : List (Event Nat Nat) :=
  [.msg (.notification "initialized" 77), .msg (.notification "textDocument/didOpen" 1), .other true id, .msg (.notification "textDocument/didOpen" 2),
   .msg (.request ⟨0, "textDocument/hover", true⟩), .msg (.response 0), .msg (.notification "$/setTrace" 50),
   .msg (.notification "textDocument/didClose" 1)]

example : Polite counting ({ host := 0 } : St Nat).outgoing ({ host := 0 } : St Nat).next sampleEvents := by
  simp [sampleEvents, Polite, counting, Known]

example : ∃ s', run counting (.running { host := 0 }) sampleEvents = .running s' ∧ s'.host = 101 := ⟨_, rfl, rfl⟩

example : ∃ s', run counting (.running { host := 0 }) (sampleEvents ++ [.msg (.notification "exit" 1), .msg (.notification "textDocument/didOpen" 1)]) =
    .ended s' 0 ∧ s'.host = 101 := ⟨_, rfl, rfl⟩

end Verif.Props.Lifecycle
