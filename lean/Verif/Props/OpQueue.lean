import Verif.Lsp.OpQueue
/-! # C32: background operations -/

namespace Verif.Props.OpQueue
open Verif.Lsp.OpQueue Verif.Lsp.OpQueue.Spec
variable {A : Type}

theorem pending_snoc (log : List (Obs A)) (o : Obs A) : pending (log ++ [o]) =
    match o with
    | .requested a => some a
    | .started _ => none
    | .finished => pending log := by cases o <;> simp [pending]

theorem running_snoc (log : List (Obs A)) (o : Obs A) : running (log ++ [o]) =
    match o with
    | .requested _ => running log
    | .started _ => running log + 1
    | .finished => running log - 1 := by cases o <;> simp [running]

theorem good_snoc {log : List (Obs A)} (h : Good log) (o : Obs A)
    (ho : ∀ a, o = .started a → running log = 0 ∧ pending log = some a) : Good (log ++ [o]) := by
  intro pre a post he
  rcases List.eq_nil_or_concat post with rfl | ⟨post', x, rfl⟩
  · have := List.append_inj' he rfl
    obtain ⟨rfl, h2⟩ := this
    exact ho a (by simpa using h2)
  · have : log ++ [o] = (pre ++ Obs.started a :: post') ++ [x] := by rw [he]; simp
    exact h pre a post' (List.append_inj' this rfl).1

structure Inv (s : Sys A) : Prop where
  pend : s.q.requested = pending s.log
  run : running s.log = (s.workers : Int)
  prog : s.workers = if s.q.inProgress then 1 else 0
  good : Good s.log

theorem step_inv {s : Sys A} (h : Inv s) (e : Ev A) : ∃ s', s.step e = some s' ∧ Inv s' := by
  cases e with
  | request a =>
    refine ⟨_, rfl, ?_, ?_, h.prog, good_snoc h.good _ (by simp)⟩
    · simp [Queue.requestOp, pending_snoc]
    · simp [running_snoc, h.run]
  | turn =>
    simp only [Sys.step, Queue.shouldStartOp]
    by_cases hp : s.q.inProgress = true
    · simp only [hp, if_true]
      exact ⟨_, rfl, h.pend, h.run, by simpa [hp] using h.prog, h.good⟩
    · have hw : s.workers = 0 := by have := h.prog; simpa [hp] using this
      simp only [hp]
      cases hr : s.q.requested with
      | none => exact ⟨_, rfl, by simp [← h.pend, hr], h.run, by simp [hw], h.good⟩
      | some a =>
        refine ⟨_, rfl, by simp [pending_snoc], ?_, by simp [hw], good_snoc h.good _ ?_⟩
        · simp [running_snoc, h.run]
        · intro b hb
          cases hb
          exact ⟨by rw [h.run, hw]; rfl, by rw [← h.pend, hr]⟩
  | done again =>
    simp only [Sys.step]
    by_cases hw : s.workers = 0
    · simp only [hw, if_true]; exact ⟨s, rfl, h⟩
    · have hp : s.q.inProgress = true := by
        have := h.prog
        cases hq : s.q.inProgress
        · rw [hq] at this; exact absurd (by simpa using this) hw
        · rfl
      have hw1 : s.workers = 1 := by have := h.prog; simpa [hp] using this
      simp only [hw, if_false, Queue.opCompleted, hp, if_true]
      cases again with
      | none =>
        refine ⟨_, rfl, ?_, ?_, by simp [hw1], good_snoc h.good _ (by simp)⟩
        · simp [pending_snoc, h.pend]
        · simp [running_snoc, h.run, hw1]
      | some a =>
        have e : s.log ++ [Obs.finished, Obs.requested a] = (s.log ++ [.finished]) ++ [.requested a] := by simp
        dsimp only
        rw [e]
        refine ⟨_, rfl, ?_, ?_, by simp [hw1, Queue.requestOp],
          good_snoc (good_snoc h.good _ (by simp)) _ (by simp)⟩
        · rw [pending_snoc]; rfl
        · rw [running_snoc, running_snoc]; simp [h.run, hw1]

theorem run_inv (es : List (Ev A)) : ∀ {s : Sys A}, Inv s → ∃ s', s.run es = some s' ∧ Inv s' := by
  induction es with
  | nil => intro s h; exact ⟨s, rfl, h⟩
  | cons e es ih =>
    intro s h
    obtain ⟨s1, h1, i1⟩ := step_inv h e
    obtain ⟨s2, h2, i2⟩ := ih i1
    exact ⟨s2, by simp [Sys.run, h1, h2], i2⟩

theorem inv_init : Inv (Sys.init : Sys A) :=
  ⟨rfl, rfl, rfl, by intro pre a post h; simp [Sys.init] at h⟩

/-- **C32a**. For every interleaving of requests, loop turns and completions: the completion assertion never fails, at
most one operation runs, and every start happens while nothing runs and uses the arguments of the newest request made
since the previous start (requests are coalesced into the latest). -/
theorem one_at_a_time (es : List (Ev A)) :
    ∃ s, Sys.init.run es = some s ∧ 0 ≤ running s.log ∧ running s.log ≤ 1 ∧ Good s.log := by
  obtain ⟨s, hr, h⟩ := run_inv es (inv_init (A := A))
  refine ⟨s, hr, ?_, ?_, h.good⟩
  · rw [h.run]; omega
  · rw [h.run, h.prog]; split <;> simp

/-- **C32b** (no request is lost). After any history, if a request was made since the last start, then it is started,
with the newest arguments, by the first loop turn at which nothing runs; and nothing is started when there was no
request. -/
theorem no_request_lost (es : List (Ev A)) :
    ∃ s, Sys.init.run es = some s ∧
      (∀ a, pending s.log = some a → running s.log = 0 →
        ∃ s', s.step .turn = some s' ∧ s'.log = s.log ++ [.started a]) ∧
      ((pending s.log = none ∨ running s.log ≠ 0) → ∃ s', s.step .turn = some s' ∧ s'.log = s.log) := by
  obtain ⟨s, hr, h⟩ := run_inv es (inv_init (A := A))
  refine ⟨s, hr, ?_, ?_⟩
  · intro a ha h0
    have hw : s.workers = 0 := by have := h.run; omega
    have hp : s.q.inProgress = false := by
      cases hq : s.q.inProgress
      · rfl
      · have := h.prog; simp [hq, hw] at this
    rw [← h.pend] at ha
    simp [Sys.step, Queue.shouldStartOp, hp, ha]
  · intro hor
    cases hq : s.q.inProgress with
    | true => simp [Sys.step, Queue.shouldStartOp, hq]
    | false =>
      have hw : s.workers = 0 := by have := h.prog; simpa [hq] using this
      rcases hor with hn | hn
      · rw [← h.pend] at hn
        simp [Sys.step, Queue.shouldStartOp, hq, hn]
      · rw [h.run, hw] at hn; simp at hn

/-- A request that arrives while an operation runs is started, after the completion, with the newest arguments. -/
example : (Sys.init.run [.request 1, .turn, .request 2, .turn, .request 3, .done (some 4), .request 5, .turn]).map (·.log) =
    some [.requested 1, .started 1, .requested 2, .requested 3, .finished, .requested 4, .requested 5, .started 5] := by
  decide

/-- The hypotheses of `no_request_lost` occur: something pending, nothing running. -/
example : ∃ s, (Sys.init : Sys Nat).run [.request 1, .turn, .request 2, .done none] = some s ∧
    pending s.log = some 2 ∧ running s.log = 0 := ⟨_, rfl, by decide, by decide⟩

end Verif.Props.OpQueue
