import Verif.Lsp.Dispatch
import Mathlib.Data.List.Induction
/-! # C30 (each request answered once), C31 (requests after shutdown) -/

namespace Verif.Props.Dispatch
open Verif.Lsp.Dispatch Verif.Lsp.Dispatch.Spec

/-- The three ways in which `on_request` treats a request. -/
theorem foldl_none (ms : List String) (s : St) : ms.foldl onAsync (none, s) = (none, s) := by
  induction ms with
  | nil => rfl
  | cons m ms ih => simp only [List.foldl_cons]; exact ih

theorem foldl_async (ms : List String) (req : Req) (s : St) :
    finish (ms.foldl onAsync (some req, s)) =
      if req.method ∈ ms then
        (if req.paramsOk then { s with jobs := s.jobs ++ [req], started := s.started ++ [req] }
         else s.respond ⟨req.id, .invalidParams⟩)
      else s.respond ⟨req.id, .methodNotFound⟩ := by
  induction ms with
  | nil => rfl
  | cons m ms ih =>
    simp only [List.foldl_cons]
    by_cases h : req.method = m
    · subst h
      simp only [List.mem_cons, true_or, if_true]
      cases hp : req.paramsOk with
      | true => simp [onAsync, parse, hp, foldl_none, finish]
      | false => simp [onAsync, parse, hp, foldl_none, finish]
    · have : onAsync (some req, s) m = (some req, s) := by simp [onAsync, parse, h]
      rw [this, ih]
      simp [h]

theorem onRequest_eq (s : St) (req : Req) :
    onRequest s req =
      if req.method = "shutdown" then
        (if req.paramsOk then ({ s with shutdown := true } : St).respond ⟨req.id, .ok⟩
         else s.respond ⟨req.id, .invalidParams⟩)
      else if s.shutdown then s.respond ⟨req.id, .invalidRequest⟩
      else if req.method ∈ asyncMethods then
        (if req.paramsOk then { s with jobs := s.jobs ++ [req], started := s.started ++ [req] }
         else s.respond ⟨req.id, .invalidParams⟩)
      else s.respond ⟨req.id, .methodNotFound⟩ := by
  unfold onRequest
  by_cases h : req.method = "shutdown"
  · simp only [h, if_true]
    cases hp : req.paramsOk with
    | true => simp [onShutdown, parse, hp, h, resultToResponse, foldl_none, finish]
    | false => simp [onShutdown, parse, hp, h, foldl_none, finish]
  · have : onShutdown (some req, s) = (some req, s) := by simp [onShutdown, parse, h]
    rw [this]
    simp only [h, if_false, foldl_async]

/-- 1 if the action is the arrival of a request with this id. -/
def recvDelta (id : Nat) : Act → Nat
  | .recv r => if r.id = id then 1 else 0
  | _ => 0

/-- The books of one id are balanced. -/
structure Bal (id : Nat) (n : Nat) (s : St) : Prop where
  sum : answered id s + (if id ∈ s.pending then 1 else 0) = n
  out : outstanding id s = if id ∈ s.pending then 1 else 0

/-- Answering a registered request that has no job left. -/
theorem respond_spec (s : St) (r : Resp) (id n : Nat)
    (hs : answered id s + (if id ∈ s.pending then 1 else 0) = n)
    (ho : outstanding id s = if id ∈ s.pending ∧ r.id ≠ id then 1 else 0) :
    Bal id n (s.respond r) := by
  unfold St.respond
  by_cases hm : r.id ∈ s.pending
  · simp only [hm, if_true]
    by_cases he : r.id = id
    · subst he
      constructor
      · simp only [hm, if_true] at hs
        simp [answered, List.countP_append, List.mem_filter] at hs ⊢
        omega
      · simpa [outstanding, hm, List.mem_filter] using ho
    · have hmem : (id ∈ s.pending.filter (· ≠ r.id)) ↔ id ∈ s.pending := by
        simp [List.mem_filter, Ne.symm he]
      constructor
      · simp only [hmem, answered, List.countP_append] at hs ⊢
        simp [he] at hs ⊢
        exact hs
      · simp only [hmem]
        simpa [outstanding, he] using ho
  · simp only [hm, if_false]
    refine ⟨hs, ?_⟩
    rw [ho]
    by_cases he : r.id = id
    · subst he; simp [hm]
    · simp [he]

/-- `on_request` for a registered request without a job balances the books again. -/
theorem onRequest_bal (s : St) (req : Req) (id n : Nat)
    (hs : answered id s + (if id ∈ s.pending then 1 else 0) = n)
    (ho : outstanding id s = if id ∈ s.pending ∧ req.id ≠ id then 1 else 0) (hp : req.id ∈ s.pending) :
    Bal id n (onRequest s req) := by
  rw [onRequest_eq]
  have hspawn : Bal id n { s with jobs := s.jobs ++ [req], started := s.started ++ [req] } := by
    refine ⟨hs, ?_⟩
    simp only [outstanding, List.countP_append] at ho ⊢
    by_cases he : req.id = id
    · subst he
      have : outstanding req.id s = 0 := by simpa [outstanding] using ho
      simp only [outstanding] at this
      simp only [hp, if_true, List.countP_cons, List.countP_nil, decide_true]; omega
    · simp [he] at ho ⊢; omega
  split
  · split
    · exact respond_spec _ ⟨req.id, .ok⟩ id n hs ho
    · exact respond_spec s ⟨req.id, .invalidParams⟩ id n hs ho
  · split
    · exact respond_spec s ⟨req.id, .invalidRequest⟩ id n hs ho
    · split
      · split
        · exact hspawn
        · exact respond_spec s ⟨req.id, .invalidParams⟩ id n hs ho
      · exact respond_spec s ⟨req.id, .methodNotFound⟩ id n hs ho

theorem countP_eraseIdx (l : List Req) (p : Req → Bool) (i : Nat) (x : Req) (h : l[i]? = some x) :
    (l.eraseIdx i).countP p + (if p x then 1 else 0) = l.countP p := by
  induction l generalizing i with
  | nil => simp at h
  | cons a l ih =>
    cases i with
    | zero => simp at h; subst h; simp [List.countP_cons]
    | succ i =>
      simp at h
      have := ih i h
      simp only [List.eraseIdx_cons_succ, List.countP_cons]
      omega

theorem workerTask_id (req : Req) (o : Outcome) : (workerTask req o).id = req.id := by
  cases o <;> rfl

theorem step_bal (s : St) (a : Act) (id n : Nat) (h : Bal id n s)
    (hfresh : ∀ r, a = .recv r → r.id = id → id ∉ s.pending) :
    Bal id (n + recvDelta id a) (s.step a) := by
  cases a with
  | recv r =>
    simp only [St.step, onNewRequest]
    have hmem : r.id ∈ (s.register r.id).pending := by simp [St.register]
    have hmem' : id ∈ (s.register r.id).pending ↔ (id = r.id ∨ id ∈ s.pending) := by
      simp only [St.register, List.mem_cons, List.mem_filter, decide_eq_true_eq]
      by_cases hh : id = r.id <;> simp [hh]
    apply onRequest_bal _ _ _ _ _ _ hmem
    · have : answered id (s.register r.id) = answered id s := rfl
      simp only [this, hmem', ← h.sum, recvDelta]
      by_cases he : r.id = id
      · have := hfresh r rfl he
        simp [he, this]
      · simp [he, Ne.symm he]
    · have : outstanding id (s.register r.id) = outstanding id s := rfl
      simp only [this, h.out, hmem']
      by_cases he : r.id = id
      · have := hfresh r rfl he
        simp [he, this]
      · simp [he, Ne.symm he]
  | done i o =>
    simp only [St.step]
    cases hj : s.jobs[i]? with
    | none => exact h
    | some req =>
      refine ⟨h.sum, ?_⟩
      have hc := countP_eraseIdx s.jobs (fun r => decide (r.id = id)) i req hj
      have ho := h.out
      simp only [outstanding, List.countP_append] at ho ⊢
      rw [← ho]
      simp only [List.countP_cons, List.countP_nil, workerTask_id] at hc ⊢
      by_cases he : req.id = id <;> simp [he] at hc ⊢ <;> omega
  | task =>
    simp only [St.step]
    cases hq : s.queue with
    | nil => exact h
    | cons t q =>
      have ho := h.out
      simp only [outstanding, hq, List.countP_cons] at ho
      have ho' : outstanding id { s with queue := q } = if id ∈ s.pending ∧ t.id ≠ id then 1 else 0 := by
        simp only [outstanding]
        by_cases he : t.id = id
        · simp [he] at ho ⊢
          by_cases hn : id ∈ s.pending
          · simp only [hn, if_true] at ho
            have h1 : List.countP (fun r : Req => decide (r.id = id)) s.jobs = 0 := by omega
            have h2 : List.countP (fun t : Verif.Lsp.Dispatch.Task => decide (t.id = id)) q = 0 := by omega
            simpa [List.countP_eq_zero] using And.intro h1 h2
          · simp only [hn, if_false] at ho; omega
        · simp [he] at ho ⊢; omega
      cases t with
      | response r =>
        exact respond_spec _ r id n h.sum ho'
      | retry req =>
        simp only [handleTask]
        have ho2 : outstanding req.id s ≠ 0 → True := fun _ => trivial
        split
        · next hm => exact onRequest_bal _ req id n h.sum ho' hm
        · next hm =>
          refine ⟨h.sum, ?_⟩
          rw [ho']
          by_cases he : req.id = id
          · subst he; simp [hm, Task.id]
          · simp [Task.id, he]

theorem received_snoc (id : Nat) (as : List Act) (a : Act) :
    received id (as ++ [a]) = received id as + recvDelta id a := by
  unfold received
  rw [List.countP_append]
  cases a <;> simp [List.countP_cons, recvDelta]

theorem fresh_prefix {as : List Act} {a : Act} (h : FreshIds (as ++ [a])) : FreshIds as := by
  intro pre r post he
  exact h pre r (post ++ [a]) (by rw [he]; simp)

theorem run_bal (as : List Act) (h : FreshIds as) (id : Nat) : Bal id (received id as) (St.init.run as) := by
  induction as using List.reverseRecOn with
  | nil => exact ⟨rfl, rfl⟩
  | append_singleton as a ih =>
    have hb := ih (fresh_prefix h)
    have : St.init.run (as ++ [a]) = (St.init.run as).step a := by simp [St.run, List.foldl_append]
    rw [this, received_snoc]
    apply step_bal _ _ _ _ hb
    intro r ha hid hp
    have := h as r [] (by rw [ha])
    have hs := hb.sum
    subst hid
    simp [hp] at hs
    omega

/-- **C30**. In every execution - any requests, any order in which workers finish, any outcome including panics and
cancellations - each request id has been answered at most as often as it was asked; it is either fully answered with
nothing left running for it, or one answer is missing and exactly one job or task is still working on it. So no request is
dropped or answered twice, and when nothing is running every request has been answered exactly once. -/
theorem answered_once (as : List Act) (h : FreshIds as) (id : Nat) :
    (answered id (St.init.run as) = received id as ∧ outstanding id (St.init.run as) = 0) ∨
    (answered id (St.init.run as) + 1 = received id as ∧ outstanding id (St.init.run as) = 1) := by
  have hb := run_bal as h id
  have h1 := hb.sum
  have h2 := hb.out
  by_cases hp : id ∈ (St.init.run as).pending
  · simp [hp] at h1 h2; right; exact ⟨h1, h2⟩
  · simp [hp] at h1 h2; left; exact ⟨h1, h2⟩

/-- **C30, at rest**. -/
theorem all_answered_at_rest (as : List Act) (h : FreshIds as) (hj : (St.init.run as).jobs = [])
    (hq : (St.init.run as).queue = []) (id : Nat) : answered id (St.init.run as) = received id as := by
  rcases answered_once as h id with h1 | h1
  · exact h1.1
  · simp [outstanding, hj, hq] at h1

/-- What is left to do: two steps per running job, one per waiting task. -/
def work (s : St) : Nat := 2 * s.jobs.length + s.queue.length

theorem respond_work (s : St) (r : Resp) : (s.respond r).jobs = s.jobs ∧ (s.respond r).queue = s.queue := by
  unfold St.respond; split <;> exact ⟨rfl, rfl⟩

/-- **C30, outcomes**. Unless it was cancelled, a handler that ends has a response with the right code queued; when its turn comes it is
sent to a client still waiting. A cancelled handler is queued again, and when its turn comes it is run again unless the server was shut
down. -/
theorem outcome_answered (s : St) :
    (∀ (i : Nat) (req : Req) (o : Outcome), s.jobs[i]? = some req → (s.step (.done i o)).queue = s.queue ++ [match expected o with
      | some c => .response ⟨req.id, c⟩
      | none => .retry req]) ∧
    (∀ (r : Resp) (q : List Task), s.queue = .response r :: q → r.id ∈ s.pending → (s.step .task).sent = s.sent ++ [r]) ∧
    (∀ (req : Req) (q : List Task), s.queue = .retry req :: q → req.id ∈ s.pending → req.method ∈ asyncMethods → req.paramsOk = true →
      s.shutdown = false → (s.step .task).jobs = s.jobs ++ [req] ∧ (s.step .task).sent = s.sent) := by
  refine ⟨?_, ?_, ?_⟩
  · intro i req o h
    simp only [St.step, h]
    cases o <;> rfl
  · intro r q h hp
    simp [St.step, h, handleTask, St.respond, hp]
  · intro req q h hp hm hk hs
    have hne : req.method ≠ "shutdown" := by
      rintro e
      rw [e] at hm
      revert hm
      decide
    simp [St.step, h, handleTask, hp, onRequest_eq, hne, hs, hm, hk]

/-- **C30, progress**. As long as edits do not cancel the handlers, the server gets to rest: some step is possible while
something is outstanding, and each such step decreases the remaining work, so every request is eventually answered. A
retried request counts as a new attempt. -/
theorem progress (s : St) :
    (s.jobs ≠ [] → ∀ o, work (s.step (.done 0 o)) + 1 = work s) ∧
    (∀ r q, s.queue = .response r :: q → work (s.step .task) + 1 = work s) ∧
    (∀ r q, s.queue = .retry r :: q → work (s.step .task) ≤ work s + 1) ∧
    (s.jobs = [] → s.queue = [] → work s = 0) := by
  refine ⟨?_, ?_, ?_, ?_⟩
  · intro hj o
    cases hl : s.jobs with
    | nil => exact absurd hl hj
    | cons x xs => simp [St.step, hl, work]; omega
  · intro r q hq
    have := respond_work { s with queue := q } r
    simp [St.step, hq, handleTask, work, this.1, this.2]; omega
  · intro r q hq
    simp only [St.step, hq, handleTask]
    split
    · rw [onRequest_eq]
      have hr := fun x => respond_work { s with queue := q } x
      have hr2 := fun x => respond_work ({ s with queue := q, shutdown := true } : St) x
      repeat' split
      all_goals simp [work, (hr _).1, (hr _).2, (hr2 _).1, (hr2 _).2, hq]
      all_goals omega
    · simp [work, hq]; omega
  · intro h1 h2; simp [work, h1, h2]

/-- An execution with a retried hover, a panicking definition request, an unknown method and bad parameters. -/
def trace : List Act :=
  [.recv ⟨1, "textDocument/hover", true⟩, .recv ⟨2, "textDocument/definition", true⟩, .done 0 .cancelled, .task,
   .recv ⟨3, "no/such", true⟩, .done 0 .panicked, .recv ⟨4, "textDocument/hover", false⟩, .task, .done 0 .ok, .task]

example : (St.init.run trace).sent = [⟨3, .methodNotFound⟩, ⟨4, .invalidParams⟩, ⟨2, .internalError⟩, ⟨1, .ok⟩] := by decide

/-! ### C31 -/

theorem respond_fields (s : St) (r : Resp) :
    (s.respond r).shutdown = s.shutdown ∧ (s.respond r).started = s.started := by
  unfold St.respond; split <;> exact ⟨rfl, rfl⟩

theorem onRequest_shutdown (s : St) (req : Req) (hs : s.shutdown = true) :
    (onRequest s req).shutdown = true ∧ (onRequest s req).started = s.started := by
  rw [onRequest_eq]
  simp only [hs, if_true]
  have := fun x => respond_fields s x
  have h2 := fun x => respond_fields ({ s with shutdown := true } : St) x
  repeat' split
  all_goals simp [(this _).1, (this _).2, (h2 _).1, (h2 _).2, hs]

theorem step_shutdown (s : St) (a : Act) (hs : s.shutdown = true) :
    (s.step a).shutdown = true ∧ (s.step a).started = s.started := by
  cases a with
  | recv r => exact onRequest_shutdown _ r hs
  | done i o => simp only [St.step]; split <;> exact ⟨hs, rfl⟩
  | task =>
    simp only [St.step]
    split
    · next t q hq =>
      cases t with
      | response r => have := respond_fields { s with queue := q } r; exact ⟨this.1.trans hs, this.2⟩
      | retry r =>
        simp only [handleTask]
        split
        · exact onRequest_shutdown { s with queue := q } r hs
        · exact ⟨hs, rfl⟩
    · exact ⟨hs, rfl⟩

/-- **C31a**. Once shutdown was accepted no handler is started any more, whatever arrives (including retries of
cancelled requests). -/
theorem no_handler_after_shutdown (s : St) (hs : s.shutdown = true) (as : List Act) :
    (s.run as).started = s.started ∧ (s.run as).shutdown = true := by
  induction as generalizing s with
  | nil => exact ⟨rfl, hs⟩
  | cons a as ih =>
    obtain ⟨h1, h2⟩ := step_shutdown s a hs
    have := ih (s.step a) h1
    exact ⟨this.1.trans h2, this.2⟩

/-- **C31b, partial**. After shutdown every request except another `shutdown` is answered at once with
`InvalidRequest`. Missing: `shutdown` itself, for which the claim is false (next theorem). -/
theorem rejected_after_shutdown_partial (s : St) (hs : s.shutdown = true) (r : Req) (hm : r.method ≠ "shutdown") :
    (s.step (.recv r)).sent = s.sent ++ [⟨r.id, .invalidRequest⟩] ∧ (s.step (.recv r)).jobs = s.jobs ∧
      r.id ∉ (s.step (.recv r)).pending := by
  simp [St.step, onNewRequest, onRequest_eq, hm, St.register, hs, St.respond]

/-- **C31, refuted for `shutdown`**. A second shutdown request is accepted and answered with success. -/
theorem rejected_after_shutdown_refuted :
    (St.init.run [.recv ⟨1, "shutdown", true⟩, .recv ⟨2, "shutdown", true⟩]).sent = [⟨1, .ok⟩, ⟨2, .ok⟩] := by decide

/-- **C31c**. Shutdown is accepted exactly by a well-formed shutdown request, which is answered with success. -/
theorem shutdown_iff (s : St) (hs : s.shutdown = false) (r : Req) :
    (s.step (.recv r)).shutdown = true ↔ r.method = "shutdown" ∧ r.paramsOk = true := by
  simp only [St.step, onNewRequest, onRequest_eq]
  have := fun x => (respond_fields (s.register r.id) x).1
  have h2 := fun x => (respond_fields ({ s.register r.id with shutdown := true } : St) x).1
  have h3 : (s.register r.id).shutdown = false := hs
  by_cases hm : r.method = "shutdown"
  · cases hp : r.paramsOk <;> simp [hm, this, h2, h3]
  · by_cases h4 : r.method ∈ asyncMethods <;> cases hp : r.paramsOk <;> simp [hm, this, h3, h4]

example : (St.init.run [.recv ⟨1, "textDocument/hover", true⟩, .recv ⟨2, "shutdown", true⟩, .recv ⟨3, "textDocument/hover", true⟩,
    .done 0 .cancelled, .task]).sent = [⟨2, .ok⟩, ⟨3, .invalidRequest⟩, ⟨1, .invalidRequest⟩] := by decide

end Verif.Props.Dispatch
