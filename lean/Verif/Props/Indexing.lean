import Verif.Lsp.Indexing
/-!
# C94: what the client is shown of indexing
-/

namespace Verif.Props.Indexing

open Verif.Lsp.Indexing Verif.Lsp.Indexing.Spec
open Verif.Lsp.OpQueue (Queue)

variable {P : Type}

/-- Where a job is, as far as the messages tell. -/
inductive Where where
  | before
  | inside (done total : Nat)
  | after

/-- The messages lead from one place to the other. -/
inductive Walk : Where → List Prog → Where → Prop
  | nil {w : Where} : Walk w [] w
  | begin_ {t : Nat} {l : List Prog} {w : Where} : Walk (.inside 0 t) l w → Walk .before (.begin_ :: l) w
  | report {n : List Str} {d d' t : Nat} {l : List Prog} {w : Where} : d ≤ d' → d' ≤ t → Walk (.inside d' t) l w →
      Walk (.inside d t) (.report n d' t :: l) w
  | end_ {d t : Nat} {c : Bool} {l : List Prog} {w : Where} : Walk .after l w → Walk (.inside d t) (.end_ c :: l) w

theorem Walk.append {a b c : Where} {l r : List Prog} (h : Walk a l b) (h' : Walk b r c) : Walk a (l ++ r) c := by
  induction h with
  | nil => exact h'
  | begin_ _ ih => exact .begin_ (ih h')
  | report h1 h2 _ ih => exact .report h1 h2 (ih h')
  | end_ _ ih => exact .end_ (ih h')

theorem Walk.split {l r : List Prog} : ∀ {a c : Where}, Walk a (l ++ r) c → ∃ b, Walk a l b ∧ Walk b r c := by
  induction l with
  | nil => intro a c h; exact ⟨a, .nil, h⟩
  | cons p l ih =>
    intro a c h
    cases h with
    | begin_ h => obtain ⟨b, h1, h2⟩ := ih h; exact ⟨b, .begin_ h1, h2⟩
    | report x y h => obtain ⟨b, h1, h2⟩ := ih h; exact ⟨b, .report x y h1, h2⟩
    | end_ h => obtain ⟨b, h1, h2⟩ := ih h; exact ⟨b, .end_ h1, h2⟩

theorem Walk.after_nil {l : List Prog} {w : Where} (h : Walk .after l w) : l = [] ∧ w = .after := by
  cases h; exact ⟨rfl, rfl⟩

/-- The messages about indexing in the channel. -/
def primes : List Task → List Prog
  | [] => []
  | .prime p :: ts => p :: primes ts
  | .other :: ts => primes ts

theorem primes_append (a b : List Task) : primes (a ++ b) = primes a ++ primes b := by
  induction a with
  | nil => rfl
  | cons t a ih => cases t <;> simp [primes, ih]

theorem collect_walk {a b c : Where} {l : List Prog} {p : Prog} (h : Walk a l b) (h' : Walk b [p] c) : Walk a (collect l (.prime p)) c := by
  cases p with
  | begin_ => exact h.append h'
  | end_ c => exact h.append h'
  | report n d t =>
    simp only [collect]
    split
    · next n' d' t' hl =>
      have hne : l ≠ [] := by rintro rfl; simp at hl
      have e : l = l.dropLast ++ [.report n' d' t'] := by
        have := List.dropLast_concat_getLast hne
        rw [List.getLast?_eq_some_getLast hne, Option.some.injEq] at hl
        rw [hl] at this
        exact this.symm
      rw [e] at h
      obtain ⟨m, h1, h2⟩ := h.split
      cases h2 with
      | report x y hz =>
        cases hz
        cases h' with
        | report x' y' h3 =>
          cases h3
          exact h1.append (.report (Nat.le_trans x x') y' .nil)
    · exact h.append h'

theorem collect_all (ts : List Task) : ∀ {a b c : Where} {l : List Prog}, Walk a l b → Walk b (primes ts) c → Walk a (ts.foldl collect l) c := by
  induction ts with
  | nil => intro a b c l h h'; cases h'; exact h
  | cons t ts ih =>
    intro a b c l h h'
    cases t with
    | other => exact ih h h'
    | prime p =>
      obtain ⟨m, h1, h2⟩ := Walk.split (l := [p]) (r := primes ts) h'
      exact ih (collect_walk h h1) h2

/-- Where the job is, is what was shown. -/
def Shown (pct : Nat → Nat → Nat) (out : List Note) : Where → Prop
  | .before => Protocol out none
  | .inside d t => ∃ p, Protocol out (some p) ∧ p ≤ pct d t
  | .after => False

/-- Where the job is, is what it has sent. -/
def At : Job P → Where → Prop
  | .spawned, .before => True
  | .running r, .inside d t => d = r.done ∧ t = r.projects.length ∧ r.done ≤ r.projects.length ∧ (r.phase = .waiting → r.done < r.projects.length)
  | .idle, .after => True
  | _, _ => False

/-- Nothing is being indexed: everything was shown to its end, and the last job was not cancelled. -/
structure Resting (s : St P) : Prop where
  idle : s.job = .idle
  empty : primes s.chan = []
  shown : Protocol s.out none
  requested : s.queue.requested = none
  last : s.finished.getLast? ≠ some true

def Inv (pct : Nat → Nat → Nat) (s : St P) : Prop :=
  (s.queue.inProgress = false ∧ Resting s) ∨
  (s.queue.inProgress = true ∧ ∃ a b, Shown pct s.out a ∧ Walk a (primes s.chan) b ∧ At s.job b)

/-- Showing messages that lead somewhere. -/
theorem showAll_walk {pct : Nat → Nat → Nat} (hp : Percentage pct) (ps : List Prog) : ∀ {s : St P} {a b : Where}, s.queue.inProgress = true →
    Shown pct s.out a → Walk a ps b → ∃ s', showAll pct s ps = some s' ∧ s'.job = s.job ∧ s'.chan = s.chan ∧
      ((s'.queue.inProgress = true ∧ Shown pct s'.out b) ∨
       (b = .after ∧ s'.queue.inProgress = false ∧ Protocol s'.out none ∧
        (s'.finished.getLast? = some true → s'.queue.requested = some ()))) := by
  induction ps with
  | nil =>
    intro s a b hq hs hw
    cases hw
    exact ⟨s, rfl, rfl, rfl, .inl ⟨hq, hs⟩⟩
  | cons p ps ih =>
    intro s a b hq hs hw
    cases hw with
    | begin_ h =>
      obtain ⟨s', h1, h2, h3, h4⟩ := ih (s := { s with out := s.out ++ [.create, .begin_ 0] }) (a := .inside 0 _) hq ⟨0, .begin_ hs, Nat.zero_le _⟩ h
      exact ⟨s', h1, h2, h3, h4⟩
    | @report n d d' t _ _ hd hdt h =>
      obtain ⟨p, hpr, hle⟩ := hs
      obtain ⟨s', h1, h2, h3, h4⟩ := ih (s := { s with out := s.out ++ [.report (message n d' t) (pct d' t)] }) (a := .inside d' t) hq
        ⟨pct d' t, .report _ hpr (Nat.le_trans hle (hp.mono _ _ _ hd)) (hp.le _ _ hdt), Nat.le_refl _⟩ h
      refine ⟨s', ?_, h2, h3, h4⟩
      simp only [showAll, show_, if_pos hdt, Option.bind_some]
      exact h1
    | @end_ d t c _ _ h =>
      obtain ⟨p, hpr, -⟩ := hs
      obtain ⟨rfl, rfl⟩ := h.after_nil
      let q : Queue Unit := { s.queue with inProgress := false }
      refine ⟨{ s with queue := (if c then q.requestOp () else q), out := s.out ++ [.end_], finished := s.finished ++ [c] }, ?_, rfl, rfl, .inr ⟨rfl, ?_, .end_ hpr, ?_⟩⟩
      · simp only [showAll, show_, Queue.opCompleted, hq, if_true, Option.bind_some]
        rfl
      · cases c <;> rfl
      · intro hl
        simp only [List.getLast?_append, List.getLast?_singleton, Option.some_or, Option.some.injEq] at hl
        subst hl; rfl

theorem start_idle {s : St P} (hq : s.queue.inProgress = false) (hj : s.job = .idle) (hc : primes s.chan = []) (ho : Protocol s.out none)
    (hl : s.finished.getLast? = some true → s.queue.requested = some ()) (pct : Nat → Nat → Nat) : Inv pct (start s) := by
  rcases hr : s.queue.requested with - | ⟨⟩
  · have : start s = { s with queue := { s.queue with inProgress := false, requested := none } } := by
      simp only [start, Queue.shouldStartOp, hq, hr]; rfl
    rw [this]
    refine .inl ⟨rfl, hj, hc, ho, rfl, fun h => ?_⟩
    have := hl h
    rw [hr] at this; cases this
  · have : start s = { s with queue := { s.queue with inProgress := true, requested := none }, job := .spawned } := by
      simp only [start, Queue.shouldStartOp, hq, hr]; rfl
    rw [this]
    refine .inr ⟨rfl, .before, .before, ho, ?_, trivial⟩
    simp only [hc]
    exact .nil

theorem start_busy {s : St P} (hq : s.queue.inProgress = true) : start s = s := by
  simp only [start, Queue.shouldStartOp, hq, if_true]

theorem prime_done {r r' : Verif.Ide.Prime.St P} {a : Verif.Ide.Prime.Act} (h : r.step a = some r') (hd : r.done ≤ r.projects.length)
    (hw : r.phase = .waiting → r.done < r.projects.length) :
    r'.projects = r.projects ∧ r.done ≤ r'.done ∧ r'.done ≤ r'.projects.length ∧ (r'.phase = .waiting → r'.done < r'.projects.length) ∧
    (a ≠ .recv → r'.done = r.done) := by
  cases a with
  | turn =>
    simp only [Verif.Ide.Prime.St.step] at h
    split at h
    · split at h
      · cases h; exact ⟨rfl, Nat.le_refl _, hd, fun _ => by assumption, fun _ => rfl⟩
      · cases h; exact ⟨rfl, Nat.le_refl _, hd, (fun h => nomatch h), fun _ => rfl⟩
    · cases h
  | recv =>
    simp only [Verif.Ide.Prime.St.step] at h
    split at h
    · next hp =>
      have := hw hp
      split at h
      · cases h
      · cases h; exact ⟨rfl, Nat.le_refl _, hd, (fun h => nomatch h), fun h => absurd rfl h⟩
      · cases h; exact ⟨rfl, Nat.le_succ _, this, (fun h => nomatch h), fun h => absurd rfl h⟩
    · cases h
  | timeout =>
    simp only [Verif.Ide.Prime.St.step] at h
    split at h
    · cases h; exact ⟨rfl, Nat.le_refl _, hd, (fun h => nomatch h), fun _ => rfl⟩
    · cases h
  | take w =>
    simp only [Verif.Ide.Prime.St.step] at h
    split at h
    · cases h; exact ⟨rfl, Nat.le_refl _, hd, hw, fun _ => rfl⟩
    · cases h
  | finish w =>
    simp only [Verif.Ide.Prime.St.step] at h
    split at h
    · cases h; exact ⟨rfl, Nat.le_refl _, hd, hw, fun _ => rfl⟩
    · cases h

/-- A message sent by the job keeps the invariant. -/
theorem inv_send {pct : Nat → Nat → Nat} {s : St P} {j : Job P} {p : Prog} (hi : Inv pct s) (hj : s.job ≠ .idle)
    (h : ∀ b, At s.job b → ∃ c, Walk b [p] c ∧ At j c) : Inv pct { s with job := j, chan := s.chan ++ [.prime p] } := by
  rcases hi with ⟨-, hr⟩ | ⟨hq, a, b, h1, h2, h3⟩
  · exact absurd hr.idle hj
  · obtain ⟨c, h4, h5⟩ := h b h3
    refine .inr ⟨hq, a, c, h1, ?_, h5⟩
    simp only [primes_append, primes]
    exact h2.append h4

theorem inv_step {pct : Nat → Nat → Nat} (hp : Percentage pct) {s : St P} (hi : Inv pct s) (a : Act P) : ∃ s', s.step pct a = some s' ∧ Inv pct s' := by
  cases a with
  | turn n request =>
    simp only [St.step]
    have split_chan : primes s.chan = primes (s.chan.take n) ++ primes (s.chan.drop n) := by rw [← primes_append, List.take_append_drop]
    rcases hi with ⟨hq, hr⟩ | ⟨hq, w, b, h1, h2, h3⟩
    · have hn := hr.empty
      rw [split_chan, List.append_eq_nil_iff] at hn
      have hc : (s.chan.take n).foldl collect [] = [] := by
        have : ∀ ts : List Task, primes ts = [] → ts.foldl collect [] = [] := by
          intro ts
          induction ts with
          | nil => intro _; rfl
          | cons t ts ih =>
            intro h
            cases t with
            | other => exact ih h
            | prime p => simp [primes] at h
        exact this _ hn.1
      rw [hc]
      refine ⟨_, rfl, ?_⟩
      cases request
      · exact start_idle (s := { s with chan := s.chan.drop n }) hq hr.idle hn.2 hr.shown (fun h => absurd h hr.last) pct
      · exact start_idle (s := { s with chan := s.chan.drop n, queue := s.queue.requestOp () }) hq hr.idle hn.2 hr.shown (fun _ => rfl) pct
    · rw [split_chan] at h2
      obtain ⟨m, h4, h5⟩ := h2.split
      obtain ⟨s', e1, e2, e3, e4⟩ := showAll_walk hp _ (s := { s with chan := s.chan.drop n }) hq h1 (collect_all (s.chan.take n) .nil h4)
      rw [e1]
      refine ⟨_, rfl, ?_⟩
      rcases e4 with ⟨f1, f2⟩ | ⟨rfl, f1, f2, f3⟩
      · have : ∀ s'' : St P, s''.queue.inProgress = true → s''.out = s'.out → s''.job = s'.job → s''.chan = s'.chan → Inv pct (start s'') := by
          intro s'' g1 g2 g3 g4
          rw [start_busy g1]
          refine .inr ⟨g1, m, b, by rw [g2]; exact f2, ?_, by rw [g3, e2]; exact h3⟩
          rw [g4, e3]; exact h5
        cases request
        · exact this _ f1 rfl rfl rfl
        · exact this _ f1 rfl rfl rfl
      · obtain ⟨g1, rfl⟩ := h5.after_nil
        have hj : s.job = .idle := by
          revert h3
          cases s.job <;> simp [At]
        cases request
        · exact start_idle f1 (e2.trans hj) (by rw [e3]; exact g1) f2 f3 pct
        · exact start_idle (s := { s' with queue := s'.queue.requestOp () }) f1 (e2.trans hj) (by simp only [e3]; exact g1) f2 (fun _ => rfl) pct
  | begin_ projects workers =>
    simp only [St.step]
    split
    · next hj =>
      refine ⟨_, rfl, inv_send hi (by rw [hj]; simp) fun b hb => ⟨.inside 0 projects.length, ?_, rfl, rfl, Nat.zero_le _, fun h => by cases h⟩⟩
      rw [hj] at hb
      cases b with
      | before => exact .begin_ .nil
      | inside _ _ => exact hb.elim
      | after => exact hb.elim
    · exact ⟨_, rfl, hi⟩
  | finish c =>
    simp only [St.step]
    split
    · next r hj =>
      refine ⟨_, rfl, inv_send hi (by rw [hj]; simp) fun b hb => ⟨.after, ?_, trivial⟩⟩
      rw [hj] at hb
      cases b with
      | before => exact hb.elim
      | inside _ _ => exact .end_ .nil
      | after => exact hb.elim
    · exact ⟨_, rfl, hi⟩
  | work x names =>
    simp only [St.step]
    split
    · next r hj =>
      split
      · exact ⟨_, rfl, hi⟩
      · next r' hr =>
        have quiet : x ≠ .recv → Inv pct { s with job := .running r' } := by
          intro hx
          rcases hi with ⟨-, h⟩ | ⟨hq, w, b, h1, h2, h3⟩
          · exact absurd (hj.symm.trans h.idle) (by simp)
          · rw [hj] at h3
            cases b with
            | before => exact h3.elim
            | after => exact h3.elim
            | inside d t =>
              obtain ⟨rfl, rfl, h4, h5⟩ := h3
              obtain ⟨g1, g2, g3, g4, g5⟩ := prime_done hr h4 h5
              exact .inr ⟨hq, w, _, h1, h2, (g5 hx).symm, by rw [g1], g3, g4⟩
        split
        · refine ⟨_, rfl, inv_send hi (by rw [hj]; simp) fun b hb => ?_⟩
          rw [hj] at hb
          cases b with
          | before => exact hb.elim
          | after => exact hb.elim
          | inside d t =>
            obtain ⟨rfl, rfl, h4, h5⟩ := hb
            obtain ⟨g1, g2, g3, g4, g5⟩ := prime_done hr h4 h5
            refine ⟨.inside r'.done r'.projects.length, ?_, rfl, rfl, g3, g4⟩
            rw [g1] at g3 ⊢
            exact .report g2 g3 .nil
        · next hx => exact ⟨_, rfl, quiet hx⟩
    · exact ⟨_, rfl, hi⟩

theorem inv_run {pct : Nat → Nat → Nat} (hp : Percentage pct) (as : List (Step P)) : ∀ {s : St P}, Inv pct s → ∃ s', s.run pct as = some s' ∧ Inv pct s' := by
  induction as with
  | nil => intro s h; exact ⟨s, rfl, h⟩
  | cons a as ih =>
    intro s h
    have : ∃ s', s.next pct a = some s' ∧ Inv pct s' := by
      cases a with
      | act a => exact inv_step hp h a
      | sendOther =>
        refine ⟨_, rfl, ?_⟩
        have e : primes (s.chan ++ [.other]) = primes s.chan := by simp [primes_append, primes]
        rcases h with ⟨hq, hr⟩ | ⟨hq, x, y, h1, h2, h3⟩
        · exact .inl ⟨hq, hr.idle, e.trans hr.empty, hr.shown, hr.requested, hr.last⟩
        · exact .inr ⟨hq, x, y, h1, by simp only [e]; exact h2, h3⟩
    obtain ⟨s₁, h1, h2⟩ := this
    obtain ⟨s', h3, h4⟩ := ih h2
    exact ⟨s', by rw [St.run, h1]; exact h3, h4⟩

theorem inv_init (pct : Nat → Nat → Nat) : Inv pct ({} : St P) :=
  .inl ⟨rfl, rfl, rfl, .nothing, rfl, by simp⟩

/-- **C94.** In every schedule of the main loop, the jobs and their workers, however the messages are grouped into turns, no assertion fails, and what the
client is sent follows the protocol. -/
theorem progress_wellformed {pct : Nat → Nat → Nat} (hp : Percentage pct) (as : List (Step P)) :
    ∃ s o, ({} : St P).run pct as = some s ∧ Protocol s.out o := by
  obtain ⟨s, h1, h2⟩ := inv_run hp as (inv_init pct)
  rcases h2 with ⟨-, hr⟩ | ⟨-, a, b, h, -, -⟩
  · exact ⟨s, none, h1, hr.shown⟩
  · cases a with
    | before => exact ⟨s, none, h1, h⟩
    | inside d t =>
      obtain ⟨p, h, -⟩ := h
      exact ⟨s, some p, h1, h⟩
    | after => exact h.elim

/-- **C94, the end.** Whenever no job is at work and all its messages were handled, the progress shown has ended, and indexing was not given up: the last
job was not cancelled. -/
theorem progress_ends {pct : Nat → Nat → Nat} (hp : Percentage pct) (as : List (Step P)) (s : St P) (hs : ({} : St P).run pct as = some s)
    (hj : s.job = .idle) (hc : ∀ p, Task.prime p ∉ s.chan) : Protocol s.out none ∧ s.finished.getLast? ≠ some true := by
  obtain ⟨s', h1, h2⟩ := inv_run hp as (inv_init pct)
  rw [hs] at h1; cases h1
  have hn : ∀ ts : List Task, (∀ p, Task.prime p ∉ ts) → primes ts = [] := by
    intro ts
    induction ts with
    | nil => intro _; rfl
    | cons t ts ih =>
      intro h
      cases t with
      | other => exact ih fun p hp => h p (List.mem_cons_of_mem _ hp)
      | prime p => exact absurd List.mem_cons_self (h p)
  rcases h2 with ⟨-, hr⟩ | ⟨-, a, b, h3, h4, h5⟩
  · exact ⟨hr.shown, hr.last⟩
  · rw [hj] at h5
    rw [hn _ hc] at h4
    cases h4
    cases a with
    | before => exact h5.elim
    | inside _ _ => exact h5.elim
    | after => exact h3.elim

/-- **C94, the text of a report.** Every report handled gives the client exactly one more note. Its text is there exactly when some project is being
indexed. It begins with how many of how many projects are done, then names the first project being indexed; if there are others it says how many. -/
theorem report_text (pct : Nat → Nat → Nat) (s s' : St P) (names : List Str) (d t : Nat) (h : show_ pct s (.report names d t) = some s') :
    ∃ m, s'.out = s.out ++ [.report m (pct d t)] ∧ (names = [] → m = none) ∧
      (∀ x rest, names = x :: rest → m =
        some ((toString d).toList ++ ['/'] ++ (toString t).toList ++ [' ', '('] ++ x ++
          (if rest = [] then [] else " + ".toList ++ (toString (names.length - 1)).toList ++ " more".toList) ++ [')'])) := by
  simp only [show_] at h
  split at h
  · cases h
    refine ⟨_, rfl, fun e => by subst e; rfl, fun x rest e => ?_⟩
    subst e
    cases rest <;> simp [message]
  · cases h

/-- Exact percentages, as an instance. -/
theorem percentage_exact : Percentage fun d t => d * 100 / max t 1 := by
  refine ⟨fun d t h => ?_, fun d d' t h => Nat.div_le_div_right (Nat.mul_le_mul_right _ h)⟩
  have hm : 0 < max t 1 := Nat.lt_of_lt_of_le Nat.one_pos (Nat.le_max_right _ _)
  rw [Nat.div_le_iff_le_mul_add_pred hm]
  have : d ≤ max t 1 := Nat.le_trans h (Nat.le_max_left _ _)
  have := Nat.mul_le_mul_right 100 this
  omega

/-- Two projects are indexed by one worker; the job is cancelled after the first, and started again in the turn in which that is handled. -/
def sample : List (Step String) :=
  [.act (.turn 0 true), .act (.begin_ ["a", "b"] 1), .act (.work .turn []), .act (.work (.take 0) []), .act (.work .recv ["a".toList]),
   .act (.work .turn []), .act (.work (.finish 0) []), .sendOther, .act (.turn 2 false), .act (.work .recv []), .act (.finish true), .act (.turn 3 false),
   .act (.begin_ [] 1), .act (.finish false), .act (.turn 2 false)]

example : ∃ s, ({} : St String).run (fun d t => d * 100 / max t 1) sample = some s ∧ s.job = .idle ∧ s.chan = [] ∧
    s.out = [.create, .begin_ 0, .report (some "0/2 (a)".toList) 0, .report none 50, .end_, .create, .begin_ 0, .end_] ∧ s.finished = [true, false] := by
  refine ⟨_, rfl, rfl, rfl, ?_, rfl⟩
  decide +kernel

end Verif.Props.Indexing
