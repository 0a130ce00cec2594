import Verif.Ide.Prime
/-!
# C39: priming finishes only when every project was primed
-/

namespace Verif.Props.Prime
open Verif.Ide.Prime

variable {P : Type}

def isEnd : Progress P → Bool
  | .end_ _ => true
  | .begin_ _ => false

def busy (ws : List (Option P)) : List P := ws.filterMap id

theorem busy_take (ws : List (Option P)) : ∀ (w : Nat) (p : P), ws[w]? = some none → (busy (ws.set w (some p))).length = (busy ws).length + 1 ∧
    (∀ x, x ∈ busy (ws.set w (some p)) ↔ x ∈ busy ws ∨ x = p) := by
  induction ws with
  | nil => intro w p h; simp at h
  | cons a ws ih =>
    intro w p h
    cases w with
    | zero =>
      simp only [List.getElem?_cons_zero, Option.some.injEq] at h
      subst h
      refine ⟨by simp [busy], fun x => ?_⟩
      simp only [busy, List.set_cons_zero, List.filterMap_cons, id]
      rw [List.mem_cons]
      exact Or.comm
    | succ w =>
      simp only [List.getElem?_cons_succ] at h
      obtain ⟨h1, h2⟩ := ih w p h
      cases a with
      | none =>
        refine ⟨by simpa [busy] using h1, fun x => ?_⟩
        have := h2 x
        simpa [busy] using this
      | some y =>
        refine ⟨by have := h1; simp only [busy, List.set_cons_succ, List.filterMap_cons, id, List.length_cons] at this ⊢; omega, fun x => ?_⟩
        have := h2 x
        simp only [busy, List.set_cons_succ, List.filterMap_cons, id, List.mem_cons] at this ⊢
        rw [this, or_assoc]

theorem busy_finish (ws : List (Option P)) : ∀ (w : Nat) (p : P), ws[w]? = some (some p) → (busy (ws.set w none)).length + 1 = (busy ws).length ∧
    (∀ x, x ∈ busy ws → x ∈ busy (ws.set w none) ∨ x = p) := by
  induction ws with
  | nil => intro w p h; simp at h
  | cons a ws ih =>
    intro w p h
    cases w with
    | zero =>
      simp only [List.getElem?_cons_zero, Option.some.injEq] at h
      subst h
      refine ⟨by simp [busy], fun x hx => ?_⟩
      simp only [busy, List.set_cons_zero, List.filterMap_cons, id, List.mem_cons] at hx ⊢
      exact hx.symm
    | succ w =>
      simp only [List.getElem?_cons_succ] at h
      obtain ⟨h1, h2⟩ := ih w p h
      cases a with
      | none =>
        refine ⟨by simpa [busy] using h1, fun x hx => ?_⟩
        have := h2 x (by simpa [busy] using hx)
        simpa [busy] using this
      | some y =>
        refine ⟨by have := h1; simp only [busy, List.set_cons_succ, List.filterMap_cons, id, List.length_cons] at this ⊢; omega, fun x hx => ?_⟩
        simp only [busy, List.set_cons_succ, List.filterMap_cons, id, List.mem_cons] at hx ⊢
        rcases hx with hx | hx
        · exact .inl (.inl hx)
        · rcases h2 x hx with h | h
          · exact .inl (.inr h)
          · exact .inr h

/-- The invariant; `taken` is the work the workers took. -/
structure Inv (s : St P) (taken : List P) : Prop where
  cycle : ∃ m, taken ++ s.queue = (List.replicate m s.projects).flatten
  covered : ∀ p ∈ taken, p ∈ s.indexed ∨ p ∈ busy s.workers
  count : taken.length = s.indexed.length + (busy s.workers).length
  ends : s.done + (s.progress.filter isEnd).length = s.indexed.length
  reported : ∀ n ∈ s.reports, n ≤ s.done

theorem cycle_snoc (m : Nat) (l : List P) : (List.replicate (m + 1) l).flatten = (List.replicate m l).flatten ++ l := by
  rw [List.replicate_succ']; simp

theorem step_inv {s s' : St P} {taken : List P} (h : Inv s taken) (a : Act) (hs : s.step a = some s') :
    ∃ taken', Inv s' taken' ∧ s'.projects = s.projects ∧ s'.workers.length = s.workers.length := by
  obtain ⟨⟨m, hc⟩, hcov, hcount, hends, hrep⟩ := h
  cases a with
  | turn =>
    simp only [St.step] at hs
    split at hs
    · split at hs
      · simp only [Option.some.injEq] at hs; subst hs
        exact ⟨taken, ⟨⟨m + 1, by rw [cycle_snoc, ← hc, List.append_assoc]⟩, hcov, hcount, hends, hrep⟩, rfl, rfl⟩
      · simp only [Option.some.injEq] at hs; subst hs
        exact ⟨taken, ⟨⟨m, hc⟩, hcov, hcount, hends, hrep⟩, rfl, rfl⟩
    · simp at hs
  | recv =>
    simp only [St.step] at hs
    split at hs
    · cases hp : s.progress with
      | nil => simp [hp] at hs
      | cons x r =>
        cases x with
        | begin_ p =>
          simp only [hp, Option.some.injEq] at hs; subst hs
          refine ⟨taken, ⟨⟨m, hc⟩, hcov, hcount, ?_, ?_⟩, rfl, rfl⟩
          · rw [hp] at hends; simpa [isEnd] using hends
          · intro n hn
            rcases List.mem_append.1 hn with hn | hn
            · exact hrep n hn
            · simp only [List.mem_singleton] at hn; subst hn; exact Nat.le_refl _
        | end_ p =>
          simp only [hp, Option.some.injEq] at hs; subst hs
          refine ⟨taken, ⟨⟨m, hc⟩, hcov, hcount, ?_, ?_⟩, rfl, rfl⟩
          · rw [hp] at hends
            simp only [List.filter_cons, isEnd, if_true, List.length_cons] at hends ⊢
            omega
          · intro n hn
            rcases List.mem_append.1 hn with hn | hn
            · have := hrep n hn; show n ≤ s.done + 1; omega
            · simp only [List.mem_singleton] at hn; subst hn; exact Nat.le_refl _
    · simp at hs
  | timeout =>
    simp only [St.step] at hs
    split at hs
    · simp only [Option.some.injEq] at hs; subst hs
      exact ⟨taken, ⟨⟨m, hc⟩, hcov, hcount, hends, hrep⟩, rfl, rfl⟩
    · simp at hs
  | take w =>
    simp only [St.step] at hs
    cases hw : s.workers[w]? with
    | none => simp [hw] at hs
    | some o =>
      cases o with
      | some y => simp [hw] at hs
      | none =>
        cases hq : s.queue with
        | nil => simp [hw, hq] at hs
        | cons p q =>
          simp only [hw, hq, Option.some.injEq] at hs
          subst hs
          obtain ⟨b1, b2⟩ := busy_take s.workers w p hw
          refine ⟨taken ++ [p], ⟨⟨m, by rw [← hc, hq]; simp⟩, ?_, ?_, ?_, hrep⟩, rfl, by simp⟩
          · intro x hx
            rcases List.mem_append.1 hx with hx | hx
            · rcases hcov x hx with h | h
              · exact .inl h
              · exact .inr ((b2 x).2 (.inl h))
            · simp only [List.mem_singleton] at hx
              exact .inr ((b2 x).2 (.inr hx))
          · simp only [List.length_append, List.length_singleton]
            omega
          · simpa [isEnd] using hends
  | finish w =>
    simp only [St.step] at hs
    cases hw : s.workers[w]? with
    | none => simp [hw] at hs
    | some o =>
      cases o with
      | none => simp [hw] at hs
      | some p =>
        simp only [hw, Option.some.injEq] at hs
        subst hs
        obtain ⟨b1, b2⟩ := busy_finish s.workers w p hw
        refine ⟨taken, ⟨⟨m, hc⟩, ?_, ?_, ?_, hrep⟩, rfl, by simp⟩
        · intro x hx
          rcases hcov x hx with h | h
          · exact .inl (by simp [h])
          · rcases b2 x h with h | h
            · exact .inr h
            · exact .inl (by simp [h])
        · simp only [List.length_append, List.length_singleton]; omega
        · simp only [List.filter_append, List.length_append, List.filter_cons, isEnd, if_true, List.filter_nil, List.length_singleton]
          omega

theorem run_inv (acts : List Act) : ∀ (s s' : St P) (taken : List P), Inv s taken → s.run acts = some s' →
    ∃ taken', Inv s' taken' ∧ s'.projects = s.projects ∧ s'.workers.length = s.workers.length := by
  induction acts with
  | nil => intro s s' t h hs; simp only [St.run, Option.some.injEq] at hs; subst hs; exact ⟨t, h, rfl, rfl⟩
  | cons a acts ih =>
    intro s s' t h hs
    simp only [St.run, Option.bind_eq_some_iff] at hs
    obtain ⟨s1, h1, h2⟩ := hs
    obtain ⟨t1, i1, e1, f1⟩ := step_inv h a h1
    obtain ⟨t2, i2, e2, f2⟩ := ih _ _ _ i1 h2
    exact ⟨t2, i2, by rw [e2, e1], by rw [f2, f1]⟩

theorem init_inv (projects : List P) (n : Nat) : Inv (St.init projects n) [] := by
  refine ⟨⟨0, rfl⟩, by simp, ?_, rfl, by simp [St.init]⟩
  have : ∀ n, busy (List.replicate n (none : Option P)) = [] := by
    intro n; induction n with
    | zero => rfl
    | succ n ih => rw [List.replicate_succ]; simpa [busy] using ih
  simp [St.init, this]

theorem mem_taken {s : St P} {taken : List P} (h : Inv s taken) (hn : s.projects.length ≤ taken.length) : ∀ p ∈ s.projects, p ∈ taken := by
  obtain ⟨m, hc⟩ := h.cycle
  intro p hp
  cases m with
  | zero =>
    have : taken = [] := by simp at hc; exact hc.1
    rw [this] at hn
    have : s.projects = [] := by simpa using hn
    rw [this] at hp; simp at hp
  | succ m =>
    rw [List.replicate_succ, List.flatten_cons] at hc
    have : s.projects <+: taken := List.prefix_of_prefix_length_le (l₃ := taken ++ s.queue) ⟨_, hc.symm⟩ (List.prefix_append _ _) hn
    exact this.subset hp

/-- **C39, what holds for every number of workers and every schedule**: when a report says that all projects are done, every project was
indexed or is being indexed by a worker right now. -/
theorem primed_partial (projects : List P) (n : Nat) (acts : List Act) (s : St P) (h : (St.init projects n).run acts = some s)
    (hr : projects.length ∈ s.reports) : ∀ p ∈ projects, p ∈ s.indexed ∨ some p ∈ s.workers := by
  obtain ⟨taken, hi, hp, -⟩ := run_inv acts _ _ _ (init_inv projects n) h
  have hp : s.projects = projects := hp
  have := hi.reported _ hr
  have h2 := hi.ends
  have h3 := hi.count
  intro p hm
  rcases hi.covered p (mem_taken hi (by rw [hp]; omega) p (by rw [hp]; exact hm)) with h | h
  · exact .inl h
  · simp only [busy, List.mem_filterMap, id] at h
    obtain ⟨a, ha, rfl⟩ := h
    exact .inr ha

theorem step_one {s s' : St P} (a : Act) (hs : s.step a = some s') (w : Option P) (hw : s.workers = [w])
    (h : ∃ m, s.indexed ++ w.toList ++ s.queue = (List.replicate m s.projects).flatten) :
    ∃ w', s'.workers = [w'] ∧ ∃ m, s'.indexed ++ w'.toList ++ s'.queue = (List.replicate m s'.projects).flatten := by
  obtain ⟨m, hc⟩ := h
  cases a with
  | turn =>
    simp only [St.step] at hs
    split at hs
    · split at hs
      · simp only [Option.some.injEq] at hs; subst hs
        exact ⟨w, hw, m + 1, by show s.indexed ++ w.toList ++ (s.queue ++ s.projects) = _; rw [cycle_snoc, ← hc]; simp⟩
      · simp only [Option.some.injEq] at hs; subst hs
        exact ⟨w, hw, m, hc⟩
    · simp at hs
  | recv =>
    simp only [St.step] at hs
    split at hs
    · cases hp : s.progress with
      | nil => simp [hp] at hs
      | cons x r => cases x <;> (simp only [hp, Option.some.injEq] at hs; subst hs; exact ⟨w, hw, m, hc⟩)
    · simp at hs
  | timeout =>
    simp only [St.step] at hs
    split at hs
    · simp only [Option.some.injEq] at hs; subst hs
      exact ⟨w, hw, m, hc⟩
    · simp at hs
  | take i =>
    cases i with
    | succ i => simp [St.step, hw] at hs
    | zero =>
      simp only [St.step, hw, List.getElem?_cons_zero] at hs
      cases w with
      | some y => simp at hs
      | none =>
        cases hq : s.queue with
        | nil => simp [hq] at hs
        | cons p q =>
          simp only [hq, Option.some.injEq] at hs
          subst hs
          exact ⟨some p, rfl, m, by rw [← hc, hq]; simp⟩
  | finish i =>
    cases i with
    | succ i => simp [St.step, hw] at hs
    | zero =>
      simp only [St.step, hw, List.getElem?_cons_zero] at hs
      cases w with
      | none => simp at hs
      | some p =>
        simp only [Option.some.injEq] at hs
        subst hs
        exact ⟨none, rfl, m, by rw [← hc]; simp⟩

/-- **C39 with one worker**: when a report says that all projects are done, they are. -/
theorem primed_one_worker (projects : List P) (acts : List Act) (s : St P) (h : (St.init projects 1).run acts = some s)
    (hr : projects.length ∈ s.reports) : ∀ p ∈ projects, p ∈ s.indexed := by
  obtain ⟨taken, hi, hp, -⟩ := run_inv acts _ _ _ (init_inv projects 1) h
  have hp : s.projects = projects := hp
  have hone : ∀ (acts : List Act) (s0 s1 : St P) (w : Option P), s0.run acts = some s1 → s0.workers = [w] →
      (∃ m, s0.indexed ++ w.toList ++ s0.queue = (List.replicate m s0.projects).flatten) →
      ∃ w', s1.workers = [w'] ∧ ∃ m, s1.indexed ++ w'.toList ++ s1.queue = (List.replicate m s1.projects).flatten := by
    intro acts
    induction acts with
    | nil => intro s0 s1 w h1 h2 h3; simp only [St.run, Option.some.injEq] at h1; subst h1; exact ⟨w, h2, h3⟩
    | cons a acts ih =>
      intro s0 s1 w h1 h2 h3
      simp only [St.run, Option.bind_eq_some_iff] at h1
      obtain ⟨s', e1, e2⟩ := h1
      obtain ⟨w', e3, e4⟩ := step_one a e1 w h2 h3
      exact ih _ _ w' e2 e3 e4
  obtain ⟨w, -, m, hc⟩ := hone acts _ _ none h rfl ⟨0, rfl⟩
  have hlen : projects.length ≤ s.indexed.length := by
    have := hi.reported _ hr
    have := hi.ends
    omega
  rw [hp] at hc
  intro p hpm
  cases m with
  | zero =>
    have : s.indexed = [] := by simp at hc; exact hc.1
    rw [this] at hlen
    have : projects = [] := by simpa using hlen
    rw [this] at hpm; simp at hpm
  | succ m =>
    rw [List.replicate_succ, List.flatten_cons, List.append_assoc] at hc
    have : projects <+: s.indexed := List.prefix_of_prefix_length_le (l₃ := s.indexed ++ (w.toList ++ s.queue)) ⟨_, hc.symm⟩ (List.prefix_append _ _) hlen
    exact this.subset hpm

/-- One worker and two projects: the last report says `2` and both are indexed. -/
example : ∃ s, (St.init ["a", "b"] 1).run [.turn, .take 0, .finish 0, .recv, .turn, .recv, .turn, .take 0, .finish 0, .recv, .turn, .recv, .turn] = some s ∧
    s.reports = [0, 1, 1, 2] ∧ s.phase = .over ∧ s.indexed = ["a", "b"] := ⟨_, rfl, rfl, by decide, rfl⟩

/-- **C39 is violated** with two workers: all the work is sent again in every turn of the loop, and projects done twice are counted
twice. Here `b` is still being indexed when the report says that both projects are done. -/
theorem primed_refuted : ∃ acts s, (St.init ["a", "b"] 2).run acts = some s ∧ s.reports.getLast? = some 2 ∧ s.phase = .over ∧ "b" ∉ s.indexed :=
  ⟨[.turn, .take 0, .take 1, .recv, .turn, .finish 0, .take 0, .finish 0, .recv, .turn, .recv, .turn, .recv, .turn, .recv, .turn], _, rfl, by decide, by decide, by decide⟩

end Verif.Props.Prime
