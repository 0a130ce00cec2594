import Verif.Pre.ChoiceSpec
import Verif.Props.EvalUse
import Verif.Props.Conditional
/-!
# C18 and C28 with conditions by their meaning
-/

namespace Verif.Props.Choice
open Verif.Pre Verif.Pre.Spec Verif.Props.EvalUse
open Verif.Props.Conditional (Covers Gaps)

theorem effects_end {p : Profile} {macros : Macros} : ∀ (f : Nat) (st st' : ESt), eLoop p macros f st = some (.ok st') →
    (eEffects p macros f st).1 = st'.disabled := by
  intro f
  induction f with
  | zero => intro st st' h; simp [eLoop] at h
  | succ f ih =>
    intro st st' h
    simp only [eLoop] at h
    simp only [eEffects]
    rcases hn : eNext st with _ | ⟨s, st₁⟩
    · rw [hn] at h
      simp only [Option.some.injEq, Res.ok.injEq] at h
      subst h; rfl
    · rw [hn] at h
      simp only at h ⊢
      rcases hs : eStep p macros f s st₁ with _ | (st₂ | _ | _) <;> rw [hs] at h
      · cases h
      · exact ih st₂ st' h
      · cases h
      · cases h

theorem feed_disabled {p : Profile} {macros : Macros} {read : Kind → Str → Option Int} {l : List KT} (h : Cond l) : ∀ st st' : ESt, st.lfd = false →
    feed p macros read l st = .ok st' → st'.disabled = st.disabled := by
  induction h with
  | nil => intro st st' _ h; simp only [feed, Res.ok.injEq] at h; subst h; rfl
  | @plain k l hk _ ih =>
    intro st st' hl h
    simp only [feed] at h
    rcases hs : eStep p macros 0 (symOf read k) st with _ | (st₂ | _ | _) <;> rw [hs] at h
    · cases h
    · obtain ⟨-, -, g3, g4⟩ := keeps_one hk hs
      exact (ih st₂ st' (g4.trans hl) h).trans g3
    · cases h
    · cases h
  | @defined d x l h1 h2 _ ih =>
    intro st st' hl h
    simp only [feed, step_defined h1] at h
    rw [step_name h2 rfl] at h
    simp only at h
    have := ih _ st' rfl h
    exact this
  | @definedParen d o x c l h1 h2 h3 h4 _ ih =>
    intro st st' hl h
    simp only [feed, step_defined h1] at h
    rcases hs : eStep p macros 0 (symOf read o) { st with lfd := true } with _ | (st₂ | _ | _) <;> rw [hs] at h
    · cases h
    · obtain ⟨-, -, g3, g4⟩ := keeps_one (.inl h2) hs
      have g4 : st₂.lfd = true := g4
      simp only at h
      rw [step_name h3 g4] at h
      simp only at h
      rcases hs' : eStep p macros 0 (symOf read c) { st₂ with out := (if (macros x.2).isSome then 1 else 0) :: st₂.out, lfd := false, mbu := false }
        with _ | (st₃ | _ | _) <;> rw [hs'] at h
      · cases h
      · obtain ⟨-, -, k3, k4⟩ := keeps_one (.inr (.inl h4)) hs'
        exact (ih st₃ st' k4 h).trans (k3.trans g3)
      · cases h
      · cases h
    · cases h
    · cases h

/-- A condition that stands for an expression with a value is true or false as this value says. -/
theorem condition_of_truth {env : Env} (hp : env.profile = .release) {s : PSt} {cond : List Sym} {b : Bool} (h : Truth s cond b) : Condition env s cond b := by
  obtain ⟨ts, nl, rs, read, line, e, v, rfl, hnl, hrep, he, hv, rfl, hline, hval, hstr, hbody, hen⟩ := h
  obtain ⟨N, hN⟩ := condition_with_definitions_partial s.macros s.disabled ts nl rs read line hrep hline hen hnl hval hstr hbody he hv
  have hread : Read s.macros read := ⟨hstr, hbody⟩
  have hc := (eats_condition (p := .release) hread (line := line) hrep).1
  have hE : Eats .release s.macros read (put (ts ++ nl) [] (start s.disabled)) (rs.map ofSym) [] :=
    eats_line (line := line) hread hrep ts nl _ rfl rfl rfl rfl (fun x hx =>
      ⟨(hline x hx).1, (hline x hx).2.1, (hline x hx).2.2, hval x (by simp [hx]), hen x hx⟩) (fun x hx => hval x (by simp [hx])) hnl
  have hdir := hc.directs (p := .release) (macros := s.macros) (read := read) (start s.disabled) rfl
  unfold Eats at hE
  rw [feed_put_direct _ (start s.disabled) hdir] at hE
  refine ⟨.ok (decide (v ≠ 0)), ?_⟩
  rcases hf : feed .release s.macros read (rs.map ofSym) (start s.disabled) with st' | _ | _ <;> rw [hf] at hE
  · have hend : Ev .release s.macros (put [] [] (put (ts ++ nl) [] st')) (.ok (put [] [] (put (ts ++ nl) [] st'))) := ⟨1, fun k => by
      rw [Nat.add_comm 1 k]
      simp only [eLoop, eNext, put]⟩
    obtain ⟨M, hM⟩ := hE _ hend
    refine ⟨N + M, fun f hf' => ?_, by simp, by simp⟩
    obtain ⟨k, rfl⟩ := Nat.le.dest hf'
    rw [hp]
    refine ⟨by rw [Nat.add_assoc]; exact hN _, ?_⟩
    have := hM (N + k)
    rw [show M + (N + k) = N + M + k by omega] at this
    exact (effects_end _ _ _ this).trans (feed_disabled hc (start s.disabled) st' rfl hf)
  · obtain ⟨M, hM⟩ := hE _ rfl
    have h1 := hN M
    have h2 := hM N
    rw [Nat.add_comm M N] at h2
    unfold evaluate evaluateValue at h1
    have p1 : put (ts ++ nl) [] (start s.disabled) = ⟨ts ++ nl, [], [], [], true, false, s.disabled⟩ := rfl
    rw [p1] at h2
    rw [h2] at h1
    cases h1
  · obtain ⟨M, hM⟩ := hE _ rfl
    have h1 := hN M
    have h2 := hM N
    rw [Nat.add_comm M N] at h2
    unfold evaluate evaluateValue at h1
    have p1 : put (ts ++ nl) [] (start s.disabled) = ⟨ts ++ nl, [], [], [], true, false, s.disabled⟩ := rfl
    rw [p1] at h2
    rw [h2] at h1
    cases h1

mutual
theorem sel_of_picked {env : Env} (hp : env.profile = .release) {s s' : PSt} {f : Items} {sel : List Sym} {g : List Nat} (h : Picked env s f sel g s') :
    Sel env s f sel g s' := by
  cases h with
  | nil => exact .nil
  | text h1 h2 => exact .text h1 (sel_of_picked hp h2)
  | chain h1 h2 => exact .chain (choose_of_branch hp h1) (sel_of_picked hp h2)
theorem choose_of_branch {env : Env} (hp : env.profile = .release) {s s' : PSt} {c : Branches} {sel : List Sym} {g : List Nat} (h : Branch env s c sel g s') :
    Choose env s c sel g s' := by
  cases h with
  | none => exact .none
  | skip h1 h2 => exact .skip (condition_of_truth hp h1) (choose_of_branch hp h2)
  | take h1 h2 => exact .take (condition_of_truth hp h1) (sel_of_picked hp h2)
  | otherwise h => exact .otherwise (sel_of_picked hp h)
end

/-- **C18, with conditions by their meaning**: preprocessing a well-nested file gives what preprocessing the selected text alone gives, up to white space: the
same text and the same macros. The selected text is that of the branches whose condition is the first of its chain with a value other than zero, the value
being that of the expression the condition stands for once its definitions are replaced. -/
theorem conditional_compilation_meaning (env : Env) (hp : env.profile = .release) (macros : Macros) (file : Items) (sel : List Sym) (grey : List Nat) (s' : PSt)
    (eof : Sym) (hw : file.WF) (hk : eof.kind = .eof) (hin : eof.inPre = false) (h : Picked env (Conditional.start macros) file sel grey s') :
    ∃ r₁ r₂, Gives env macros (file.tokens ++ [eof]) (.result r₁) ∧ Gives env macros (sel ++ [eof]) (.result r₂) ∧
      visible (['\n'].intercalate r₁.out) = visible (['\n'].intercalate r₂.out) ∧ r₁.macros = r₂.macros :=
  Conditional.conditional_compilation env macros file sel grey s' eof hw hk hin (sel_of_picked hp h)

/-- **C28, with conditions by their meaning**: the lines reported as inactive are those of the branches that are not chosen, where the conditions have the value of
the expressions they stand for. What is missing: as in `Conditional.inactive_lines_partial`, skipped tokens of several lines. -/
theorem inactive_lines_meaning_partial (env : Env) (hp : env.profile = .release) (macros : Macros) (file : Items) (sel : List Sym) (grey : List Nat) (s' : PSt)
    (eof : Sym) (hw : file.WF) (hk : eof.kind = .eof) (hin : eof.inPre = false) (h : Picked env (Conditional.start macros) file sel grey s') :
    ∃ r, Gives env macros (file.tokens ++ [eof]) (.result r) ∧ (∀ n, Covers (inactiveRanges r.skipped) n ↔ n ∈ grey) ∧
      (grey.Pairwise (· < ·) → Gaps (inactiveRanges r.skipped)) :=
  Conditional.inactive_lines_partial env macros file sel grey s' eof hw hk hin (sel_of_picked hp h)

/-! ### Example -/

open Conditional (sy nl oneMacro plainEnv sample sample_wf)

private def readEx : Kind → Str → Option Int := fun k x =>
  if k = .intLit then (if x = "1".toList then some 1 else if x = "0".toList then some 0 else none) else none

private theorem one_body {s : PSt} (hs : s.macros = oneMacro) : ∀ x m, s.macros x = some m → ∀ r ∈ m.body, r.val = readEx r.kind r.text := by
  intro x m hm
  rw [hs] at hm
  unfold oneMacro at hm
  split at hm
  · simp only [Option.some.injEq] at hm; subst hm; decide
  · cases hm

/-- `#if A` is true where `A` is `1`. -/
theorem truth_A (s : PSt) (hs : s.macros = oneMacro) (hd : s.disabled = []) : Truth s [sy .ident "A" 0 true, nl 0 true] true := by
  refine ⟨[sy .ident "A" 0 true], [nl 0 true], [sy .intLit "1" 0 true (some 1)], readEx, 0, .lit 1, 1, rfl, by decide, ?_, ?_, by decide, by decide, by decide,
    by decide, fun _ => rfl, one_body hs, by simp [hd]⟩
  · rw [hs]
    refine .part (a := [(.ident, "A".toList)]) (b := [(.intLit, "1".toList)]) (ts := []) (r := []) ?_ (by simp [Itself]) .nil
    exact .use (b := [(.intLit, "1".toList)]) (r := []) (m := ⟨0, 0, none, 0, [⟨.intLit, "1".toList, ⟨0, 0⟩, some 1⟩]⟩) (by decide) rfl (by decide)
      (.keep (by decide) (by decide) .nil) .nil
  · exact Parses.weaken (.num (.inl rfl) rfl) (by decide)

/-- `#if 0` is not. -/
theorem truth_0 (s : PSt) (hs : s.macros = oneMacro) (hd : s.disabled = []) (n : Nat) : Truth s [sy .intLit "0" n true (some 0), nl n true] false := by
  refine ⟨[sy .intLit "0" n true (some 0)], [nl n true], [sy .intLit "0" n true (some 0)], readEx, n, .lit 0, 0, rfl, by simp [nl], ?_, ?_, by decide, by decide,
    by simp [sy], ?_, fun _ => rfl, one_body hs, by simp [hd]⟩
  · rw [hs]
    exact .part (a := [(.intLit, "0".toList)]) (b := [(.intLit, "0".toList)]) (ts := []) (r := []) (.keep (by decide) (by decide) .nil) (by simp [Itself]) .nil
  · exact Parses.weaken (.num (.inl rfl) rfl) (by decide)
  · intro x hx
    simp only [List.cons_append, List.nil_append, List.mem_cons, List.not_mem_nil, or_false] at hx
    rcases hx with rfl | rfl | rfl <;> rfl

/-- `x` is selected, lines 3, 5 and 6 are not. -/
theorem sample_picked : ∃ s', Picked plainEnv (Conditional.start oneMacro) sample [sy .ident "x" 1, nl 1, nl 4, nl 7] [3, 5, 6] s' := by
  have h1 : Segment plainEnv [sy .ident "x" 1, nl 1] (Conditional.start oneMacro) _ :=
    Conditional.Segment.append (Conditional.segment_word (Conditional.start oneMacro) rfl rfl rfl "x" 1 rfl)
      (Conditional.segment_nl (pushSym (sy .ident "x" 1) (Conditional.start oneMacro)) rfl rfl 1)
  exact ⟨_, Picked.chain (sel₁ := [sy .ident "x" 1, nl 1, nl 4]) (g₁ := [3, 5, 6]) (g₂ := [])
    (Branch.take (g := [3]) (truth_A _ rfl rfl)
      (Picked.text h1 (Picked.chain (sel₁ := []) (g₁ := [3]) (g₂ := []) (Branch.skip (g := []) (truth_0 _ rfl rfl 2) Branch.none)
        (Picked.text (Conditional.segment_nl _ rfl rfl 4) Picked.nil))))
    (Picked.text (Conditional.segment_nl _ rfl rfl 7) Picked.nil)⟩

example : ∃ r₁ r₂, Gives plainEnv oneMacro (sample.tokens ++ [sy .eof "" 8]) (.result r₁) ∧
    Gives plainEnv oneMacro ([sy .ident "x" 1, nl 1, nl 4, nl 7] ++ [sy .eof "" 8]) (.result r₂) ∧
      visible (['\n'].intercalate r₁.out) = visible (['\n'].intercalate r₂.out) ∧ r₁.macros = r₂.macros :=
  let ⟨s', h⟩ := sample_picked
  conditional_compilation_meaning plainEnv rfl oneMacro sample _ _ s' _ sample_wf rfl rfl h

end Verif.Props.Choice
