import Verif.Pre.MainSpec
import Verif.Props.MacroTerm
/-!
# Fuel does not change results
-/

namespace Verif.Props.PreFuel

open Verif.Pre Verif.Pre.Spec Verif.Props.MacroTerm

/-- Kinds handled by the last case of the evaluator. -/
def Names (k : Kind) : Prop :=
  match k with
  | .lparen | .rparen | .defined | .op _ | .true_ | .false_ | .intLit | .numLit | .charLit | .strLit | .otherLit | .blockComment
  | .lineComment | .newline | .eof | .dir _ => False
  | _ => True

theorem eStep_names (p : Profile) (macros : Macros) (f : Nat) (s : Sym) (st : ESt) (h : Names s.kind) :
    eStep p macros f s st =
      if st.lfd then some (.ok { st with out := (if (macros s.text).isSome then 1 else 0) :: st.out, lfd := false, mbu := false })
      else
        match macros s.text with
        | some m =>
          if m ∈ st.disabled then some (.ok { st with disabled := st.disabled.filter (· ≠ m) })
          else eStep.expandHere macros f s st
        | none => eStep.expandHere macros f s st := by
  unfold eStep
  generalize s.kind = k at *
  cases k <;> first | (exact absurd h id) | rfl

theorem eStep_other (p : Profile) (macros : Macros) (f g : Nat) (s : Sym) (st : ESt) (h : ¬ Names s.kind) :
    eStep p macros f s st = eStep p macros g s st := by
  unfold eStep
  generalize s.kind = k at *
  cases k <;> first | (exact absurd trivial h) | rfl

theorem eDisabled_names (macros : Macros) (f : Nat) (s : Sym) (st : ESt) (h : Names s.kind) :
    eDisabled macros f s st = match expandIdentifier macros false f s.tok st.iter st.stack st.disabled with
      | some o => o.disabled
      | none => st.disabled := by
  unfold eDisabled
  generalize s.kind = k at *
  cases k <;> first | (exact absurd h id) | rfl

theorem eDisabled_other (macros : Macros) (f : Nat) (s : Sym) (st : ESt) (h : ¬ Names s.kind) : eDisabled macros f s st = st.disabled := by
  unfold eDisabled
  generalize s.kind = k at *
  cases k <;> first | (exact absurd trivial h) | rfl

theorem eOffset_names (macros : Macros) (f : Nat) (s : Sym) (st : ESt) (h : Names s.kind) :
    eOffset macros f s st = match macros s.text with
      | none => []
      | some m =>
        if st.lfd then [(s.range.s.line, ⟨s.range, 0, 0, m.idx, m.fileId⟩)]
        else if m ∈ st.disabled then []
        else
          match expandIdentifier macros false f s.tok st.iter st.stack st.disabled with
          | some o => match o.value with | .ok d => [(s.range.s.line, ⟨s.range, 0, d, m.idx, m.fileId⟩)] | .error _ => []
          | none => [] := by
  unfold eOffset
  generalize s.kind = k at *
  cases k <;> first | (exact absurd h id) | rfl

theorem eOffset_other (macros : Macros) (f : Nat) (s : Sym) (st : ESt) (h : ¬ Names s.kind) : eOffset macros f s st = [] := by
  unfold eOffset
  generalize s.kind = k at *
  cases k <;> first | (exact absurd trivial h) | rfl

theorem expandHere_mono (macros : Macros) (f k : Nat) (s : Sym) (st : ESt) (r : Res ESt) (h : eStep.expandHere macros f s st = some r) :
    eStep.expandHere macros (f + k) s st = some r ∧
    expandIdentifier macros false (f + k) s.tok st.iter st.stack st.disabled = expandIdentifier macros false f s.tok st.iter st.stack st.disabled := by
  unfold eStep.expandHere at h ⊢
  rcases he : expandIdentifier macros false f s.tok st.iter st.stack st.disabled with _ | o
  · rw [he] at h; simp at h
  · rw [expand_mono _ _ _ _ _ _ f k o he]
    rw [he] at h
    exact ⟨h, rfl⟩

theorem eStep_mono (p : Profile) (macros : Macros) (f k : Nat) (s : Sym) (st : ESt) (r : Res ESt) (h : eStep p macros f s st = some r) :
    eStep p macros (f + k) s st = some r ∧
    ((∃ st', r = .ok st') → eOffset macros (f + k) s st = eOffset macros f s st) ∧
    ((∀ st', r ≠ .ok st') → eDisabled macros (f + k) s st = eDisabled macros f s st) := by
  by_cases hn : Names s.kind
  · rw [eStep_names _ _ _ _ _ hn] at h ⊢
    simp only [eOffset_names _ _ _ _ hn, eDisabled_names _ _ _ _ hn]
    by_cases hl : st.lfd = true
    · simp only [hl, if_true] at h ⊢
      refine ⟨h, fun _ => trivial, fun hr => ?_⟩
      simp only [Option.some.injEq] at h
      exact absurd h.symm (hr _)
    · simp only [hl, if_false, Bool.false_eq_true] at h ⊢
      rcases hm : macros s.text with _ | m
      · rw [hm] at h
        obtain ⟨h1, h2⟩ := expandHere_mono macros f k s st r h
        exact ⟨h1, fun _ => rfl, fun _ => by rw [h2]⟩
      · rw [hm] at h
        simp only at h ⊢
        by_cases hd : m ∈ st.disabled
        · simp only [hd, if_true] at h ⊢
          refine ⟨h, fun _ => trivial, fun hr => ?_⟩
          simp only [Option.some.injEq] at h
          exact absurd h.symm (hr _)
        · simp only [hd, if_false] at h ⊢
          obtain ⟨h1, h2⟩ := expandHere_mono macros f k s st r h
          exact ⟨h1, fun _ => by rw [h2], fun _ => by rw [h2]⟩
  · refine ⟨?_, fun _ => ?_, fun _ => ?_⟩
    · rw [eStep_other p macros (f + k) f _ _ hn]; exact h
    · rw [eOffset_other _ _ _ _ hn, eOffset_other _ _ _ _ hn]
    · rw [eDisabled_other _ _ _ _ hn, eDisabled_other _ _ _ _ hn]

theorem eLoop_mono (p : Profile) (macros : Macros) (f : Nat) : ∀ (st : ESt) (r : Res ESt), eLoop p macros f st = some r → ∀ k,
    eLoop p macros (f + k) st = some r ∧ eEffects p macros (f + k) st = eEffects p macros f st := by
  induction f with
  | zero => intro st r h; simp [eLoop] at h
  | succ f ih =>
    intro st r h k
    rw [show f + 1 + k = (f + k) + 1 from by omega]
    simp only [eLoop, eEffects] at h ⊢
    rcases hx : eNext st with _ | ⟨s, st'⟩ <;> rw [hx] at h
    · exact ⟨h, rfl⟩
    · simp only at h ⊢
      rcases hs : eStep p macros f s st' with _ | (st'' | _ | _)
      · rw [hs] at h; simp at h
      · rw [hs] at h
        obtain ⟨h1, h2, -⟩ := eStep_mono p macros f k s st' _ hs
        rw [h1]
        simp only at h ⊢
        obtain ⟨h3, h4⟩ := ih st'' r h k
        rw [h3, h4, h2 ⟨_, rfl⟩]
        exact ⟨rfl, rfl⟩
      · rw [hs] at h
        obtain ⟨h1, -, h2⟩ := eStep_mono p macros f k s st' _ hs
        rw [h1]
        simp only at h ⊢
        rw [h2 (by simp)]
        exact ⟨h, rfl⟩
      · rw [hs] at h
        obtain ⟨h1, -, h2⟩ := eStep_mono p macros f k s st' _ hs
        rw [h1]
        simp only at h ⊢
        rw [h2 (by simp)]
        exact ⟨h, rfl⟩

theorem evaluate_mono (p : Profile) (macros : Macros) (disabled : List Macro) (ts : List Sym) (f k : Nat) (r : Res Bool)
    (h : evaluate p macros disabled ts f = some r) :
    evaluate p macros disabled ts (f + k) = some r ∧
    eEffects p macros (f + k) ⟨ts, [], [], [], true, false, disabled⟩ = eEffects p macros f ⟨ts, [], [], [], true, false, disabled⟩ := by
  unfold evaluate evaluateValue at h ⊢
  rcases he : eLoop p macros f ⟨ts, [], [], [], true, false, disabled⟩ with _ | r'
  · rw [he] at h; simp at h
  · obtain ⟨h1, h2⟩ := eLoop_mono p macros f _ r' he k
    rw [h1, h2]
    rw [he] at h
    exact ⟨h, rfl⟩

theorem processIf_mono (env : Env) (f k : Nat) (x : Sym) (s : PSt) (h : processIf env f x s ≠ .noFuel) :
    processIf env (f + k) x s = processIf env f x s := by
  unfold processIf at h ⊢
  simp only at h ⊢
  rcases he : evaluate env.profile s.macros s.disabled (takeDirective s.lexer).1 f with _ | r
  · rw [he] at h; exact absurd rfl h
  · obtain ⟨h1, h2⟩ := evaluate_mono _ _ _ _ f k r he
    rw [h1, h2]

theorem processElseif_mono (env : Env) (f k : Nat) (x : Sym) (s : PSt) (h : processElseif env f x s ≠ .noFuel) :
    processElseif env (f + k) x s = processElseif env f x s := by
  unfold processElseif at h ⊢
  rcases hc : s.conds with _ | ⟨_ | _ | _, cs⟩ <;> rw [hc] at h
  · exact processIf_mono env f k x _ h

theorem processDirective_mono (env : Env) (f k : Nat) (d : Dir) (x : Sym) (s : PSt) (h : processDirective env f d x s ≠ .noFuel) :
    processDirective env (f + k) d x s = processDirective env f d x s := by
  cases d
  case if_ => exact processIf_mono env f k x s h
  case elseif => exact processElseif_mono env f k x s h
  all_goals rfl

theorem processNegative_mono (env : Env) (f k : Nat) (x : Sym) (s : PSt) (h : processNegative env f x s ≠ .noFuel) :
    processNegative env (f + k) x s = processNegative env f x s := by
  unfold processNegative at h ⊢
  split at h
  case h_4 => exact processElseif_mono env f k x s h
  all_goals first | rfl | simp

theorem processIdent_mono (f k : Nat) (t : Tok) (s : PSt) (h : processIdent f t s ≠ .noFuel) :
    processIdent (f + k) t s = processIdent f t s := by
  unfold processIdent at h ⊢
  by_cases hi : s.intr = some .dot
  · simp only [hi, if_true]
  · simp only [hi, if_false] at h ⊢
    rcases hm : s.macros t.text with _ | m
    · rfl
    · simp only [hm] at h ⊢
      by_cases hd : m ∈ s.disabled
      · simp only [hd, if_true]
      · simp only [hd, if_false] at h ⊢
        rcases he : expandIdentifier s.macros true f t s.lexer s.stack s.disabled with _ | o
        · rw [he] at h; exact absurd rfl h
        · rw [expand_mono _ _ _ _ _ _ f k o he]

theorem processActive_mono (env : Env) (f k : Nat) (t : Tok) (s : PSt) (h : processActive env f t s ≠ .noFuel) :
    processActive env (f + k) t s = processActive env f t s := by
  unfold processActive at h ⊢
  split at h
  case h_2 => exact processDirective_mono env f k _ _ s h
  case h_4 => exact processIdent_mono f k t s h
  all_goals first | rfl | simp

theorem pStep_mono (env : Env) (f k : Nat) (t : Tok) (s : PSt) (h : pStep env f t s ≠ .noFuel) :
    pStep env (f + k) t s = pStep env f t s := by
  unfold pStep at h ⊢
  simp only at h ⊢
  by_cases hs : skipping (noteArg t s).conds = true
  · simp only [hs, if_true] at h ⊢; exact processNegative_mono env f k _ _ h
  · simp only [hs, Bool.false_eq_true, if_false] at h ⊢; exact processActive_mono env f k _ _ h

theorem pLoop_mono (env : Env) (f : Nat) : ∀ (s : PSt) (r : Final), pLoop env f s = some r → ∀ k, pLoop env (f + k) s = some r := by
  induction f with
  | zero => intro s r h; simp [pLoop] at h
  | succ f ih =>
    intro s r h k
    rw [show f + 1 + k = (f + k) + 1 from by omega]
    simp only [pLoop] at h ⊢
    rcases hx : pNext s with _ | ⟨t, s'⟩ <;> rw [hx] at h
    · exact h
    · simp only at h ⊢
      rcases hs : pStep env f t s' with s'' | s'' | s'' | _ | _
      case noFuel => rw [hs] at h; simp at h
      all_goals rw [hs] at h; rw [pStep_mono env f k t s' (by rw [hs]; simp), hs]
      case next => exact ih s'' r h k
      all_goals exact h

end Verif.Props.PreFuel
