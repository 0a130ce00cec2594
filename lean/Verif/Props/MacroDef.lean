import Verif.Ide.MacroDef
import Verif.Props.ItemTree
import Verif.Props.Conditional
import Verif.Props.Position

namespace Verif.Props.MacroDef

open Verif.Pre Verif.Pre.Spec Verif.Ide.MacroDef Verif.Ide.MacroDef.Spec

/-! ## What the steps leave alone -/

/-- The parts of the state go-to-definition depends on. -/
structure Same (s s' : PSt) : Prop where
  macros : s'.macros = s.macros
  idx : s'.idx = s.idx
  expanded : s'.expanded = s.expanded
  offsets : s'.offsets = s.offsets

theorem Same.refl (s : PSt) : Same s s := ⟨rfl, rfl, rfl, rfl⟩

theorem Same.trans {a b c : PSt} (h : Same a b) (h' : Same b c) : Same a c :=
  ⟨h'.1.trans h.1, h'.2.trans h.2, h'.3.trans h.3, h'.4.trans h.4⟩

theorem same_pushSym (x : Sym) (s : PSt) : Same s (pushSym x s) := by
  unfold pushSym; split <;> exact ⟨rfl, rfl, rfl, rfl⟩

theorem dStep_name {s : Sym} {d d' : DSt} (h : dStep s d = some d') :
    (d.phase = .start ∧ d.name = [] ∧ s.kind = .ident ∧ d'.name = s.text ∧ d'.phase = .start) ∨
      (d'.name = d.name ∧ (d.phase ≠ .start ∨ d.name ≠ [] ∨ d'.phase ≠ .start) ∧ (d.phase ≠ .start → d'.phase ≠ .start) ∧ (d.phase = .start → d.name = [] → s.kind ≠ .ident)) := by
  unfold dStep at h
  split at h
  · rename_i hp
    split at h
    · rename_i hc
      simp only [Option.some.injEq] at h
      subst h
      exact .inl ⟨hp, hc.1, hc.2, rfl, hp⟩
    · rename_i hc
      have hk : d.phase = .start → d.name = [] → s.kind ≠ .ident := fun _ hn hk => hc ⟨hn, hk⟩
      split at h <;> simp only [Option.some.injEq] at h <;> subst h <;> exact .inr ⟨rfl, .inr (.inr (by simp)), fun _ => by simp, hk⟩
  · rename_i hp
    have hs : d.phase ≠ .start := by rw [hp]; decide
    have key : d'.name = d.name ∧ d'.phase ≠ .start := by
      split at h
      · simp only [Option.some.injEq] at h; subst h; exact ⟨rfl, by simp⟩
      · split at h
        · simp only [Option.some.injEq] at h; subst h; exact ⟨rfl, by simp⟩
        · split at h
          · cases h
          · split at h
            · cases h
            · simp only [Option.some.injEq] at h; subst h; exact ⟨rfl, hs⟩
        · simp only [Option.some.injEq] at h; subst h; exact ⟨rfl, hs⟩
        · simp only [Option.some.injEq] at h; subst h; exact ⟨rfl, hs⟩
        · cases h
    exact .inr ⟨key.1, .inl hs, fun _ => key.2, fun h => absurd h hs⟩
  · rename_i hp
    have hs : d.phase ≠ .start := by rw [hp]; decide
    simp only [Option.some.injEq] at h
    subst h
    exact .inr ⟨rfl, .inl hs, fun _ => hs, fun h => absurd h hs⟩

/-- Once the name is there, or the part of the name is over, it does not change any more. -/
theorem defineLoop_keeps : ∀ (ss : List Sym) (d d' : DSt) (s s' : PSt), (d.name ≠ [] ∨ d.phase ≠ .start) → defineLoop ss d s = (some d', s') → d'.name = d.name := by
  intro ss
  induction ss with
  | nil => intro d d' s s' _ h; simp only [defineLoop, Prod.mk.injEq, Option.some.injEq] at h; rw [h.1]
  | cons x ss ih =>
    intro d d' s s' hd h
    simp only [defineLoop] at h
    split at h
    · split at h
      · simp only [Prod.mk.injEq, Option.some.injEq] at h; rw [h.1]
      · split at h
        · simp at h
        · rename_i d₁ he
          rcases dStep_name he with ⟨h1, h2, _⟩ | ⟨h1, h2, h3, _⟩
          · rcases hd with hd | hd <;> contradiction
          · rw [ih d₁ d' _ _ ?_ h, h1]
            rcases hd with hd | hd
            · exact .inl (by rw [h1]; exact hd)
            · exact .inr (h3 hd)
    · simp only [Prod.mk.injEq, Option.some.injEq] at h; rw [h.1]

theorem defineLoop_name : ∀ (ss : List Sym) (d d' : DSt) (s s' : PSt), d.name = [] → d.phase = .start → defineLoop ss d s = (some d', s') → d'.name = definedName ss := by
  intro ss
  induction ss with
  | nil => intro d d' s s' hn _ h; simp only [defineLoop, Prod.mk.injEq, Option.some.injEq] at h; rw [← h.1, hn]; rfl
  | cons x ss ih =>
    intro d d' s s' hn hp h
    simp only [defineLoop] at h
    unfold definedName
    split at h
    · rename_i hpre
      split at h
      · rename_i he
        have : x.kind ≠ .ident := by rw [he]; decide
        simp only [Prod.mk.injEq, Option.some.injEq] at h
        rw [← h.1, hn, if_neg (fun hh => this hh.2)]
      · split at h
        · simp at h
        · rename_i d₁ he
          rcases dStep_name he with ⟨_, _, h3, h4, h5⟩ | ⟨h1, h2, _, h4⟩
          · rw [if_pos ⟨hpre, h3⟩]
            by_cases ht : x.text = []
            · rw [if_pos ht]; exact ih d₁ d' _ _ (by rw [h4, ht]) h5 h
            · rw [if_neg ht, defineLoop_keeps ss d₁ d' _ _ (.inl (by rw [h4]; exact ht)) h, h4]
          · rw [if_neg (fun hh => h4 hp hn hh.2)]
            rcases h2 with h2 | h2 | h2
            · exact absurd hp h2
            · exact absurd hn h2
            · rw [defineLoop_keeps ss d₁ d' _ _ (.inr h2) h, h1, hn]
    · rename_i hpre
      simp only [Prod.mk.injEq, Option.some.injEq] at h
      rw [← h.1, hn, if_neg (fun hh => hpre hh.1)]

theorem defineLoop_same : ∀ (ss : List Sym) (d : DSt) (o : Option DSt) (s s' : PSt), defineLoop ss d s = (o, s') → Same s s' := by
  intro ss
  induction ss with
  | nil => intro d o s s' h; simp only [defineLoop, Prod.mk.injEq] at h; rw [← h.2]; exact ⟨rfl, rfl, rfl, rfl⟩
  | cons x ss ih =>
    intro d o s s' h
    simp only [defineLoop] at h
    split at h
    · split at h
      · simp only [Prod.mk.injEq] at h; rw [← h.2]; exact ⟨rfl, rfl, rfl, rfl⟩
      · split at h
        · simp only [Prod.mk.injEq] at h
          rw [← h.2]
          split <;> exact ⟨rfl, rfl, rfl, rfl⟩
        · refine Same.trans ?_ (ih _ _ _ _ h)
          split <;> exact ⟨rfl, rfl, rfl, rfl⟩
    · simp only [Prod.mk.injEq] at h; rw [← h.2]; exact ⟨rfl, rfl, rfl, rfl⟩

/-- `#undef` only takes macros away. -/
theorem undefLoop_fewer : ∀ (ss : List Sym) (s : PSt), (∀ x m, (undefLoop ss s).macros x = some m → s.macros x = some m) ∧ (undefLoop ss s).idx = s.idx ∧
    (undefLoop ss s).expanded = s.expanded ∧ (undefLoop ss s).offsets = s.offsets := by
  intro ss
  induction ss with
  | nil => intro s; exact ⟨fun _ _ h => h, rfl, rfl, rfl⟩
  | cons y ss ih =>
    intro s
    simp only [undefLoop]
    split
    · split
      · refine ⟨fun x m h => ?_, ?_, ?_, ?_⟩
        · simp only [updateMacros] at h
          split at h
          · cases h
          · split at h <;> exact h
        all_goals (simp only []; split <;> rfl)
      · obtain ⟨h1, h2, h3, h4⟩ := ih (if y.kind = .newline ∨ y.kind = .eof then pushWs y { s with lexer := ss } else { pushWs y { s with lexer := ss } with line := (pushWs y { s with lexer := ss }).line ++ y.text })
        refine ⟨fun x m h => ?_, ?_, ?_, ?_⟩
        · have := h1 x m h; split at this <;> exact this
        · rw [h2]; split <;> rfl
        · rw [h3]; split <;> rfl
        · rw [h4]; split <;> rfl
    · exact ⟨fun _ _ h => h, rfl, rfl, rfl⟩

theorem eOffset_mem {ms : Macros} {fuel : Nat} {s : Sym} {st : ESt} {l : Nat} {o : Offset} (h : (l, o) ∈ eOffset ms fuel s st) :
    ∃ m, s.range = o.range ∧ ms s.text = some m ∧ o.idx = m.idx ∧ o.fileId = m.fileId := by
  unfold eOffset at h
  split at h
  all_goals try (exact absurd h List.not_mem_nil)
  split at h
  · exact absurd h List.not_mem_nil
  · rename_i m hm
    refine ⟨m, ?_⟩
    split at h
    · simp only [List.mem_singleton, Prod.mk.injEq] at h
      rw [h.2]; exact ⟨rfl, hm, rfl, rfl⟩
    · split at h
      · exact absurd h List.not_mem_nil
      · split at h
        · split at h
          · simp only [List.mem_singleton, Prod.mk.injEq] at h
            rw [h.2]; exact ⟨rfl, hm, rfl, rfl⟩
          · exact absurd h List.not_mem_nil
        · exact absurd h List.not_mem_nil

theorem evaluation_trans {p : Profile} {ms : Macros} {a b c : ESt} (h : Evaluation p ms a b) (h' : Evaluation p ms b c) : Evaluation p ms a c := by
  induction h' with
  | start => exact h
  | turn _ hn hs ih => exact .turn ih hn hs

theorem eEffects_mem {p : Profile} {ms : Macros} : ∀ (fuel : Nat) (st : ESt) (l : Nat) (o : Offset), (l, o) ∈ (eEffects p ms fuel st).2 →
    ∃ x m y z, Evaluation p ms st y ∧ eNext y = some (x, z) ∧ x.range = o.range ∧ ms x.text = some m ∧ o.idx = m.idx ∧ o.fileId = m.fileId := by
  intro fuel
  induction fuel with
  | zero => intro st l o h; exact absurd h List.not_mem_nil
  | succ fuel ih =>
    intro st l o h
    simp only [eEffects] at h
    split at h
    · exact absurd h List.not_mem_nil
    · rename_i s st' hn
      split at h
      · rename_i st'' hs
        rcases List.mem_append.1 h with h | h
        · obtain ⟨m, h1⟩ := eOffset_mem h
          exact ⟨s, m, st, st', .start, hn, h1⟩
        · obtain ⟨x, m, y, z, hy, hx, h1⟩ := ih st'' l o h
          exact ⟨x, m, y, z, evaluation_trans (.turn .start hn hs) hy, hx, h1⟩
      · exact absurd h List.not_mem_nil

/-! ## Nothing is read that is not in the file -/

theorem take_suffix (s : Src) (k : Nat) : (s.take k).lexer <:+ s.lexer := List.drop_suffix _ _

theorem collect_suffix (s : Src) (line n : Nat) : (collectArguments s line n).1.lexer <:+ s.lexer := by
  unfold collectArguments
  split <;> exact List.drop_suffix _ _

def lexerOf : XRes → List Sym
  | .continue_ st => st.lexer
  | .error _ st => st.lexer

theorem xStep_suffix (ms : Macros) (allow : Bool) (t : Tok) (top : List QTok) (rest : List (List QTok)) (st : XSt) :
    lexerOf (xStep ms allow t top rest st) <:+ st.lexer := by
  unfold xStep
  split
  · exact List.suffix_refl _
  · rename_i q cur
    split
    · split
      · split <;> exact List.suffix_refl _
      · rename_i m _
        split
        · exact List.suffix_refl _
        · have hc := collect_suffix ⟨cur, st.popped, st.lexer⟩ q.tok.sym.range.e.line m.nbParams
          split
          · rename_i e; rw [e] at hc; exact hc
          · rename_i e
            rw [e] at hc
            split <;> exact hc
    all_goals exact List.suffix_refl _

theorem xLoop_suffix (ms : Macros) (allow : Bool) (t : Tok) : ∀ (f : Nat) (st : XSt) (r : XRes), xLoop ms allow t f st = some r → lexerOf r <:+ st.lexer := by
  intro f
  induction f with
  | zero => intro st r h; cases h
  | succ f ih =>
    intro st r h
    simp only [xLoop] at h
    split at h
    · cases h; exact List.suffix_refl _
    · rename_i top rest _
      split at h
      · have hs := xStep_suffix ms allow t top rest st
        split at h
        · rename_i st' e
          rw [e] at hs
          exact (ih _ _ h).trans hs
        · rename_i e
          rw [e] at hs
          cases h; exact hs
      · cases h; exact List.suffix_refl _

theorem expand_suffix {ms : Macros} {allow : Bool} {f : Nat} {t : Tok} {lexer : List Sym} {stack : List Tok} {dis : List Macro} {o : XOut}
    (h : expandIdentifier ms allow f t lexer stack dis = some o) : o.lexer <:+ lexer := by
  unfold expandIdentifier at h
  split at h
  · cases h
  · rename_i e; cases h; exact xLoop_suffix _ _ _ _ _ _ e
  · rename_i e; cases h; exact xLoop_suffix _ _ _ _ _ _ e

theorem eStep_suffix {p : Profile} {ms : Macros} {f : Nat} {s : Sym} {st st' : ESt} (h : eStep p ms f s st = some (.ok st')) : st'.iter <:+ st.iter := by
  unfold eStep at h
  split at h
  all_goals try (simp only [Option.some.injEq, Res.ok.injEq, reduceCtorEq] at h; first | (rw [← h]; exact List.suffix_refl _) | skip)
  · split at h <;> simp only [Res.ok.injEq, reduceCtorEq] at h; rw [← h]; exact List.suffix_refl _
  · split at h
    · cases h
    · split at h <;> simp only [Res.ok.injEq, reduceCtorEq] at h; rw [← h]; exact List.suffix_refl _
  · have key : ∀ {st'' : ESt}, eStep.expandHere ms f s st = some (.ok st'') → st''.iter <:+ st.iter := by
      intro st'' h
      unfold eStep.expandHere at h
      split at h
      · cases h
      · rename_i o ho
        split at h
        · cases h; exact expand_suffix ho
        · cases h
    split at h
    · cases h; exact List.suffix_refl _
    · split at h
      · split at h
        · cases h; exact List.suffix_refl _
        · exact key h
      · exact key h

theorem takeDirective_suffix : ∀ (l : List Sym), (takeDirective l).2 <:+ l ∧ (∀ x ∈ (takeDirective l).1, x ∈ l)
  | [] => ⟨List.suffix_refl _, fun _ h => h⟩
  | s :: ss => by
    obtain ⟨h1, h2⟩ := takeDirective_suffix ss
    simp only [takeDirective]
    split
    · exact ⟨h1.trans (List.suffix_cons _ _), fun x hx => by
        rcases List.mem_cons.1 hx with h | h
        · rw [h]; exact List.mem_cons_self
        · exact List.mem_cons_of_mem _ (h2 x h)⟩
    · exact ⟨List.suffix_refl _, fun _ h => absurd h List.not_mem_nil⟩

theorem defineLoop_suffix : ∀ (ss : List Sym) (d : DSt) (o : Option DSt) (s s' : PSt), defineLoop ss d s = (o, s') → s'.lexer <:+ ss := by
  intro ss
  induction ss with
  | nil => intro d o s s' h; simp only [defineLoop, Prod.mk.injEq] at h; rw [← h.2]; exact List.suffix_refl _
  | cons x ss ih =>
    intro d o s s' h
    simp only [defineLoop] at h
    split at h
    · split at h
      · simp only [Prod.mk.injEq] at h; rw [← h.2]; exact List.suffix_cons _ _
      · split at h
        · simp only [Prod.mk.injEq] at h
          rw [← h.2]
          split <;> exact List.suffix_cons _ _
        · exact (ih _ _ _ _ h).trans (List.suffix_cons _ _)
    · simp only [Prod.mk.injEq] at h; rw [← h.2]; exact List.suffix_refl _

theorem undefLoop_suffix : ∀ (ss : List Sym) (s : PSt), (undefLoop ss s).lexer <:+ ss := by
  intro ss
  induction ss with
  | nil => intro s; exact List.suffix_refl _
  | cons y ss ih =>
    intro s
    simp only [undefLoop]
    split
    · split
      · split <;> exact List.suffix_cons _ _
      · exact (ih _).trans (List.suffix_cons _ _)
    · exact List.suffix_refl _

theorem evaluation_suffix {p : Profile} {ms : Macros} {a b : ESt} (h : Evaluation p ms a b) : b.iter <:+ a.iter := by
  induction h with
  | start => exact List.suffix_refl _
  | turn _ hn hs ih =>
    refine (eStep_suffix hs).trans (List.IsSuffix.trans ?_ ih)
    unfold eNext at hn
    split at hn
    · cases hn; exact List.suffix_refl _
    · split at hn
      · rename_i e; cases hn; rw [e]; exact List.suffix_cons _ _
      · cases hn

theorem pushSym_lexer (x : Sym) (s : PSt) : (pushSym x s).lexer = s.lexer := by unfold pushSym; split <;> rfl

theorem processIf_suffix {env : Env} {f : Nat} {x : Sym} {s s' : PSt} (e : processIf env f x s = .next s') : s'.lexer <:+ s.lexer := by
  unfold processIf at e
  simp only at e
  split at e
  · cases e
  · cases e
  · rename_i r _ _
    simp only [Step.next.injEq] at e
    rw [← e]
    refine List.IsSuffix.trans (l₂ := (takeDirective s.lexer).2) ?_ (takeDirective_suffix s.lexer).1
    cases r <;> first | exact List.suffix_refl _ | (dsimp only; split <;> first | exact List.suffix_refl _ | (split <;> exact List.suffix_refl _))

theorem processElse_suffix {x : Sym} {s s' : PSt} (e : processElse x s = .next s') : s'.lexer <:+ s.lexer := by
  unfold processElse at e
  split at e
  · cases e
  · cases e; exact List.suffix_refl _
  · cases e; exact List.suffix_refl _

theorem processEndif_suffix {x : Sym} {s s' : PSt} (e : processEndif x s = .next s') : s'.lexer <:+ s.lexer := by
  unfold processEndif at e
  split at e
  · cases e
  · simp only at e
    split at e
    · split at e <;> cases e <;> exact List.suffix_refl _
    · cases e; exact List.suffix_refl _

theorem processElseif_suffix {env : Env} {f : Nat} {x : Sym} {s s' : PSt} (e : processElseif env f x s = .next s') : s'.lexer <:+ s.lexer := by
  unfold processElseif at e
  split at e
  · cases e
  · rename_i cs _
    have := processIf_suffix e
    exact this
  · cases e; exact List.suffix_refl _

theorem processInclude_lexer (env : Env) (x : Sym) (s : PSt) : (processInclude env x s).lexer = s.lexer := by
  unfold processInclude
  simp only
  split
  · show (pushSym _ _).lexer = _; rw [pushSym_lexer]
  · rw [pushSym_lexer]

theorem step_suffix {env : Env} {f : Nat} {t : Tok} {s s' : PSt} (e : pStep env f t s = .next s') : s'.lexer <:+ s.lexer := by
  have hl : (noteArg t s).lexer = s.lexer := by unfold noteArg; split <;> rfl
  unfold pStep at e
  simp only at e
  rw [← hl]
  generalize noteArg t s = s at e
  split at e
  · unfold processNegative at e
    split at e
    · cases e; exact List.suffix_refl _
    · exact processEndif_suffix e
    · exact processElse_suffix e
    · exact processElseif_suffix e
    · cases e; exact List.suffix_refl _
    · cases e; exact List.suffix_refl _
  · unfold processActive at e
    split at e
    · cases e
    · unfold processDirective at e
      split at e
      · exact processIf_suffix e
      · exact processElseif_suffix e
      · unfold processDefine at e
        split at e
        · cases e
        · rename_i hd
          have := defineLoop_suffix _ _ _ _ _ hd
          cases e; exact this
      · cases e; exact undefLoop_suffix _ _
      · exact processEndif_suffix e
      · exact processElse_suffix e
      · cases e; rw [processInclude_lexer]; exact List.suffix_refl _
      · cases e; rw [processInclude_lexer]; exact List.suffix_refl _
      · cases e; rw [pushSym_lexer]; exact List.suffix_refl _
    · cases e; exact List.suffix_refl _
    · unfold processIdent at e
      split at e
      · cases e; exact List.suffix_refl _
      · split at e
        · cases e; rw [pushSym_lexer]; exact List.suffix_refl _
        · split at e
          · cases e; rw [pushSym_lexer]; exact List.suffix_refl _
          · split at e
            · cases e
            · rename_i ho
              split at e
              · cases e; exact expand_suffix ho
              · cases e
    · cases e; exact List.suffix_refl _
    · cases e; exact List.suffix_refl _
    · cases e
      split
      · exact List.suffix_refl _
      · rw [pushSym_lexer]; exact List.suffix_refl _
    · cases e
      split
      · exact List.suffix_refl _
      · rw [pushSym_lexer]; exact List.suffix_refl _
    · cases e
    · cases e; rw [pushSym_lexer]; exact List.suffix_refl _

theorem next_suffix {s s₁ : PSt} {t : Tok} (hn : pNext s = some (t, s₁)) : s₁.lexer <:+ s.lexer := by
  unfold pNext at hn
  split at hn
  · cases hn; exact List.suffix_refl _
  · split at hn
    · cases hn
    · rename_i e
      rw [e]
      split at hn <;> cases hn <;> exact List.suffix_cons _ _

theorem run_suffix {env : Env} {s₀ s : PSt} {h : List Str} (hr : Run env s₀ h s) : s.lexer <:+ s₀.lexer := by
  induction hr with
  | start => exact List.suffix_refl _
  | turn _ hn hs ih => exact (step_suffix hs).trans ((next_suffix hn).trans ih)

/-- A token taken from the file is one of the file. -/
theorem reads_own {env : Env} {s₀ s : PSt} {h : List Str} {x : Sym} (hr : Run env s₀ h s) (hx : Reads env s x true) : x ∈ s₀.lexer := by
  obtain ⟨t, s₁, hn, hx⟩ := hx
  have hs := run_suffix hr
  rcases hx with ⟨rfl, he⟩ | ⟨st, st', hv, hx, he⟩
  · have hst : s.stack = [] := List.isEmpty_iff.1 he.symm
    unfold pNext at hn
    rw [hst] at hn
    simp only at hn
    split at hn
    · cases hn
    · rename_i y ys e
      have hy : y ∈ s₀.lexer := hs.mem (by rw [e]; exact List.mem_cons_self)
      split at hn <;> cases hn <;> exact hy
  · have hst : st.stack = [] := List.isEmpty_iff.1 he.symm
    unfold eNext at hx
    rw [hst] at hx
    simp only at hx
    split at hx
    · rename_i y ys e
      cases hx
      refine hs.mem ((next_suffix hn).mem ((takeDirective_suffix s₁.lexer).2 _ ((evaluation_suffix hv).mem ?_)))
      rw [e]; exact List.mem_cons_self
    · cases hx

/-! ## The invariant -/

section
variable {env : Env} {others : Nat → List Str} {s₀ : PSt}

structure Inv (env : Env) (others : Nat → List Str) (s₀ : PSt) (h : List Str) (s : PSt) : Prop where
  idx : s.idx = h.length
  table : TableOk env others h s.macros
  expanded : ∀ x i f, s.expanded = some (x, i, f) → Use env others s₀ h x.range i f
  offsets : ∀ l o, (l, o) ∈ s.offsets → Use env others s₀ h o.range o.idx o.fileId

theorem Inv.same {h : List Str} {s s' : PSt} (i : Inv env others s₀ h s) (e : Same s s') : Inv env others s₀ h s' :=
  ⟨e.idx.trans i.idx, by rw [e.macros]; exact i.table, by rw [e.expanded]; exact i.expanded, by rw [e.offsets]; exact i.offsets⟩

theorem Use.mono {h k : List Str} {r : Rng} {i f : Nat} (u : Use env others s₀ h r i f) : Use env others s₀ (h ++ k) r i f := by
  obtain ⟨h₁, h₂, s, x, own, rfl, rest⟩ := u
  exact ⟨h₁, h₂ ++ k, s, x, own, by rw [List.append_assoc], rest⟩

theorem inForce_new (h : List Str) (x : Str) : InForce (h ++ [x]) x h.length := by
  refine ⟨by simp, fun j hj e => ?_⟩
  obtain ⟨hlt, _⟩ := List.getElem?_eq_some_iff.1 e
  simp only [List.length_append, List.length_cons, List.length_nil] at hlt
  omega

theorem InForce.old {h : List Str} {x y : Str} {k : Nat} (i : InForce h x k) (hy : y ≠ x) : InForce (h ++ [y]) x k := by
  obtain ⟨h1, h2⟩ := i
  obtain ⟨hlt, _⟩ := List.getElem?_eq_some_iff.1 h1
  refine ⟨by rw [List.getElem?_append_left hlt]; exact h1, fun j hj e => ?_⟩
  obtain ⟨hj2, _⟩ := List.getElem?_eq_some_iff.1 e
  simp only [List.length_append, List.length_cons, List.length_nil] at hj2
  by_cases hjl : j < h.length
  · rw [List.getElem?_append_left hjl] at e; exact h2 j hj e
  · have : j = h.length := by omega
    subst this
    simp only [List.getElem?_concat_length, Option.some.injEq] at e
    exact hy e

theorem inv_next {h : List Str} {s s₁ : PSt} {t : Tok} (i : Inv env others s₀ h s) (hn : pNext s = some (t, s₁)) : Inv env others s₀ h s₁ := by
  unfold pNext at hn
  split at hn
  · simp only [Option.some.injEq, Prod.mk.injEq] at hn
    rw [← hn.2]
    exact i.same ⟨rfl, rfl, rfl, rfl⟩
  · split at hn
    · cases hn
    · split at hn
      · rename_i he
        simp only [Option.some.injEq, Prod.mk.injEq] at hn
        rw [← hn.2]
        exact i.same ⟨rfl, rfl, rfl, rfl⟩
      · rename_i x idx f he
        simp only [Option.some.injEq, Prod.mk.injEq] at hn
        rw [← hn.2]
        refine ⟨i.idx, i.table, fun _ _ _ h => (by cases h), fun l o ho => ?_⟩
        rcases List.mem_append.1 ho with ho | ho
        · exact i.offsets l o ho
        · simp only [List.mem_singleton, Prod.mk.injEq] at ho
          rw [ho.2]
          exact i.expanded x idx f he

/-- Everything known when a token has been read. -/
structure At (env : Env) (others : Nat → List Str) (s₀ : PSt) (h : List Str) (t : Tok) (s : PSt) : Prop where
  inv : Inv env others s₀ h s
  use : ∀ m, s.macros t.text = some m → Use env others s₀ h t.sym.range m.idx m.fileId
  cond : ∀ x m st st', Evaluation env.profile s.macros ⟨(takeDirective s.lexer).1, [], [], [], true, false, s.disabled⟩ st → eNext st = some (x, st') → s.macros x.text = some m →
    Use env others s₀ h x.range m.idx m.fileId

theorem At.conds {h : List Str} {t : Tok} {s : PSt} (a : At env others s₀ h t s) (c : List Cond) : At env others s₀ h t { s with conds := c } :=
  ⟨a.inv.same ⟨rfl, rfl, rfl, rfl⟩, a.use, a.cond⟩

theorem inv_processIf {h : List Str} {t : Tok} {s s' : PSt} {f : Nat} {x : Sym} (a : At env others s₀ h t s) (e : processIf env f x s = .next s') :
    Inv env others s₀ h s' := by
  unfold processIf at e
  simp only at e
  split at e
  · cases e
  · cases e
  · rename_i r _ _
    have key : ∀ (s₂ : PSt), s₂.macros = s.macros → s₂.idx = s.idx → s₂.expanded = s.expanded →
        s₂.offsets = s.offsets ++ (eEffects env.profile s.macros f ⟨(takeDirective s.lexer).1, [], [], [], true, false, s.disabled⟩).2 → Inv env others s₀ h s₂ := by
      intro s₂ e1 e2 e3 e4
      refine ⟨e2.trans a.inv.idx, by rw [e1]; exact a.inv.table, by rw [e3]; exact a.inv.expanded, fun l o ho => ?_⟩
      rw [e4] at ho
      rcases List.mem_append.1 ho with ho | ho
      · exact a.inv.offsets l o ho
      · obtain ⟨y, m, st, st', h0, h1, h2, h3, h4, h5⟩ := eEffects_mem _ _ _ _ ho
        rw [← h2, h4, h5]
        exact a.cond y m st st' h0 h1 h3
    simp only [Step.next.injEq] at e
    rw [← e]
    refine key _ ?_ ?_ ?_ ?_ <;> (cases r <;> first | rfl | (dsimp only; split <;> first | rfl | (split <;> rfl)))

theorem same_processElse {x : Sym} {s s' : PSt} (e : processElse x s = .next s') : Same s s' := by
  unfold processElse at e
  split at e
  · cases e
  · simp only [Step.next.injEq] at e; rw [← e]; exact ⟨rfl, rfl, rfl, rfl⟩
  · simp only [Step.next.injEq] at e; rw [← e]; exact ⟨rfl, rfl, rfl, rfl⟩

theorem same_processEndif {x : Sym} {s s' : PSt} (e : processEndif x s = .next s') : Same s s' := by
  unfold processEndif at e
  split at e
  · cases e
  · simp only at e
    split at e
    · split at e <;> simp only [Step.next.injEq] at e <;> rw [← e] <;> exact ⟨rfl, rfl, rfl, rfl⟩
    · simp only [Step.next.injEq] at e; rw [← e]; exact ⟨rfl, rfl, rfl, rfl⟩

theorem inv_processElseif {h : List Str} {t : Tok} {s s' : PSt} {f : Nat} {x : Sym} (a : At env others s₀ h t s) (e : processElseif env f x s = .next s') :
    Inv env others s₀ h s' := by
  unfold processElseif at e
  split at e
  · cases e
  · exact inv_processIf (a.conds _) e
  · simp only [Step.next.injEq] at e; rw [← e]; exact a.inv.same ⟨rfl, rfl, rfl, rfl⟩

theorem inv_processNegative {h : List Str} {t : Tok} {s s' : PSt} {f : Nat} (a : At env others s₀ h t s) (e : processNegative env f t.sym s = .next s') :
    Inv env others s₀ h s' := by
  unfold processNegative at e
  split at e
  · simp only [Step.next.injEq] at e; rw [← e]; exact a.inv.same ⟨rfl, rfl, rfl, rfl⟩
  · exact a.inv.same (same_processEndif e)
  · exact a.inv.same (same_processElse e)
  · exact inv_processElseif a e
  · simp only [Step.next.injEq] at e; rw [← e]; exact a.inv.same ⟨rfl, rfl, rfl, rfl⟩
  · simp only [Step.next.injEq] at e; rw [← e]; exact a.inv

theorem inv_processDefine {h : List Str} {s s' : PSt} {x : Sym} (i : Inv env others s₀ h s) (e : processDefine env x s = .next s') :
    Inv env others s₀ (h ++ [definedName s.lexer]) s' := by
  unfold processDefine at e
  split at e
  · cases e
  · rename_i d s₁ hd
    have hname : d.name = definedName s.lexer := defineLoop_name _ {} d _ _ rfl rfl hd
    have hs := (same_pushSym x s).trans (defineLoop_same _ _ _ _ _ hd)
    have i₁ := i.same hs
    simp only [Step.next.injEq] at e
    rw [← e, ← hname]
    refine ⟨?_, fun y m hm => ?_, fun y k f hy => ?_, fun l o ho => ?_⟩
    · show s₁.idx + 1 = _
      rw [i₁.idx]; simp
    · simp only [updateMacros] at hm
      split at hm
      · rename_i hy
        simp only [Option.some.injEq] at hm
        subst hy
        rw [← hm]
        refine .inl ⟨?_, ?_⟩
        · unfold DSt.macro; split <;> rfl
        · have : (d.macro env.fileId (resetLine (pushLine s₁)).idx).idx = s₁.idx := by unfold DSt.macro; split <;> rfl
          rw [this, i₁.idx]; exact inForce_new h d.name
      · rename_i hy
        rcases i₁.table y m hm with ⟨h1, h2⟩ | h1
        · exact .inl ⟨h1, InForce.old h2 (fun e => hy e.symm)⟩
        · exact .inr h1
    · exact Use.mono (i₁.expanded y k f hy)
    · exact Use.mono (i₁.offsets l o ho)

theorem inv_processInclude {h : List Str} {s : PSt} {x : Sym} (hinc : IncludesOk env others) (i : Inv env others s₀ h s) :
    Inv env others s₀ h (processInclude env x s) := by
  have key : Inv env others s₀ h { s with macros := env.inc (trim x.text) s.macros } := by
    refine ⟨i.idx, fun y m hm => ?_, i.expanded, i.offsets⟩
    rcases hinc _ _ _ _ hm with h1 | h1
    · exact i.table y m h1
    · exact .inr h1
  have key2 := key.same (same_pushSym { x with text := trim x.text } _)
  unfold processInclude
  simp only
  split
  · exact key2.same ⟨rfl, rfl, rfl, rfl⟩
  · exact key2

theorem inv_processIdent {h : List Str} {t : Tok} {s s' : PSt} {f : Nat} (a : At env others s₀ h t s) (e : processIdent f t s = .next s') :
    Inv env others s₀ h s' := by
  unfold processIdent at e
  split at e
  · simp only [Step.next.injEq] at e; rw [← e]; exact a.inv.same ⟨rfl, rfl, rfl, rfl⟩
  · split at e
    · simp only [Step.next.injEq] at e; rw [← e]; exact a.inv.same (same_pushSym _ _)
    · rename_i m hm
      split at e
      · simp only [Step.next.injEq] at e; rw [← e]
        exact (a.inv.same (s' := { s with disabled := s.disabled.filter (· ≠ m) }) ⟨rfl, rfl, rfl, rfl⟩).same (same_pushSym _ _)
      · split at e
        · cases e
        · split at e
          · simp only [Step.next.injEq] at e
            rw [← e]
            refine ⟨a.inv.idx, a.inv.table, fun x k g hx => ?_, a.inv.offsets⟩
            simp only [Option.some.injEq, Prod.mk.injEq] at hx
            rw [← hx.1, ← hx.2.1, ← hx.2.2]
            exact a.use m hm
          · cases e

theorem same_noteArg (t : Tok) (s : PSt) : Same s (noteArg t s) := by unfold noteArg; split <;> exact ⟨rfl, rfl, rfl, rfl⟩

theorem noteArg_eq (t : Tok) (s : PSt) : (noteArg t s).lexer = s.lexer ∧ (noteArg t s).disabled = s.disabled ∧ (noteArg t s).conds = s.conds := by
  unfold noteArg; split <;> exact ⟨rfl, rfl, rfl⟩

theorem at_noteArg {h : List Str} {t u : Tok} {s : PSt} (a : At env others s₀ h t s) : At env others s₀ h t (noteArg u s) := by
  obtain ⟨h1, h2, _⟩ := noteArg_eq u s
  have hs := same_noteArg u s
  exact ⟨a.inv.same hs, by rw [hs.macros]; exact a.use, by rw [hs.macros, h1, h2]; exact a.cond⟩

theorem inv_step (hinc : IncludesOk env others) {h : List Str} {t : Tok} {s s' : PSt} {f : Nat} (a : At env others s₀ h t s) (e : pStep env f t s = .next s') :
    Inv env others s₀ (h ++ defines t s) s' := by
  unfold pStep at e
  simp only at e
  have a' := at_noteArg (u := t) a
  obtain ⟨hlex, _, hconds⟩ := noteArg_eq t s
  rw [hconds] at e
  split at e
  · rename_i hsk
    have hd : defines t s = [] := by simp [defines, hsk]
    rw [hd, List.append_nil]
    exact inv_processNegative a' e
  · rename_i hsk
    have hsk' : skipping s.conds = false := by simpa using hsk
    by_cases hk : t.kind = .dir .define
    · have hd : defines t s = [definedName (noteArg t s).lexer] := by simp [defines, hk, hsk', hlex]
      rw [hd]
      unfold processActive at e
      rw [hk] at e
      exact inv_processDefine a'.inv e
    · have hd : defines t s = [] := by simp [defines, hk]
      rw [hd, List.append_nil]
      unfold processActive at e
      split at e
      · cases e
      · rename_i d hdir
        unfold processDirective at e
        split at e
        · exact inv_processIf a' e
        · exact inv_processElseif a' e
        · exact absurd hdir hk
        · simp only [Step.next.injEq] at e
          rw [← e]
          have hp := a'.inv.same (same_pushSym t.sym (noteArg t s))
          obtain ⟨h1, h2, h3, h4⟩ := undefLoop_fewer (noteArg t s).lexer (pushSym t.sym (noteArg t s))
          exact ⟨h2.trans hp.idx, fun x m hm => hp.table x m (h1 x m hm), by rw [h3]; exact hp.expanded, by rw [h4]; exact hp.offsets⟩
        · exact a'.inv.same (same_processEndif e)
        · exact a'.inv.same (same_processElse e)
        · simp only [Step.next.injEq] at e; rw [← e]; exact inv_processInclude hinc a'.inv
        · simp only [Step.next.injEq] at e; rw [← e]; exact inv_processInclude hinc a'.inv
        · simp only [Step.next.injEq] at e; rw [← e]; exact a'.inv.same (same_pushSym _ _)
      · simp only [Step.next.injEq] at e; rw [← e]; exact a'.inv.same ⟨rfl, rfl, rfl, rfl⟩
      · exact inv_processIdent a' e
      · simp only [Step.next.injEq] at e; rw [← e]; exact a'.inv.same ⟨rfl, rfl, rfl, rfl⟩
      · simp only [Step.next.injEq] at e; rw [← e]; exact a'.inv.same ⟨rfl, rfl, rfl, rfl⟩
      · simp only [Step.next.injEq] at e; rw [← e]
        split
        · exact a'.inv.same ⟨rfl, rfl, rfl, rfl⟩
        · exact (a'.inv.same (s' := { noteArg t s with intr := none }) ⟨rfl, rfl, rfl, rfl⟩).same (same_pushSym _ _)
      · simp only [Step.next.injEq] at e; rw [← e]
        split
        · exact a'.inv.same ⟨rfl, rfl, rfl, rfl⟩
        · exact a'.inv.same (same_pushSym _ _)
      · cases e
      · simp only [Step.next.injEq] at e; rw [← e]; exact a'.inv.same (same_pushSym _ _)

theorem next_macros {s s₁ : PSt} {t : Tok} (hn : pNext s = some (t, s₁)) : s₁.macros = s.macros := by
  unfold pNext at hn
  split at hn
  · simp only [Option.some.injEq, Prod.mk.injEq] at hn; rw [← hn.2]
  · split at hn
    · cases hn
    · split at hn <;> simp only [Option.some.injEq, Prod.mk.injEq] at hn <;> rw [← hn.2]

theorem at_next {h : List Str} {s s₁ : PSt} {t : Tok} (hr : Run env s₀ h s) (i : Inv env others s₀ h s) (hn : pNext s = some (t, s₁)) : At env others s₀ h t s₁ := by
  have i₁ := inv_next i hn
  refine ⟨i₁, fun m hm => ?_, fun x m st st' hx hx' hm => ?_⟩
  · exact ⟨h, [], s, t.sym, _, by simp, hr, ⟨t, s₁, hn, .inl ⟨rfl, rfl⟩⟩, rfl, i₁.table _ _ hm⟩
  · exact ⟨h, [], s, x, _, by simp, hr, ⟨t, s₁, hn, .inr ⟨st, st', hx, hx', rfl⟩⟩, rfl, i₁.table _ _ hm⟩

theorem run_inv (hinc : IncludesOk env others) (i₀ : Inv env others s₀ [] s₀) {h : List Str} {s : PSt} (hr : Run env s₀ h s) : Inv env others s₀ h s := by
  induction hr with
  | start => exact i₀
  | turn hr hn hs ih => exact inv_step hinc (at_next hr ih hn) hs

/-- An end of the preprocessor is an end of a run. -/
theorem ends_of_loop : ∀ (f : Nat) (s r : PSt) (h : List Str), Run env s₀ h s → pLoop env f s = some (.result r) →
    ∃ h' s', Run env s₀ h' s' ∧ ((pNext s' = none ∧ r = s') ∨ ∃ t s₁ f, pNext s' = some (t, s₁) ∧ pStep env f t s₁ = .stop r) := by
  intro f
  induction f with
  | zero => intro s r h _ e; cases e
  | succ f ih =>
    intro s r h hr e
    simp only [pLoop] at e
    split at e
    · rename_i hn; cases e; exact ⟨h, s, hr, .inl ⟨hn, rfl⟩⟩
    · rename_i t s₁ hn
      split at e
      · rename_i hs; exact ih _ _ _ (.turn hr hn hs) e
      · rename_i hs; cases e; exact ⟨h, s, hr, .inr ⟨t, s₁, f, hn, hs⟩⟩
      · cases e
      · cases e
      · cases e

theorem ends_of_gives {ms : Macros} {tokens : List Sym} {r : PSt} (hg : Gives env ms tokens (.result r)) : ∃ h, Ends env ms tokens h r := by
  obtain ⟨f, hf⟩ := hg
  obtain ⟨h, s, hr, he⟩ := ends_of_loop f _ r [] .start (hf f (Nat.le_refl f))
  exact ⟨h, s, hr, he⟩

theorem stop_offsets {f : Nat} {t : Tok} {s r : PSt} (e : pStep env f t s = .stop r) : r.offsets = s.offsets := by
  have hs := same_noteArg t s
  unfold pStep at e
  simp only at e
  split at e
  · unfold processNegative at e
    split at e
    · cases e
    · unfold processEndif at e
      split at e
      · cases e
      · simp only at e; split at e
        · split at e <;> cases e
        · cases e
    · unfold processElse at e; split at e <;> cases e
    · unfold processElseif at e; split at e
      · cases e
      · unfold processIf at e; simp only at e; split at e <;> cases e
      · cases e
    · cases e
    · cases e
  · unfold processActive at e
    split at e
    · cases e
    · unfold processDirective at e
      split at e
      · unfold processIf at e; simp only at e; split at e <;> cases e
      · unfold processElseif at e; split at e
        · cases e
        · unfold processIf at e; simp only at e; split at e <;> cases e
        · cases e
      · unfold processDefine at e; split at e <;> cases e
      · cases e
      · unfold processEndif at e
        split at e
        · cases e
        · simp only at e; split at e
          · split at e <;> cases e
          · cases e
      · unfold processElse at e; split at e <;> cases e
      · cases e
      · cases e
      · cases e
    · cases e
    · unfold processIdent at e
      split at e
      · cases e
      · split at e
        · cases e
        · split at e
          · cases e
          · split at e
            · cases e
            · split at e <;> cases e
    · cases e
    · cases e
    · cases e
    · cases e
    · cases e; exact hs.offsets
    · cases e

theorem ends_uses {ms : Macros} {tokens : List Sym} {h : List Str} {r : PSt} (hinc : IncludesOk env others) (hms : TableOk env others [] ms)
    (he : Ends env ms tokens h r) (l : Nat) (o : Offset) (ho : (l, o) ∈ r.offsets) :
    Use env others { lexer := tokens, macros := ms } h o.range o.idx o.fileId := by
  obtain ⟨s, hr, he⟩ := he
  have i₀ : Inv env others { lexer := tokens, macros := ms } [] { lexer := tokens, macros := ms } :=
    ⟨rfl, hms, fun _ _ _ h => (nomatch h), fun _ _ h => absurd h List.not_mem_nil⟩
  have i := run_inv hinc i₀ hr
  rcases he with ⟨_, rfl⟩ | ⟨t, s₁, f, hn, hs⟩
  · exact i.offsets l o ho
  · rw [stop_offsets hs] at ho
    exact (inv_next i hn).offsets l o ho

end

/-! ## The macros of the global table -/

open Verif.Hir Verif.Hir.Items Verif.Hir.Items.Spec

def asMacro : Decl → Option (String × Ptr)
  | .macroDef nm at_ => some (nm, at_)
  | _ => none

theorem see_macro {m : AstIdMap} {t : Tree} {it : FileItem} {d : Decl} (h : see m t it = some d) :
    asMacro d = (match it with | .macroDef i => t.macros[i]? | _ => none).bind fun mac => (m.get mac.astId).map fun p => (mac.name, p) := by
  cases it <;> simp only [see, Option.bind_eq_bind, Option.map_eq_some_iff, Option.bind_eq_some_iff, Option.some.injEq] at h
  case macroDef i =>
    obtain ⟨mac, h1, p, h2, rfl⟩ := h
    simp [asMacro, h1, h2]
  case function => obtain ⟨_, _, rfl⟩ := h; rfl
  case variant => obtain ⟨_, _, rfl⟩ := h; rfl
  case typedef => obtain ⟨_, _, rfl⟩ := h; rfl
  case functag => obtain ⟨_, _, rfl⟩ := h; rfl
  case global => obtain ⟨_, _, _, _, rfl⟩ := h; rfl
  all_goals (obtain ⟨_, _, _, _, _, _, rfl⟩ := h; rfl)

/-- What an entry of the table says. -/
def shown (m : AstIdMap) (mac : Items.Macro) : Option (String × Ptr) := (m.get mac.astId).map fun p => (mac.name, p)

theorem table_shown {m : AstIdMap} {t : Tree} : ∀ (l : List FileItem) (ds : List Decl), all (see m t) l = some ds →
    (l.filterMap fun | .macroDef i => t.macros[i]? | _ => none).map (shown m) = (ds.filterMap asMacro).map some := by
  intro l
  induction l with
  | nil => intro ds h; cases h; rfl
  | cons it l ih =>
    intro ds h
    simp only [all, Option.bind_eq_bind, Option.bind_eq_some_iff, Option.some.injEq] at h
    obtain ⟨d, hd, ds', hl, rfl⟩ := h
    have hs := see_macro hd
    have hi := ih _ hl
    rw [List.filterMap_cons, List.filterMap_cons, hs]
    cases it
    case macroDef i =>
      simp only [see, Option.bind_eq_bind, Option.bind_eq_some_iff, Option.some.injEq] at hd
      obtain ⟨mac, h1, p, h2, _⟩ := hd
      simp only [h1, h2, Option.bind_some, Option.map_some, List.map_cons, shown]
      rw [← hi]
    all_goals exact hi

/-- A definition of a macro with a name: the name and the node. -/
def pairs (syn : Syn) (root : Node) : List (String × Ptr) := (macroDefs root).filterMap fun n => (syn.field .name n).map fun c => (syn.text c, n.ptr)

theorem declsOf_noMacro (syn : Syn) (anon : Node → String) (n : Node) : (declsOf syn anon n).filterMap asMacro = [] := by
  rw [List.filterMap_eq_nil_iff]
  intro d hd
  unfold declsOf at hd
  split at hd
  all_goals simp only [Option.mem_toList, Option.map_eq_some_iff, Option.bind_eq_some_iff, List.mem_append, List.mem_map, List.mem_singleton, List.mem_filterMap,
    varOf, List.not_mem_nil] at hd
  · obtain ⟨_, _, rfl⟩ := hd; rfl
  · obtain ⟨_, _, rfl⟩ := hd; rfl
  · rcases hd with ⟨_, _, rfl⟩ | rfl <;> rfl
  · obtain ⟨_, _, _, _, rfl⟩ := hd; rfl
  · obtain ⟨_, _, _, _, rfl⟩ := hd; rfl
  · obtain ⟨_, _, rfl⟩ := hd; rfl
  · obtain ⟨_, _, rfl⟩ := hd; rfl
  · obtain ⟨_, _, _, _, _, _, rfl⟩ := hd; rfl
  · obtain ⟨_, _, rfl⟩ := hd; rfl
  · obtain ⟨_, _, rfl⟩ := hd; rfl
  · obtain ⟨_, _, rfl⟩ := hd; rfl

theorem decls_macros (syn : Syn) (anon : Node → String) (root : Node) : (Items.Spec.decls syn anon root).filterMap asMacro = pairs syn root := by
  unfold Items.Spec.decls pairs
  rw [List.filterMap_append, List.filterMap_flatMap, List.filterMap_filterMap]
  have : (List.flatMap (fun a => List.filterMap asMacro (declsOf syn anon a)) root.children) = [] := by
    rw [List.flatMap_eq_nil_iff]; exact fun n _ => declsOf_noMacro syn anon n
  rw [this, List.nil_append]
  congr 1
  funext n
  unfold macroOf
  cases syn.field .name n <;> rfl

/-- The macros of the table of a file are its definitions with a name, in order. -/
theorem table_pairs {syn : Syn} {root : Node} {t : Tree} (G : Grammar syn) (hm : MacrosPlaced syn root) (ht : lower syn root = some t) :
    (tableMacros t).map (shown (AstIdMap.ofTree root)) = (pairs syn root).map some := by
  obtain ⟨t', h1, h2⟩ := Verif.Props.ItemTree.item_tree_partial syn root G hm
  rw [ht] at h1
  cases h1
  rw [← decls_macros syn _ root]
  exact table_shown _ _ h2

theorem pairs_names (syn : Syn) (root : Node) : (pairs syn root).map (fun p => p.1.toList) = names syn root := by
  unfold pairs names
  rw [List.map_filterMap]
  congr 1
  funext n
  cases syn.field .name n <;> rfl

theorem pairs_named (syn : Syn) (root : Node) : (pairs syn root).map (·.2) = (named syn root).map Node.ptr := by
  unfold pairs named
  induction macroDefs root with
  | nil => rfl
  | cons n l ih =>
    rw [List.filterMap_cons, List.filter_cons]
    cases syn.field .name n with
    | none => simpa using ih
    | some c => simpa using ih

theorem get_macro_name {syn : Syn} {root : Node} {t : Tree} {k : Nat} {mac : Items.Macro} (G : Grammar syn) (hm : MacrosPlaced syn root) (ht : lower syn root = some t)
    (h : getMacro t k = some mac) : (names syn root)[k]? = some mac.name.toList ∧ ∃ n, (named syn root)[k]? = some n ∧ (AstIdMap.ofTree root).get mac.astId = some n.ptr := by
  have hp := congrArg (·[k]?) (table_pairs G hm ht)
  simp only [List.getElem?_map] at hp
  unfold getMacro at h
  rw [h] at hp
  simp only [Option.map_some] at hp
  cases hk : (pairs syn root)[k]? with
  | none => rw [hk] at hp; cases hp
  | some p =>
    rw [hk] at hp
    simp only [Option.map_some, Option.some.injEq, shown, Option.map_eq_some_iff] at hp
    obtain ⟨q, hq, rfl⟩ := hp
    have h1 := congrArg (·[k]?) (pairs_names syn root)
    have h2 := congrArg (·[k]?) (pairs_named syn root)
    simp only [List.getElem?_map, hk, Option.map_some] at h1 h2
    refine ⟨h1.symm, ?_⟩
    cases hn : (named syn root)[k]? with
    | none => rw [hn] at h2; cases h2
    | some n => rw [hn] at h2; simp only [Option.map_some, Option.some.injEq] at h2; exact ⟨n, rfl, by rw [hq, h2]⟩

theorem get_macro_some {syn : Syn} {root : Node} {t : Tree} {k : Nat} {x : Str} (G : Grammar syn) (hm : MacrosPlaced syn root) (ht : lower syn root = some t)
    (h : (names syn root)[k]? = some x) : ∃ mac, getMacro t k = some mac := by
  have h1 := congrArg List.length (pairs_names syn root)
  have h2 := congrArg List.length (table_pairs G hm ht)
  simp only [List.length_map] at h1 h2
  have hk := (List.getElem?_eq_some_iff.1 h).1
  exact ⟨_, List.getElem?_eq_getElem (l := tableMacros t) (by omega)⟩

/-! ## The theorems -/

theorem defined_name {env : Env} {others : Nat → List Str} {h h₁ h₂ : List Str} {syn : Nat → Syn} {root : Nat → Node} {trees : Nat → Tree}
    (P : Project env others h syn root trees) (e : h = h₁ ++ h₂) {x : Str} {f k : Nat} (d : Defined env others h₁ x f k) : (names (syn f) (root f))[k]? = some x := by
  rcases d with ⟨rfl, d, _⟩ | ⟨hf, d⟩
  · rw [P.own, e, List.getElem?_append_left (List.getElem?_eq_some_iff.1 d).1]; exact d
  · rw [P.others f hf]; exact d

/-- Going to the definition from a position leads to the definition of the macro used there: the position lies on a token the preprocessor
read, and the answer is the `#define` of this name that was in force when it did. It is partial: the token may be one an expansion left
to be read and not one of the file (`goto_macro_ghost_refuted`), and the syntax trees have to agree with the preprocessor on what
is defined (`goto_macro_unnamed_refuted`). -/
theorem goto_macro_partial (env : Env) (others : Nat → List Str) (ms : Macros) (tokens : List Sym) (h : List Str) (r : PSt) (syn : Nat → Syn) (root : Nat → Node)
    (trees : Nat → Tree) (hinc : IncludesOk env others) (hms : TableOk env others [] ms) (he : Ends env ms tokens h r) (P : Project env others h syn root trees)
    (pos : Pos) (o : Offset) (mac : Items.Macro) (hg : gotoMacro trees r.offsets pos = some (o, mac)) :
    In pos o.range ∧ ∃ h₁ h₂ s x own n, h = h₁ ++ h₂ ∧ Run env { lexer := tokens, macros := ms } h₁ s ∧ Reads env s x own ∧ (own = true → x ∈ tokens) ∧ x.range = o.range ∧
      mac.name.toList = x.text ∧ (o.fileId = env.fileId → InForce h₁ x.text o.idx) ∧ (named (syn o.fileId) (root o.fileId))[o.idx]? = some n ∧
      (AstIdMap.ofTree (root o.fileId)).get mac.astId = some n.ptr := by
  simp only [gotoMacro, Option.bind_eq_bind, Option.bind_eq_some_iff, Option.some.injEq, Prod.mk.injEq] at hg
  obtain ⟨o', ho, mac', hmac, rfl, rfl⟩ := hg
  obtain ⟨hmem, hcon⟩ := And.intro (List.mem_of_find?_eq_some ho) (List.find?_some ho)
  obtain ⟨⟨l, o''⟩, hmem', rfl⟩ := List.mem_map.1 hmem
  obtain ⟨h₁, h₂, s, x, own, e, hr, hx, hrange, hd⟩ := ends_uses hinc hms he l _ (List.mem_filter.1 hmem').1
  obtain ⟨hn1, n, hn2, hn3⟩ := get_macro_name (P.grammar _) (P.placed _) (P.trees _) hmac
  have hn := defined_name P e hd
  rw [hn1, Option.some.injEq] at hn
  refine ⟨(Verif.Props.Position.offset_contains_correct _ _).1 hcon, h₁, h₂, s, x, own, n, e, hr, hx, ?_, hrange, hn, ?_, hn2, hn3⟩
  · intro ho; subst ho; exact reads_own hr hx
  · intro hf
    rcases hd with ⟨_, hd⟩ | ⟨hf', _⟩
    · exact hd
    · exact absurd hf hf'

/-! ## Nothing is forgotten -/

theorem processInclude_offsets (env : Env) (x : Sym) (s : PSt) : (processInclude env x s).offsets = s.offsets := by
  unfold processInclude
  simp only
  split
  · show (pushSym _ _).offsets = _; rw [(same_pushSym _ _).offsets]
  · rw [(same_pushSym _ _).offsets]

theorem step_offsets {env : Env} {f : Nat} {t : Tok} {s s' : PSt} (e : pStep env f t s = .next s') : s.offsets <+: s'.offsets := by
  have hl : (noteArg t s).offsets = s.offsets := by unfold noteArg; split <;> rfl
  have hif : ∀ {x : Sym} {s s' : PSt}, processIf env f x s = .next s' → s.offsets <+: s'.offsets := by
    intro x s s' e
    unfold processIf at e
    simp only at e
    split at e
    · cases e
    · cases e
    · rename_i r _ _
      simp only [Step.next.injEq] at e
      rw [← e]
      refine ⟨(eEffects env.profile s.macros f ⟨(takeDirective s.lexer).1, [], [], [], true, false, s.disabled⟩).2, ?_⟩
      cases r <;> first | rfl | (dsimp only; split <;> first | rfl | (split <;> rfl))
  have helse : ∀ {x : Sym} {s s' : PSt}, processElseif env f x s = .next s' → s.offsets <+: s'.offsets := by
    intro x s s' e
    unfold processElseif at e
    split at e
    · cases e
    · have := hif e; exact this
    · cases e; exact List.prefix_refl _
  have hsame : ∀ {s s' : PSt}, Same s s' → s.offsets <+: s'.offsets := fun h => by rw [h.offsets]; exact List.prefix_refl _
  unfold pStep at e
  simp only at e
  rw [← hl]
  generalize noteArg t s = s at e
  split at e
  · unfold processNegative at e
    split at e
    · cases e; exact List.prefix_refl _
    · exact hsame (same_processEndif e)
    · exact hsame (same_processElse e)
    · exact helse e
    · cases e; exact List.prefix_refl _
    · cases e; exact List.prefix_refl _
  · unfold processActive at e
    split at e
    · cases e
    · unfold processDirective at e
      split at e
      · exact hif e
      · exact helse e
      · unfold processDefine at e
        split at e
        · cases e
        · rename_i hd
          have := hsame ((same_pushSym t.sym s).trans (defineLoop_same _ _ _ _ _ hd))
          cases e; exact this
      · cases e
        obtain ⟨_, _, _, h4⟩ := undefLoop_fewer s.lexer (pushSym t.sym s)
        rw [h4, (same_pushSym t.sym s).offsets]; exact List.prefix_refl _
      · exact hsame (same_processEndif e)
      · exact hsame (same_processElse e)
      · cases e; rw [processInclude_offsets]; exact List.prefix_refl _
      · cases e; rw [processInclude_offsets]; exact List.prefix_refl _
      · cases e; exact hsame (same_pushSym _ _)
    · cases e; exact List.prefix_refl _
    · unfold processIdent at e
      split at e
      · cases e; exact List.prefix_refl _
      · split at e
        · cases e; exact hsame (same_pushSym _ _)
        · split at e
          · cases e; rw [(same_pushSym _ _).offsets]; exact List.prefix_refl _
          · split at e
            · cases e
            · split at e
              · cases e; exact List.prefix_refl _
              · cases e
    · cases e; exact List.prefix_refl _
    · cases e; exact List.prefix_refl _
    · cases e
      split
      · exact List.prefix_refl _
      · rw [(same_pushSym _ _).offsets]; exact List.prefix_refl _
    · cases e
      split
      · exact List.prefix_refl _
      · rw [(same_pushSym _ _).offsets]; exact List.prefix_refl _
    · cases e
    · cases e; exact hsame (same_pushSym _ _)

theorem next_offsets {s s₁ : PSt} {t : Tok} (hn : pNext s = some (t, s₁)) : s.offsets <+: s₁.offsets := by
  unfold pNext at hn
  split at hn
  · cases hn; exact List.prefix_refl _
  · split at hn
    · cases hn
    · split at hn <;> cases hn
      · exact List.prefix_refl _
      · exact List.prefix_append _ _

theorem run_offsets {env : Env} {s₀ s : PSt} {h : List Str} (hr : Run env s₀ h s) : s₀.offsets <+: s.offsets := by
  induction hr with
  | start => exact List.prefix_refl _
  | turn _ hn hs ih => exact ih.trans ((next_offsets hn).trans (step_offsets hs))

theorem finishes_offsets {env : Env} {s r : PSt} {h : List Str} (hf : Finishes env s h r) : s.offsets <+: r.offsets := by
  obtain ⟨s', hr, ⟨_, rfl⟩ | ⟨t, s₁, f, hn, hs⟩⟩ := hf
  · exact run_offsets hr
  · rw [stop_offsets hs]; exact (run_offsets hr).trans (next_offsets hn)

theorem step_det {env : Env} {f g : Nat} {t : Tok} {s : PSt} {a b : Step} (h : pStep env f t s = a) (h' : pStep env g t s = b) (ha : a ≠ .noFuel) (hb : b ≠ .noFuel) : a = b := by
  have h1 := PreFuel.pStep_mono env f g t s (by rw [h]; exact ha)
  have h2 := PreFuel.pStep_mono env g f t s (by rw [h']; exact hb)
  rw [Nat.add_comm g f] at h2
  rw [← h, ← h', ← h1, ← h2]

/-- A run from `s` either has not begun or has made the first step. -/
theorem run_head {env : Env} {s₀ s : PSt} {h : List Str} (hr : Run env s₀ h s) : (h = [] ∧ s = s₀) ∨
    ∃ t s₁ s₂ f h', pNext s₀ = some (t, s₁) ∧ pStep env f t s₁ = .next s₂ ∧ h = defines t s₁ ++ h' ∧ Run env s₂ h' s := by
  induction hr with
  | start => exact .inl ⟨rfl, rfl⟩
  | turn hr hn hs ih =>
    rename_i h s s₁ s₂ t f
    rcases ih with ⟨rfl, rfl⟩ | ⟨t', a, b, g, h', e1, e2, rfl, e4⟩
    · exact .inr ⟨t, s₁, s₂, f, [], hn, hs, by simp, .start⟩
    · exact .inr ⟨t', a, b, g, _, e1, e2, by rw [List.append_assoc], .turn e4 hn hs⟩

theorem run_trans {env : Env} {a b c : PSt} {h k : List Str} (h1 : Run env a h b) (h2 : Run env b k c) : Run env a (h ++ k) c := by
  induction h2 with
  | start => rw [List.append_nil]; exact h1
  | turn _ hn hs ih => rw [← List.append_assoc]; exact .turn ih hn hs

theorem finishes_step {env : Env} {s s₁ s₂ r : PSt} {h : List Str} {t : Tok} {f : Nat} (hf : Finishes env s h r) (hn : pNext s = some (t, s₁))
    (hs : pStep env f t s₁ = .next s₂) : ∃ h', h = defines t s₁ ++ h' ∧ Finishes env s₂ h' r := by
  obtain ⟨s', hr, he⟩ := hf
  rcases run_head hr with ⟨rfl, rfl⟩ | ⟨t', a, b, g, h', e1, e2, rfl, e4⟩
  · exfalso
    rcases he with ⟨hn', _⟩ | ⟨t', a, g, hn', hs'⟩
    · rw [hn] at hn'; cases hn'
    · rw [hn] at hn'; cases hn'
      have := step_det hs hs' (by simp) (by simp)
      cases this
  · rw [hn] at e1; cases e1
    have := step_det hs e2 (by simp) (by simp)
    cases this
    exact ⟨h', rfl, s', e4, he⟩

/-- The run that ends passes through every state that is reached. -/
theorem finishes_run {env : Env} {s₀ s : PSt} {k : List Str} (hr : Run env s₀ k s) : ∀ {h r}, Finishes env s₀ h r → ∃ h', h = k ++ h' ∧ Finishes env s h' r := by
  induction hr with
  | start => intro h r hf; exact ⟨h, rfl, hf⟩
  | turn _ hn hs ih =>
    intro h r hf
    obtain ⟨h', rfl, hf'⟩ := ih hf
    obtain ⟨h'', rfl, hf''⟩ := finishes_step hf' hn hs
    exact ⟨h'', by rw [List.append_assoc], hf''⟩

/-- Reading a plain token leaves the rest as it is. -/
theorem step_plain (env : Env) (f : Nat) (t : Tok) (s : PSt) (hk : PlainTok s.macros t) (hc : skipping s.conds = false) :
    ∃ s', pStep env f t s = .next s' ∧ s'.stack = s.stack ∧ s'.lexer = s.lexer ∧ s'.macros = s.macros ∧ s'.conds = s.conds ∧ s'.expanded = s.expanded := by
  obtain ⟨k1, k2, k3, k4⟩ := hk
  have hpush : ∀ (x : Sym) (s : PSt), (pushSym x s).stack = s.stack ∧ (pushSym x s).lexer = s.lexer ∧ (pushSym x s).macros = s.macros ∧ (pushSym x s).conds = s.conds ∧
      (pushSym x s).expanded = s.expanded := by
    intro x s; unfold pushSym; split <;> exact ⟨rfl, rfl, rfl, rfl, rfl⟩
  have hn : (noteArg t s).stack = s.stack ∧ (noteArg t s).lexer = s.lexer ∧ (noteArg t s).macros = s.macros ∧ (noteArg t s).conds = s.conds ∧ (noteArg t s).expanded = s.expanded := by
    unfold noteArg; split <;> exact ⟨rfl, rfl, rfl, rfl, rfl⟩
  obtain ⟨n1, n2, n3, n4, n5⟩ := hn
  unfold pStep
  simp only
  rw [n4, hc]
  simp only [Bool.false_eq_true, if_false]
  rw [← n1, ← n2, ← n4, ← n5]
  rw [← n3] at k4 ⊢
  generalize noteArg t s = s at *
  unfold processActive
  split
  · rename_i h; exact absurd h k1
  · rename_i d h; exact absurd h (k3 d)
  · exact ⟨_, rfl, rfl, rfl, rfl, rfl, rfl⟩
  · rename_i h
    unfold processIdent
    split
    · exact ⟨_, rfl, rfl, rfl, rfl, rfl, rfl⟩
    · rw [k4 h]; exact ⟨_, rfl, hpush _ _⟩
  · exact ⟨_, rfl, rfl, rfl, rfl, rfl, rfl⟩
  · exact ⟨_, rfl, rfl, rfl, rfl, rfl, rfl⟩
  · refine ⟨_, rfl, ?_⟩
    split
    · exact ⟨rfl, rfl, rfl, rfl, rfl⟩
    · exact hpush _ _
  · refine ⟨_, rfl, ?_⟩
    split
    · exact ⟨rfl, rfl, rfl, rfl, rfl⟩
    · exact hpush _ _
  · rename_i h; exact absurd h k2
  · exact ⟨_, rfl, hpush _ _⟩

theorem drain {env : Env} {r : PSt} : ∀ (l : List Tok) (s : PSt) (h : List Str), s.stack = l → skipping s.conds = false → (∀ u ∈ l, PlainTok s.macros u) → Finishes env s h r →
    ∃ s' h', s'.stack = [] ∧ s'.expanded = s.expanded ∧ s'.lexer = s.lexer ∧ Finishes env s' h' r := by
  intro l
  induction l with
  | nil => intro s h hs _ _ hf; exact ⟨s, h, hs, rfl, rfl, hf⟩
  | cons u l ih =>
    intro s h hs hc hp hf
    obtain ⟨s₁, hn, n1, n2, n3, n4, n5⟩ : ∃ s₁, pNext s = some (u, s₁) ∧ s₁.stack = l ∧ s₁.lexer = s.lexer ∧ s₁.macros = s.macros ∧ s₁.conds = s.conds ∧ s₁.expanded = s.expanded := by
      unfold pNext; rw [hs]; exact ⟨_, rfl, rfl, rfl, rfl, rfl, rfl⟩
    obtain ⟨s₂, hs₂, m1, m2, m3, m4, m5⟩ := step_plain env 0 u s₁ (by rw [n3]; exact hp u List.mem_cons_self) (by rw [n4]; exact hc)
    obtain ⟨h', _, hf'⟩ := finishes_step hf hn hs₂
    obtain ⟨s', h'', e1, e2, e3, e4⟩ := ih s₂ h' (m1.trans n1) (by rw [m4, n4]; exact hc) (fun v hv => by rw [m3, n3]; exact hp v (List.mem_cons_of_mem _ hv)) hf'
    exact ⟨s', h'', e1, by rw [e2, m5, n5], by rw [e3, m2, n2], e4⟩

theorem expands_state {env : Env} {s s₂ : PSt} {t : Tok} {m : Pre.Macro} (e : Expands env s t m s₂) :
    s₂.expanded = some (t.sym, m.idx, m.fileId) ∧ skipping s₂.conds = false := by
  obtain ⟨hst, ⟨s₁, f, hn, hs⟩, hk, hc, hi, hm, hd⟩ := e
  obtain ⟨n1, n2, n3, n4⟩ : s₁.conds = s.conds ∧ s₁.intr = s.intr ∧ s₁.macros = s.macros ∧ s₁.disabled = s.disabled := by
    unfold pNext at hn
    rw [hst] at hn
    simp only at hn
    split at hn
    · cases hn
    · split at hn <;> cases hn <;> exact ⟨rfl, rfl, rfl, rfl⟩
  obtain ⟨a1, a2, a3, a4⟩ : (noteArg t s₁).conds = s₁.conds ∧ (noteArg t s₁).intr = s₁.intr ∧ (noteArg t s₁).macros = s₁.macros ∧ (noteArg t s₁).disabled = s₁.disabled := by
    unfold noteArg; split <;> exact ⟨rfl, rfl, rfl, rfl⟩
  unfold pStep at hs
  simp only at hs
  rw [a1, n1, hc] at hs
  simp only [Bool.false_eq_true, if_false] at hs
  unfold processActive at hs
  rw [hk] at hs
  simp only at hs
  unfold processIdent at hs
  rw [a2, n2, if_neg hi, a3, n3, hm, a4, n4] at hs
  simp only at hs
  rw [if_neg hd] at hs
  split at hs
  · cases hs
  · split at hs
    · cases hs
      exact ⟨rfl, by rw [show _ = _ from a1, n1]; exact hc⟩
    · cases hs

/-- Nothing is missed: from every use of a macro in active code that stands on one line with what follows it, going to the definition gives an
answer (and `goto_macro_partial` says that it is right). It is partial: a call that spans lines gives none (`goto_macro_lines_refuted`),
and neither need a macro whose expansion leaves names of macros to be read. -/
theorem goto_macro_found_partial (env : Env) (others : Nat → List Str) (ms : Macros) (tokens : List Sym) (h : List Str) (r : PSt) (syn : Nat → Syn) (root : Nat → Node)
    (trees : Nat → Tree) (hinc : IncludesOk env others) (hms : TableOk env others [] ms) (he : Ends env ms tokens h r) (P : Project env others h syn root trees)
    (h₁ : List Str) (s s₂ : PSt) (t : Tok) (m : Pre.Macro) (hr : Run env { lexer := tokens, macros := ms } h₁ s) (hx : Expands env s t m s₂)
    (hp : ∀ u ∈ s₂.stack, PlainTok s₂.macros u) (y : Sym) (ys : List Sym) (hy : s₂.lexer = y :: ys) (hl : y.range.s.line = t.sym.range.s.line)
    (pos : Pos) (hpos : In pos t.sym.range) (hline : pos.line = t.sym.range.s.line) : ∃ o mac, gotoMacro trees r.offsets pos = some (o, mac) := by
  obtain ⟨x1, x2⟩ := expands_state hx
  obtain ⟨h', _, hf⟩ := finishes_run hr he
  obtain ⟨s₁, f, hn, hs⟩ := hx.reads
  obtain ⟨h'', _, hf2⟩ := finishes_step hf hn hs
  obtain ⟨s₃, h3, e1, e2, e3, hf3⟩ := drain s₂.stack s₂ h'' rfl x2 hp hf2
  have hmem : ∃ d a, (y.range.s.line, (⟨t.sym.range, d, a, m.idx, m.fileId⟩ : Offset)) ∈ r.offsets := by
    have : ∃ s₄ d a, pNext s₃ = some (y.tok, s₄) ∧ (y.range.s.line, (⟨t.sym.range, d, a, m.idx, m.fileId⟩ : Offset)) ∈ s₄.offsets := by
      unfold pNext
      rw [e1, e3, hy, e2, x1]
      exact ⟨_, _, _, rfl, List.mem_append_right _ List.mem_cons_self⟩
    obtain ⟨s₄, d, a, hn4, ho⟩ := this
    refine ⟨d, a, ?_⟩
    obtain ⟨s', hr', ⟨hn', rfl⟩ | ⟨t', b, g, hn', hs'⟩⟩ := hf3
    · rcases run_head hr' with ⟨_, rfl⟩ | ⟨t', b, c, g, k, f1, f2, _, f4⟩
      · rw [hn4] at hn'; cases hn'
      · rw [hn4] at f1; cases f1
        exact (run_offsets f4).mem ((step_offsets f2).mem ho)
    · rcases run_head hr' with ⟨_, rfl⟩ | ⟨t'', b', c, g', k, f1, f2, _, f4⟩
      · rw [hn4] at hn'; cases hn'
        rw [stop_offsets hs']; exact ho
      · rw [hn4] at f1; cases f1
        rw [stop_offsets hs']
        exact (next_offsets hn').mem ((run_offsets f4).mem ((step_offsets f2).mem ho))
  obtain ⟨d, a, ho⟩ := hmem
  have hon : (⟨t.sym.range, d, a, m.idx, m.fileId⟩ : Offset) ∈ onLine r.offsets pos.line :=
    List.mem_map.2 ⟨_, List.mem_filter.2 ⟨ho, by simp [hl, hline]⟩, rfl⟩
  have hcon := (Verif.Props.Position.offset_contains_correct ⟨t.sym.range, d, a, m.idx, m.fileId⟩ pos).2 hpos
  cases hfind : (onLine r.offsets pos.line).find? (·.contains pos) with
  | none => exact absurd hcon (by simpa using List.find?_eq_none.1 hfind _ hon)
  | some o =>
    obtain ⟨⟨l, o'⟩, hmem, rfl⟩ := List.mem_map.1 (List.mem_of_find?_eq_some hfind)
    obtain ⟨k₁, k₂, _, x, _, e, _, _, _, hd⟩ := ends_uses hinc hms he l _ (List.mem_filter.1 hmem).1
    obtain ⟨mac, hmac⟩ := get_macro_some (P.grammar _) (P.placed _) (P.trees _) (defined_name P e hd)
    exact ⟨o', mac, by simp only [gotoMacro, hfind, Option.bind_eq_bind, Option.bind_some, hmac]⟩

/-! ## Files -/

/-- A token on one line, `gap` columns after the one before it. -/
def tk (k : Pre.Kind) (text : String) (line col : Nat) (gap : Int := 0) (pre : Bool := false) (v : Option Int := none) : Sym :=
  ⟨k, text.toList, ⟨⟨line, col⟩, ⟨line, col + text.length⟩⟩, ⟨0, gap⟩, v, pre⟩

def br (line col : Nat) (pre : Bool := false) : Sym := ⟨.newline, ['\n'], ⟨⟨line, col⟩, ⟨line + 1, 0⟩⟩, ⟨0, 0⟩, none, pre⟩

/-- The grammar of the samples: a name is a child of kind `other 0`, and `text` tells the text of a node that starts at an offset. -/
def synOf (text : Nat → String) : Syn where
  field f n := match f with | .name => n.children.find? (·.kind = .other 0) | _ => none
  text n := text n.s
  type_ _ := none
  returnType _ := none
  fnKind _ := .definition
  vis _ := {}
  hasStatic _ := false

theorem synOf_grammar (text : Nat → String) : Grammar (synOf text) where
  child f n c h := by cases f <;> simp only [synOf, reduceCtorEq] at h; exact List.mem_of_find?_eq_some h
  entries n c h := by simp [synOf] at h
  parameters n c h := by simp [synOf] at h
  parameter n c h := by simp [synOf] at h

/-- A `#define` whose name starts at an offset. -/
def def_ (s : Nat) : Node := .mk .preproc_define s (s + 10) [.mk (.other 0) (s + 8) (s + 9) []]

/-- A file of definitions. -/
def fileOf (l : List Nat) : Node := .mk .source_file 0 1000 (l.map def_)

theorem fileOf_nodes (l : List Nat) : macroDefs (fileOf l) = l.map def_ := by
  rw [← ItemTree.macroNodes_eq]
  simp only [fileOf, macroNodes]
  induction l with
  | nil => rfl
  | cons a l ih =>
    simp only [reduceCtorEq, or_self, if_false, List.nil_append, List.map_cons, macroNodesIn] at ih ⊢
    rw [ih]
    simp [def_, macroNodes, macroNodesIn]

theorem fileOf_placed (text : Nat → String) (l : List Nat) : MacrosPlaced (synOf text) (fileOf l) := by
  intro n hn _
  rw [fileOf_nodes] at hn
  obtain ⟨i, hi⟩ := List.mem_iff_getElem?.1 hn
  obtain ⟨k, _, rfl⟩ := List.mem_map.1 hn
  exact ⟨[i], .item hi (show Hir.Kind.preproc_define ≠ _ by decide) (show Hir.Kind.preproc_define ∉ _ by decide)⟩

/-- The loop, with the names it defines. -/
def trace (env : Env) : Nat → PSt → List Str → Option (List Str × PSt)
  | 0, _, _ => none
  | f + 1, s, h =>
    match pNext s with
    | none => some (h, s)
    | some (t, s₁) =>
      match pStep env f t s₁ with
      | .next s₂ => trace env f s₂ (h ++ defines t s₁)
      | .stop r => some (h, r)
      | _ => none

theorem trace_ends {env : Env} {s₀ : PSt} : ∀ (f : Nat) (s : PSt) (h h' : List Str) (r : PSt), Run env s₀ h s → trace env f s h = some (h', r) → Finishes env s₀ h' r := by
  intro f
  induction f with
  | zero => intro s h h' r _ e; cases e
  | succ f ih =>
    intro s h h' r hr e
    simp only [trace] at e
    split at e
    · rename_i hn; cases e; exact ⟨s, hr, .inl ⟨hn, rfl⟩⟩
    · rename_i t s₁ hn
      split at e
      · rename_i hs; exact ih _ _ _ _ (.turn hr hn hs) e
      · rename_i hs; cases e; exact ⟨s, hr, .inr ⟨t, s₁, f, hn, hs⟩⟩
      · cases e

/-- ```
#define A 1
#define B 2
A B
``` -/
def twoMacros : List Sym :=
  [tk (.dir .define) "#define" 0 0, tk .ident "A" 0 8 1 true, tk .intLit "1" 0 10 1 true (some 1), br 0 11 true,
   tk (.dir .define) "#define" 1 0, tk .ident "B" 1 8 1 true, tk .intLit "2" 1 10 1 true (some 2), br 1 11 true,
   tk .ident "A" 2 0, tk .ident "B" 2 2 1, br 2 3, tk .eof "" 3 0]

def twoNames : Nat → String := fun s => if s = 8 then "A" else "B"

def noMacros : Macros := fun _ => none

def treeOf (text : Nat → String) (l : List Nat) : Tree := (lower (synOf text) (fileOf l)).getD {}

/-- The sample is the text of a file that parses into two definitions. -/
theorem sampleProject : Project Conditional.plainEnv (fun _ => []) [['A'], ['B']] (fun _ => synOf twoNames) (fun f => fileOf (if f = 0 then [0, 20] else []))
    (fun f => treeOf twoNames (if f = 0 then [0, 20] else [])) := by
  refine ⟨fun _ => synOf_grammar _, fun _ => fileOf_placed _ _, ?_, rfl, ?_⟩
  · intro f
    obtain ⟨t, ht, _⟩ := ItemTree.item_tree_partial (synOf twoNames) (fileOf (if f = 0 then [0, 20] else [])) (synOf_grammar _) (fileOf_placed _ _)
    simp only [treeOf, ht, Option.getD_some]
  · intro f hf
    simp only [Conditional.plainEnv] at hf
    simp [hf, names, fileOf_nodes]

theorem sampleTable : tableMacros (treeOf twoNames [0, 20]) = [⟨"A", 0⟩, ⟨"B", 1⟩] := rfl

theorem sampleRun : ∃ r, Gives Conditional.plainEnv noMacros twoMacros (.result r) ∧ Ends Conditional.plainEnv noMacros twoMacros [['A'], ['B']] r ∧
    r.offsets = [(2, ⟨⟨⟨2, 0⟩, ⟨2, 1⟩⟩, 0, 0, 0, 0⟩), (2, ⟨⟨⟨2, 2⟩, ⟨2, 3⟩⟩, 0, 0, 1, 0⟩)] := ⟨_, Conditional.gives_of 30 rfl, trace_ends 30 _ [] _ _ .start rfl, rfl⟩

/-- The hypotheses of `goto_macro_partial` hold of the sample, and going to the definition of `B` leads to the second definition. -/
example : ∃ r o mac, Gives Conditional.plainEnv noMacros twoMacros (.result r) ∧ Ends Conditional.plainEnv noMacros twoMacros [['A'], ['B']] r ∧
    IncludesOk Conditional.plainEnv (fun _ => []) ∧ TableOk Conditional.plainEnv (fun _ => []) [] noMacros ∧
    Project Conditional.plainEnv (fun _ => []) [['A'], ['B']] (fun _ => synOf twoNames) (fun f => fileOf (if f = 0 then [0, 20] else []))
      (fun f => treeOf twoNames (if f = 0 then [0, 20] else [])) ∧
    gotoMacro (fun f => treeOf twoNames (if f = 0 then [0, 20] else [])) r.offsets ⟨2, 2⟩ = some (o, mac) ∧ mac.name = "B" := by
  obtain ⟨r, h1, h2, h3⟩ := sampleRun
  refine ⟨r, ⟨⟨⟨2, 2⟩, ⟨2, 3⟩⟩, 0, 0, 1, 0⟩, ⟨"B", 1⟩, h1, h2, fun _ _ _ _ h => .inl h, fun _ _ h => (nomatch h), sampleProject, ?_, rfl⟩
  rw [h3]
  simp [gotoMacro, onLine, Offset.contains, getMacro, sampleTable]

theorem plain_of_kinds {l : List Tok} {ms : Macros} (h : l.map Tok.kind = [.intLit]) : ∀ u ∈ l, PlainTok ms u := by
  intro u hu
  have : u.kind ∈ l.map Tok.kind := List.mem_map.2 ⟨u, hu, rfl⟩
  rw [h, List.mem_singleton] at this
  rw [PlainTok, this]
  exact ⟨by decide, by decide, fun d h => (nomatch h), fun h => (nomatch h)⟩

/-- The `A` of the sample meets the hypotheses of `goto_macro_found_partial`. -/
example : ∃ h₁ s t m s₂ y ys, Run Conditional.plainEnv { lexer := twoMacros, macros := noMacros } h₁ s ∧ Expands Conditional.plainEnv s t m s₂ ∧ t.text = ['A'] ∧
    (∀ u ∈ s₂.stack, PlainTok s₂.macros u) ∧ s₂.stack.length = 1 ∧ s₂.lexer = y :: ys ∧ y.range.s.line = t.sym.range.s.line := by
  refine ⟨_, _, tk .ident "A" 2 0 |>.tok, _, _, _, _, .turn (f := 9) (.turn (f := 9) .start rfl rfl) rfl rfl, ⟨rfl, ⟨_, 20, rfl, rfl⟩, rfl, rfl, by decide, rfl, by decide⟩, rfl, ?_, rfl, rfl, rfl⟩
  exact plain_of_kinds rfl

/-- ```
#define F(%1) %1
#define B 2
#define A F B
A x
``` -/
def ghost : List Sym :=
  [tk (.dir .define) "#define" 0 0, tk .ident "F" 0 8 1 true, tk .lparen "(" 0 9 0 true, tk (.op .percent) "%" 0 10 0 true, tk .intLit "1" 0 11 0 true (some 1),
   tk .rparen ")" 0 12 0 true, tk (.op .percent) "%" 0 14 1 true, tk .intLit "1" 0 15 0 true (some 1), br 0 16 true,
   tk (.dir .define) "#define" 1 0, tk .ident "B" 1 8 1 true, tk .intLit "2" 1 10 1 true (some 2), br 1 11 true,
   tk (.dir .define) "#define" 2 0, tk .ident "A" 2 8 1 true, tk .ident "F" 2 10 1 true, tk .ident "B" 2 12 1 true, br 2 13 true,
   tk .ident "A" 3 0, tk .ident "x" 3 2 1, br 3 3, tk .eof "" 4 0]

def ghostNames : Nat → String := fun s => if s = 8 then "F" else if s = 28 then "B" else "A"

theorem ghostTable : tableMacros (treeOf ghostNames [0, 20, 40]) = [⟨"F", 0⟩, ⟨"B", 1⟩, ⟨"A", 2⟩] := rfl

/-- **C62 is violated** when an expansion leaves the name of a macro to be read: going to the definition from `A` gives nothing, and from `x`,
which is no macro, leads to `B`. -/
theorem goto_macro_ghost_refuted : ∃ r o mac, Gives Conditional.plainEnv noMacros ghost (.result r) ∧ (treeOf ghostNames [0, 20, 40]).macros.length = 3 ∧
    gotoMacro (fun _ => treeOf ghostNames [0, 20, 40]) r.offsets ⟨3, 0⟩ = none ∧
    gotoMacro (fun _ => treeOf ghostNames [0, 20, 40]) r.offsets ⟨3, 2⟩ = some (o, mac) ∧ mac.name = "B" ∧
    (∀ x ∈ ghost, In ⟨3, 2⟩ x.range → x.text ≠ ['B']) := by
  obtain ⟨r, h1, h2⟩ : ∃ r, Gives Conditional.plainEnv noMacros ghost (.result r) ∧ r.offsets = [(3, ⟨⟨⟨3, 2⟩, ⟨3, 3⟩⟩, 4, 0, 1, 0⟩)] := ⟨_, Conditional.gives_of 60 rfl, rfl⟩
  refine ⟨r, ⟨⟨⟨3, 2⟩, ⟨3, 3⟩⟩, 4, 0, 1, 0⟩, ⟨"B", 1⟩, h1, rfl, ?_, ?_, rfl, ?_⟩
  · rw [h2]; simp [gotoMacro, onLine, Offset.contains]
  · rw [h2]; simp [gotoMacro, onLine, Offset.contains, getMacro, ghostTable]
  · unfold ghost In Pos.le; decide

/-- ```
#define F(%1) %1
F(
1) y
``` -/
def twoLines : List Sym :=
  [tk (.dir .define) "#define" 0 0, tk .ident "F" 0 8 1 true, tk .lparen "(" 0 9 0 true, tk (.op .percent) "%" 0 10 0 true, tk .intLit "1" 0 11 0 true (some 1),
   tk .rparen ")" 0 12 0 true, tk (.op .percent) "%" 0 14 1 true, tk .intLit "1" 0 15 0 true (some 1), br 0 16 true,
   tk .ident "F" 1 0, tk .lparen "(" 1 1, br 1 2, tk .intLit "1" 2 0 0 false (some 1), tk .rparen ")" 2 1, tk .ident "y" 2 3 1, br 2 4, tk .eof "" 3 0]

/-- **C62 is violated** by a call that spans lines: it is recorded for the line on which it ends, so that going to the definition from the name
gives nothing, whatever the item trees are. -/
theorem goto_macro_lines_refuted : ∃ r, Gives Conditional.plainEnv noMacros twoLines (.result r) ∧ ∀ trees, gotoMacro trees r.offsets ⟨1, 0⟩ = none := by
  obtain ⟨r, h1, h2⟩ : ∃ r, Gives Conditional.plainEnv noMacros twoLines (.result r) ∧ r.offsets.map (·.1) = [2] := ⟨_, Conditional.gives_of 60 rfl, rfl⟩
  refine ⟨r, h1, fun trees => ?_⟩
  have : onLine r.offsets 1 = [] := by
    unfold onLine
    rw [List.map_eq_nil_iff, List.filter_eq_nil_iff]
    intro e he
    have : e.1 ∈ r.offsets.map (·.1) := List.mem_map.2 ⟨e, he, rfl⟩
    rw [h2, List.mem_singleton] at this
    simp [this]
  simp [gotoMacro, this]

/-- ```
#define
#define A 1
#define B 2
A
``` -/
def nameless : List Sym :=
  [tk (.dir .define) "#define" 0 0, br 0 7 true,
   tk (.dir .define) "#define" 1 0, tk .ident "A" 1 8 1 true, tk .intLit "1" 1 10 1 true (some 1), br 1 11 true,
   tk (.dir .define) "#define" 2 0, tk .ident "B" 2 8 1 true, tk .intLit "2" 2 10 1 true (some 2), br 2 11 true,
   tk .ident "A" 3 0, br 3 1, tk .eof "" 4 0]

/-- **C62 is violated** when there is a `#define` without a name: the preprocessor numbers it, the item tree does not, and going to the definition of
`A` leads to `B`. -/
theorem goto_macro_unnamed_refuted : ∃ r o mac, Gives Conditional.plainEnv noMacros nameless (.result r) ∧
    gotoMacro (fun _ => treeOf twoNames [0, 20]) r.offsets ⟨3, 0⟩ = some (o, mac) ∧ mac.name = "B" ∧ (∀ x ∈ nameless, In ⟨3, 0⟩ x.range → x.text ≠ ['B']) := by
  obtain ⟨r, h1, h2⟩ : ∃ r, Gives Conditional.plainEnv noMacros nameless (.result r) ∧ r.offsets = [(3, ⟨⟨⟨3, 0⟩, ⟨3, 1⟩⟩, 0, 0, 1, 0⟩)] := ⟨_, Conditional.gives_of 60 rfl, rfl⟩
  refine ⟨r, ⟨⟨⟨3, 0⟩, ⟨3, 1⟩⟩, 0, 0, 1, 0⟩, ⟨"B", 1⟩, h1, ?_, rfl, ?_⟩
  · rw [h2]; simp [gotoMacro, onLine, Offset.contains, getMacro, sampleTable]
  · unfold nameless In Pos.le; decide

/-- ```
#if 0
#define A 1
#endif
#define B 2
B
?
``` -/
def failing : List Sym :=
  [tk (.dir .if_) "#if" 0 0, tk .intLit "0" 0 4 1 true (some 0), br 0 5 true,
   tk (.dir .define) "#define" 1 0, tk .ident "A" 1 8 1 true, tk .intLit "1" 1 10 1 true (some 1), br 1 11 true,
   tk (.dir .endif) "#endif" 2 0, br 2 6,
   tk (.dir .define) "#define" 3 0, tk .ident "B" 3 8 1 true, tk .intLit "2" 3 10 1 true (some 2), br 3 11 true,
   tk .ident "B" 4 0, br 4 1, tk .unknown "?" 5 0, br 5 1, tk .eof "" 6 0]

/-- **C62 is violated** when preprocessing fails: the text that is parsed is then the original one, with the definitions in inactive parts, and going
to the definition of `B` leads to `A`. -/
theorem goto_macro_error_refuted : ∃ r o mac, Gives Conditional.plainEnv noMacros failing (.errorResult r) ∧
    gotoMacro (fun _ => treeOf twoNames [0, 20]) r.offsets ⟨4, 0⟩ = some (o, mac) ∧ mac.name = "A" ∧ (∀ x ∈ failing, In ⟨4, 0⟩ x.range → x.text ≠ ['A']) := by
  obtain ⟨r, h1, h2⟩ : ∃ r, Gives Conditional.plainEnv noMacros failing (.errorResult r) ∧ r.offsets = [(4, ⟨⟨⟨4, 0⟩, ⟨4, 1⟩⟩, 0, 0, 0, 0⟩)] := ⟨_, Conditional.gives_of 60 rfl, rfl⟩
  refine ⟨r, ⟨⟨⟨4, 0⟩, ⟨4, 1⟩⟩, 0, 0, 0, 0⟩, ⟨"A", 0⟩, h1, ?_, rfl, ?_⟩
  · rw [h2]; simp [gotoMacro, onLine, Offset.contains, getMacro, sampleTable]
  · unfold failing In Pos.le; decide

end Verif.Props.MacroDef
