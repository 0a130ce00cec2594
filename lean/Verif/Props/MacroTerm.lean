import Verif.Pre.Eval
/-!
# Macro expansion terminates (C23)
-/

namespace Verif.Props.MacroTerm
open Verif.Pre

theorem collect_ctx (s : Src) (line nb : Nat) : (collectArguments s line nb).1.ctx.length ≤ s.ctx.length := by
  unfold collectArguments
  split
  · simp only [Src.take, List.length_drop]; omega
  · simp only [Src.take, List.length_drop]; omega
  · simp only [Src.take, List.length_drop]; omega

/-- What a turn of the loop can do to the stack of contexts. -/
theorem xStep_ctxs (macros : Macros) (allow : Bool) (token : Tok) (top : List QTok) (rest : List (List QTok)) (st st' : XSt)
    (h : xStep macros allow token top rest st = .continue_ st') :
    (top = [] ∧ st'.ctxs = rest) ∨
    (∃ cur, cur.length < top.length ∧ (st'.ctxs = cur :: rest ∨ ∃ new, st'.ctxs = new :: cur :: rest)) := by
  cases top with
  | nil => left; simp only [xStep, XRes.continue_.injEq] at h; subst h; exact ⟨rfl, rfl⟩
  | cons q cur =>
    right
    unfold xStep at h
    dsimp only at h
    split at h
    · split at h
      · split at h
        · simp only [XRes.continue_.injEq] at h; subst h
          exact ⟨cur, by simp, Or.inl rfl⟩
        · exact absurd h (by simp)
      · rename_i m hm
        split at h
        · simp only [XRes.continue_.injEq] at h; subst h
          exact ⟨cur, by simp, Or.inr ⟨_, rfl⟩⟩
        · have hl := collect_ctx ⟨cur, st.popped, st.lexer⟩ q.tok.sym.range.e.line m.nbParams
          generalize hc : collectArguments ⟨cur, st.popped, st.lexer⟩ q.tok.sym.range.e.line m.nbParams = c at h hl
          obtain ⟨s, _ | ⟨args, d⟩⟩ := c
          · simp only [XRes.continue_.injEq] at h; subst h
            exact ⟨s.ctx, by simp only [List.length_cons]; simp only at hl; omega, Or.inl rfl⟩
          · dsimp only at h
            split at h
            · exact absurd h (by simp)
            · simp only [XRes.continue_.injEq] at h; subst h
              exact ⟨s.ctx, by simp only [List.length_cons]; simp only at hl; omega, Or.inr ⟨_, rfl⟩⟩
    all_goals
      simp only [XRes.continue_.injEq] at h; subst h
      exact ⟨cur, by simp, Or.inl rfl⟩

def Terminates (macros : Macros) (allow : Bool) (token : Tok) (st : XSt) : Prop := ∃ fuel, (xLoop macros allow token fuel st).isSome = true

theorem terminates_push (macros : Macros) (allow : Bool) (token : Tok) : ∀ (r : Nat) (rest : List (List QTok)), 6 ≤ rest.length + r →
    (∀ st : XSt, st.ctxs = rest → Terminates macros allow token st) →
    ∀ (n : Nat) (top : List QTok), top.length ≤ n → ∀ st : XSt, st.ctxs = top :: rest → Terminates macros allow token st := by
  intro r
  induction r with
  | zero =>
    intro rest hr hrest n top hn st hst
    refine ⟨1, ?_⟩
    have : ¬ (rest.length + 1 < 6) := by omega
    simp only [xLoop, hst, this, if_false, Option.isSome_some]
  | succ r ihr =>
    intro rest hr hrest n
    by_cases hlt : ¬ (rest.length + 1 < 6)
    · intro top hn st hst
      refine ⟨1, ?_⟩
      simp only [xLoop, hst, hlt, if_false, Option.isSome_some]
    replace hlt : rest.length + 1 < 6 := Classical.not_not.1 hlt
    induction n with
    | zero =>
      intro top hn st hst
      have : top = [] := List.length_eq_zero_iff.1 (by omega)
      subst this
      obtain ⟨f, hf⟩ := hrest { st with ctxs := rest } rfl
      refine ⟨f + 1, ?_⟩
      simp only [xLoop, hst, hlt, if_true, xStep]
      exact hf
    | succ n ihn =>
      intro top hn st hst
      cases hs : xStep macros allow token top rest st with
      | error e st' =>
        refine ⟨1, ?_⟩
        simp only [xLoop, hst, hlt, if_true, hs, Option.isSome_some]
      | continue_ st' =>
        have ht : Terminates macros allow token st' := by
          rcases xStep_ctxs macros allow token top rest st st' hs with ⟨_, h⟩ | ⟨cur, hcur, h | ⟨new, h⟩⟩
          · exact hrest st' h
          · exact ihn cur (by omega) st' h
          · exact ihr (cur :: rest) (by simp only [List.length_cons]; omega)
              (fun st'' h'' => ihn cur (by omega) st'' h'') new.length new (Nat.le_refl _) st' h
        obtain ⟨f, hf⟩ := ht
        refine ⟨f + 1, ?_⟩
        simp only [xLoop, hst, hlt, if_true, hs]
        exact hf

theorem loop_terminates (macros : Macros) (allow : Bool) (token : Tok) (st : XSt) : Terminates macros allow token st := by
  have : ∀ ctxs : List (List QTok), ∀ st : XSt, st.ctxs = ctxs → Terminates macros allow token st := by
    intro ctxs
    induction ctxs with
    | nil => intro st hst; exact ⟨1, by simp only [xLoop, hst, Option.isSome_some]⟩
    | cons top rest ih => exact terminates_push macros allow token 6 rest (by omega) ih top.length top (Nat.le_refl _)
  exact this st.ctxs st rfl

/-- The result does not depend on how much fuel there is, once there is enough. -/
theorem xLoop_mono (macros : Macros) (allow : Bool) (token : Tok) (fuel : Nat) : ∀ (st : XSt) (r : XRes),
    xLoop macros allow token fuel st = some r → ∀ k, xLoop macros allow token (fuel + k) st = some r := by
  induction fuel with
  | zero => intro st r h; simp [xLoop] at h
  | succ f ih =>
    intro st r h k
    rw [show f + 1 + k = f + k + 1 from by omega]
    simp only [xLoop] at h ⊢
    split at h
    · rename_i h1; exact h
    · rename_i top rest h1
      split at h
      · rename_i h2
        simp only [h2, if_true]
        cases hs : xStep macros allow token top rest st with
        | error e st' => rw [hs] at h; exact h
        | continue_ st' => rw [hs] at h; exact ih st' r h k
      · rename_i h2
        simp only [h2, if_false]; exact h

/-- Every expansion of a macro use finishes, with a result that no amount of further steps changes: `expand_identifier` halts for
every macro table — recursive or not —, every token stream and every state. -/
theorem expand_terminates (macros : Macros) (allow : Bool) (token : Tok) (lexer : List Sym) (stack : List Tok) (disabled : List Macro) :
    ∃ (fuel : Nat) (o : XOut), ∀ k, expandIdentifier macros allow (fuel + k) token lexer stack disabled = some o := by
  obtain ⟨fuel, hf⟩ := loop_terminates macros allow token ⟨[[⟨token, token.sym.delta⟩]], [], lexer, [], disabled, 0⟩
  obtain ⟨r, hr⟩ := Option.isSome_iff_exists.1 hf
  have hm := xLoop_mono macros allow token fuel _ r hr
  cases r with
  | error e st => exact ⟨fuel, _, fun k => by unfold expandIdentifier; rw [hm k]⟩
  | continue_ st => exact ⟨fuel, _, fun k => by unfold expandIdentifier; rw [hm k]⟩

theorem expand_mono (macros : Macros) (allow : Bool) (token : Tok) (lexer : List Sym) (stack : List Tok) (disabled : List Macro)
    (fuel k : Nat) (o : XOut) (h : expandIdentifier macros allow fuel token lexer stack disabled = some o) :
    expandIdentifier macros allow (fuel + k) token lexer stack disabled = some o := by
  unfold expandIdentifier at h ⊢
  generalize hr : xLoop macros allow token fuel ⟨[[⟨token, token.sym.delta⟩]], [], lexer, [], disabled, 0⟩ = r at h
  cases r with
  | none => simp at h
  | some r => rw [xLoop_mono macros allow token fuel _ r hr k]; exact h

end Verif.Props.MacroTerm
