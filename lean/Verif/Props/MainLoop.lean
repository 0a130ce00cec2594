import Verif.Props.EvalTerm
/-!
# The main loop of the preprocessor terminates, or not (C23)
-/

namespace Verif.Props.MainLoop

open Verif.Pre Verif.Pre.Spec Verif.Props.PreFuel Verif.Props.MacroTerm Verif.Props.EvalTerm

/-! ### A file that is never finished -/

section Refuted

private def sy (k : Kind) (x : String) (col : Int) (inPre : Bool) (v : Option Int := none) : Sym := ⟨k, x.toList, ⟨⟨0, 0⟩, ⟨0, 0⟩⟩, ⟨0, col⟩, v, inPre⟩

private def macroG (n : Nat) : Macro := ⟨n, 0, some [-1, 0, -1, -1, -1, -1, -1, -1, -1, -1], 1, [⟨.intLit, "1".toList, ⟨0, 1⟩, some 1⟩, ⟨.newline, "\n".toList, ⟨0, 0⟩, none⟩]⟩
private def macroA (n : Nat) : Macro := ⟨n, 1, none, 0, [⟨.ident, "G".toList, ⟨0, 1⟩, none⟩, ⟨.ident, "A".toList, ⟨0, 1⟩, none⟩, ⟨.newline, "\n".toList, ⟨0, 0⟩, none⟩]⟩

/-- The file
```
#define G(%1) 1
#define A G A
A
```
-/
def endless : List Sym :=
  [sy (.dir .define) "#define" 0 true, sy .ident "G" 1 true, sy .lparen "(" 0 true, sy (.op .percent) "%" 0 true, sy .intLit "1" 0 true (some 1),
    sy .rparen ")" 0 true, sy .intLit "1" 1 true (some 1), sy .newline "\n" 0 true,
   sy (.dir .define) "#define" 0 false, sy .ident "A" 1 true, sy .ident "G" 1 true, sy .ident "A" 1 true, sy .newline "\n" 0 true,
   sy .ident "A" 0 false, sy .newline "\n" 0 false, sy .eof "" 0 false]

/-- The loop is back where it was: `G` then `A` on the stack, `G` not to be expanded. -/
private structure Stuck (n : Nat) (s : PSt) : Prop where
  g : s.macros "G".toList = some (macroG n)
  a : s.macros "A".toList = some (macroA n)
  disabled : s.disabled = [(macroG n)]
  conds : s.conds = []
  intr : s.intr = none
  stack : ∃ x y, s.stack = [x, y] ∧ x.kind = .ident ∧ x.text = "G".toList ∧ x.orig = none ∧ y.kind = .ident ∧ y.text = "A".toList ∧ y.orig = none

private theorem xLoop_step (ms : Macros) (t : Tok) (f : Nat) (st st' : XSt) (top : List QTok) (rest : List (List QTok)) (h1 : st.ctxs = top :: rest)
    (h2 : rest.length + 1 < 6) (h3 : xStep ms true t top rest st = .continue_ st') : xLoop ms true t (f + 1) st = xLoop ms true t f st' := by
  simp only [xLoop, h1, h2, if_true, h3]

private def gTok (r : Rng) : Tok := ⟨⟨.ident, "G".toList, ⟨r.e, ⟨(Int.ofNat r.e.line + 0).toNat, (Int.ofNat r.e.char + 1).toNat⟩⟩, ⟨0, 1⟩, none, false⟩, none⟩
private def aTok (r : Rng) : Tok :=
  ⟨⟨.ident, "A".toList, ⟨(gTok r).sym.range.e, ⟨(Int.ofNat (gTok r).sym.range.e.line + 0).toNat, (Int.ofNat (gTok r).sym.range.e.char + 1).toNat⟩⟩, ⟨0, 1⟩, none, false⟩, none⟩

private theorem expand_a (n : Nat) (ms : Macros) (hg : ms "G".toList = some (macroG n)) (ha : ms "A".toList = some (macroA n)) (y : Tok) (hk : y.kind = .ident)
    (ht : y.text = "A".toList) (lexer : List Sym) (f : Nat) :
    expandIdentifier ms true (f + 5) y lexer [] [] = some ⟨lexer, [gTok y.sym.range, aTok y.sym.range], [(macroG n)], .ok 0⟩ := by
  have h1 : xStep ms true y [⟨y, y.sym.delta⟩] [] ⟨[[⟨y, y.sym.delta⟩]], [], lexer, [], [], 0⟩ =
      .continue_ ⟨[[⟨gTok y.sym.range, y.sym.delta⟩, ⟨aTok y.sym.range, ⟨0, 1⟩⟩], []], [], lexer, [], [], 0⟩ := by
    unfold xStep
    simp only [hk, ht, ha]
    rfl
  have h2 : xStep ms true y [⟨gTok y.sym.range, y.sym.delta⟩, ⟨aTok y.sym.range, ⟨0, 1⟩⟩] [[]]
      ⟨[[⟨gTok y.sym.range, y.sym.delta⟩, ⟨aTok y.sym.range, ⟨0, 1⟩⟩], []], [], lexer, [], [], 0⟩ =
      .continue_ ⟨[[], []], [aTok y.sym.range], lexer, [gTok y.sym.range], [(macroG n)], 0⟩ := by
    unfold xStep
    have e1 : (gTok y.sym.range).kind = .ident := rfl
    have e2 : ms (gTok y.sym.range).text = some (macroG n) := hg
    simp only [e1, e2]
    rfl
  unfold expandIdentifier
  rw [xLoop_step ms y (f + 4) _ _ _ _ rfl (by decide) h1, xLoop_step ms y (f + 3) _ _ _ _ rfl (by decide) h2,
    xLoop_step ms y (f + 2) _ ⟨[[]], [aTok y.sym.range], lexer, [gTok y.sym.range], [(macroG n)], 0⟩ _ _ rfl (by decide) rfl,
    xLoop_step ms y (f + 1) _ ⟨[], [aTok y.sym.range], lexer, [gTok y.sym.range], [(macroG n)], 0⟩ _ _ rfl (by decide) rfl]
  rfl

private theorem expand_a' (n : Nat) (ms : Macros) (hg : ms "G".toList = some (macroG n)) (ha : ms "A".toList = some (macroA n)) (y : Tok) (hk : y.kind = .ident)
    (ht : y.text = "A".toList) (lexer : List Sym) (f : Nat) :
    expandIdentifier ms true f y lexer [] [] = none ∨
    expandIdentifier ms true f y lexer [] [] = some ⟨lexer, [gTok y.sym.range, aTok y.sym.range], [(macroG n)], .ok 0⟩ := by
  rcases he : expandIdentifier ms true f y lexer [] [] with _ | o
  · exact .inl rfl
  · right
    have := expand_mono ms true y lexer [] [] f 5 o he
    rw [expand_a n ms hg ha y hk ht lexer f] at this
    exact this.symm

private theorem turn_a (n : Nat) (env : Env) (f : Nat) (s : PSt) (y : Tok) (hg : s.macros "G".toList = some (macroG n)) (ha : s.macros "A".toList = some (macroA n))
    (hd : s.disabled = []) (hc : s.conds = []) (hi : s.intr = none) (hst : s.stack = []) (hk : y.kind = .ident) (ht : y.text = "A".toList)
    (ho : y.orig = none) : pStep env f y s = .noFuel ∨ ∃ s', pStep env f y s = .next s' ∧ Stuck n s' := by
  unfold pStep
  simp only [noteArg, ho, hc, skipping, Bool.false_eq_true, if_false]
  unfold processActive
  simp only [hk]
  unfold processIdent
  simp only [hi, reduceCtorEq, if_false, ht, ha, hd, List.not_mem_nil, hst]
  rcases expand_a' n s.macros hg ha y hk ht s.lexer f with h | h
  · rw [h]; exact .inl rfl
  · rw [h]
    exact .inr ⟨_, rfl, ⟨hg, ha, rfl, hc, rfl, _, _, rfl, rfl, rfl, rfl, rfl, rfl, rfl⟩⟩

private theorem stuck_none (n : Nat) (env : Env) (f : Nat) : ∀ s, Stuck n s → pLoop env f s = none := by
  induction f using Nat.strongRecOn with
  | _ f ih =>
    intro s hs
    obtain ⟨hg, ha, hd, hc, hi, x, y, hst, hx1, hx2, hx3, hy1, hy2, hy3⟩ := hs
    rcases f with _ | _ | f
    · rfl
    all_goals
      have hn : ∃ co, pNext s = some (x, { s with stack := [y], colOffset := co }) := by
        unfold pNext; rw [hst]; exact ⟨_, rfl⟩
      obtain ⟨co, hn⟩ := hn
      have hp : ∀ f, ∃ s', pStep env f x { s with stack := [y], colOffset := co } = .next s' ∧ s'.macros = s.macros ∧ s'.disabled = [] ∧
          s'.conds = [] ∧ s'.intr = none ∧ s'.stack = [y] := by
        intro f
        unfold pStep
        simp only [noteArg, hx3, hc, skipping, Bool.false_eq_true, if_false]
        unfold processActive
        simp only [hx1]
        unfold processIdent
        simp only [hi, reduceCtorEq, if_false, hx2, hg, hd, List.mem_singleton, if_true]
        refine ⟨_, rfl, ?_⟩
        have he : x.sym.kind ≠ .eof := by have := hx1; unfold Tok.kind at this; rw [this]; simp
        simp [pushSym, he, pushWs, hc, hi]
    · obtain ⟨s', h1, -⟩ := hp 0
      simp only [pLoop, hn, h1]
    · obtain ⟨s', h1, h2, h3, h4, h5, h6⟩ := hp (f + 1)
      simp only [pLoop, hn, h1]
      have hn' : ∃ co, pNext s' = some (y, { s' with stack := [], colOffset := co }) := by
        unfold pNext; rw [h6]; exact ⟨_, rfl⟩
      obtain ⟨co', hn'⟩ := hn'
      rw [hn']
      simp only
      rcases turn_a n env f { s' with stack := [], colOffset := co' } y (by simp only [h2]; exact hg) (by simp only [h2]; exact ha) h3 h4 h5 rfl hy1 hy2 hy3 with
        h | ⟨s'', h, hs''⟩
      · rw [h]
      · rw [h]; exact ih f (by omega) s'' hs''

/-- **C23 is violated** by the loop that uses the expansion: with `#define G(%1) 1` and `#define A G A`, preprocessing a file that
uses `A` never ends, although neither macro alone is a problem. -/
theorem preprocessing_terminates_refuted (env : Env) (fuel : Nat) : preprocess env fuel (fun _ => none) endless = none := by
  rcases h : preprocess env fuel (fun _ => none) endless with _ | r
  · rfl
  · exfalso
    have h := pLoop_mono env fuel _ r h 3
    obtain ⟨s₁, hs₁, h1⟩ : ∃ s₁, (∀ f, pLoop env (f + 2) { lexer := endless, macros := fun _ => none } = pLoop env f s₁) ∧
        s₁.lexer = [sy .ident "A" 0 false, sy .newline "\n" 0 false, sy .eof "" 0 false] ∧
        (s₁.macros "G".toList = some (macroG env.fileId) ∧ s₁.macros "A".toList = some (macroA env.fileId)) ∧ s₁.disabled = [] ∧
        s₁.conds = [] ∧ s₁.intr = none ∧ s₁.stack = [] ∧ s₁.expanded = none :=
      ⟨_, fun f => rfl, rfl, ⟨rfl, rfl⟩, rfl, rfl, rfl, rfl, rfl⟩
    obtain ⟨h2, ⟨h3, h4⟩, h5, h6, h7, h8, h9⟩ := h1
    have h : pLoop env (fuel + 1) s₁ = some r := by rw [← hs₁]; exact h
    have hn : ∃ s₂, pNext s₁ = some ((sy .ident "A" 0 false).tok, s₂) ∧ s₂.macros = s₁.macros ∧ s₂.disabled = [] ∧ s₂.conds = [] ∧ s₂.intr = none ∧
        s₂.stack = [] := by
      unfold pNext
      simp only [h8, h2, h9]
      exact ⟨_, rfl, rfl, h5, h6, h7, rfl⟩
    obtain ⟨s₂, hn, e1, e2, e3, e4, e5⟩ := hn
    simp only [pLoop, hn] at h
    rcases turn_a env.fileId env fuel s₂ (sy .ident "A" 0 false).tok (by rw [e1]; exact h3) (by rw [e1]; exact h4) e2 e3 e4 e5 rfl rfl rfl with
      h' | ⟨s₃, h', hs₃⟩
    · rw [h'] at h; cases h
    · rw [h'] at h
      have h'' := stuck_none env.fileId env fuel s₃ hs₃
      simp only [h''] at h
      cases h

end Refuted

/-! ### When it does end -/

/-- What a turn does to the queues and the table. -/
def Same (s₁ s₂ : PSt) : Prop := s₂.lexer.length ≤ s₁.lexer.length ∧ s₂.stack = s₁.stack

def Quiet (s₁ s₂ : PSt) : Prop := Same s₁ s₂ ∧ s₂.macros = s₁.macros ∧ s₂.lexer = s₁.lexer

theorem Same.refl (s : PSt) : Same s s := ⟨Nat.le_refl _, rfl⟩

theorem Same.trans {a b c : PSt} (h1 : Same a b) (h2 : Same b c) : Same a c := ⟨Nat.le_trans h2.1 h1.1, h2.2.trans h1.2⟩

theorem quiet_pushSym (x : Sym) (s : PSt) : Quiet s (pushSym x s) := by
  unfold pushSym
  split
  · exact ⟨Same.refl _, rfl, rfl⟩
  · exact ⟨Same.refl _, rfl, rfl⟩

theorem takeDirective_length (ss : List Sym) : (takeDirective ss).2.length ≤ ss.length := by
  induction ss with
  | nil => simp [takeDirective]
  | cons x ss ih =>
    simp only [takeDirective]
    split
    · simp only [List.length_cons]; omega
    · exact Nat.le_refl _

theorem same_processIf {env : Env} {f : Nat} {x : Sym} {s s' : PSt} (h : processIf env f x s = .next s') : Same s s' := by
  unfold processIf at h
  simp only at h
  have hl := takeDirective_length s.lexer
  split at h
  · cases h
  · cases h
  · simp only [Step.next.injEq] at h
    subst h
    constructor
    · dsimp only
      split <;> (split <;> exact hl)
    · dsimp only
      split <;> (split <;> rfl)

theorem same_processElse {x : Sym} {s s' : PSt} (h : processElse x s = .next s') : Quiet s s' := by
  unfold processElse at h
  split at h <;> simp only [Step.next.injEq, reduceCtorEq] at h <;> subst h <;> exact ⟨Same.refl _, rfl, rfl⟩

theorem same_processEndif {x : Sym} {s s' : PSt} (h : processEndif x s = .next s') : Quiet s s' := by
  unfold processEndif at h
  split at h
  · cases h
  · simp only at h
    split at h
    · split at h <;> simp only [Step.next.injEq] at h <;> subst h <;> exact ⟨Same.refl _, rfl, rfl⟩
    · simp only [Step.next.injEq] at h; subst h; exact ⟨Same.refl _, rfl, rfl⟩

theorem same_processElseif {env : Env} {f : Nat} {x : Sym} {s s' : PSt} (h : processElseif env f x s = .next s') : Same s s' := by
  unfold processElseif at h
  split at h
  · cases h
  · have := same_processIf h; exact ⟨this.1, this.2⟩
  · simp only [Step.next.injEq] at h; subst h; exact Same.refl _

theorem same_defineLoop (ss : List Sym) : ∀ (d : DSt) (s : PSt), (defineLoop ss d s).2.lexer.length ≤ ss.length ∧ (defineLoop ss d s).2.stack = s.stack := by
  induction ss with
  | nil => intro d s; exact ⟨by simp [defineLoop], rfl⟩
  | cons x ss ih =>
    intro d s
    simp only [defineLoop]
    split
    · split
      · exact ⟨by simp, rfl⟩
      · split
        · refine ⟨?_, ?_⟩
          · split <;> simp [pushWs]
          · split <;> simp [pushWs]
        · refine ⟨Nat.le_trans (ih _ _).1 (by simp), (ih _ _).2.trans ?_⟩
          split <;> simp [pushWs]
    · exact ⟨Nat.le_refl _, rfl⟩

theorem same_undefLoop (ss : List Sym) : ∀ (s : PSt), (undefLoop ss s).lexer.length ≤ ss.length ∧ (undefLoop ss s).stack = s.stack := by
  induction ss with
  | nil => intro s; exact ⟨by simp [undefLoop], rfl⟩
  | cons x ss ih =>
    intro s
    simp only [undefLoop]
    split
    · split
      · refine ⟨?_, ?_⟩
        · split <;> simp [pushWs]
        · split <;> simp [pushWs]
      · refine ⟨Nat.le_trans (ih _).1 (by simp), (ih _).2.trans ?_⟩
        split <;> simp [pushWs]
    · exact ⟨Nat.le_refl _, rfl⟩

theorem same_processInclude (env : Env) (x : Sym) (s : PSt) : Same s (processInclude env x s) := by
  unfold processInclude
  simp only
  have h := (quiet_pushSym { x with text := trim x.text } { s with macros := env.inc (trim x.text) s.macros }).1
  split
  · exact ⟨h.1, h.2⟩
  · exact ⟨h.1, h.2⟩

theorem same_directive {env : Env} {f : Nat} {d : Dir} {x : Sym} {s s' : PSt} (h : processDirective env f d x s = .next s') : Same s s' := by
  cases d with
  | if_ => exact same_processIf h
  | elseif => exact same_processElseif h
  | else_ => exact (same_processElse h).1
  | endif => exact (same_processEndif h).1
  | define =>
    simp only [processDirective, processDefine] at h
    have hd := same_defineLoop s.lexer {} (pushSym x s)
    generalize defineLoop s.lexer {} (pushSym x s) = r at h hd
    obtain ⟨_ | d, s₁⟩ := r
    · cases h
    · simp only [Step.next.injEq] at h; subst h
      exact ⟨hd.1, hd.2.trans (quiet_pushSym x s).1.2⟩
  | undef =>
    simp only [processDirective, Step.next.injEq] at h; subst h
    have hd := same_undefLoop s.lexer (pushSym x s)
    exact ⟨hd.1, hd.2.trans (quiet_pushSym x s).1.2⟩
  | include_ => simp only [processDirective, Step.next.injEq] at h; subst h; exact same_processInclude env x s
  | tryinclude => simp only [processDirective, Step.next.injEq] at h; subst h; exact same_processInclude env x s
  | other n => simp only [processDirective, Step.next.injEq] at h; subst h; exact (quiet_pushSym x s).1

/-- What a turn of the loop does: a directive, a token without effect on the queues, or an expansion. -/
theorem pStep_shape {env : Env} {f : Nat} {t : Tok} {s s' : PSt} (h : pStep env f t s = .next s') :
    (Same s s' ∧ ∃ d, t.kind = .dir d) ∨ Quiet s s' ∨
    (t.kind = .ident ∧ ∃ m o d, s.macros t.text = some m ∧ expandIdentifier s.macros true f t s.lexer s.stack s.disabled = some o ∧
      o.value = .ok d ∧ s'.lexer = o.lexer ∧ s'.stack = o.stack ∧ s'.macros = s.macros) := by
  have hnote : (noteArg t s).lexer = s.lexer ∧ (noteArg t s).stack = s.stack ∧ (noteArg t s).macros = s.macros ∧ (noteArg t s).disabled = s.disabled := by
    unfold noteArg; split <;> exact ⟨rfl, rfl, rfl, rfl⟩
  obtain ⟨n1, n2, n3, n4⟩ := hnote
  have lift : ∀ {s'}, Quiet (noteArg t s) s' → Quiet s s' := fun h => ⟨⟨n1 ▸ h.1.1, h.1.2.trans n2⟩, h.2.1.trans n3, h.2.2.trans n1⟩
  have liftS : ∀ {s'}, Same (noteArg t s) s' → Same s s' := fun h => ⟨n1 ▸ h.1, h.2.trans n2⟩
  unfold pStep at h
  simp only at h
  split at h
  · unfold processNegative at h
    split at h
    · rename_i hk
      simp only [Step.next.injEq] at h; subst h
      exact .inr (.inl (lift ⟨Same.refl _, rfl, rfl⟩))
    · exact .inr (.inl (lift (same_processEndif h)))
    · exact .inr (.inl (lift (same_processElse h)))
    · rename_i hk; exact .inl ⟨liftS (same_processElseif h), _, hk⟩
    · simp only [Step.next.injEq] at h; subst h
      exact .inr (.inl (lift ⟨Same.refl _, rfl, rfl⟩))
    · simp only [Step.next.injEq] at h; subst h
      exact .inr (.inl (lift ⟨Same.refl _, rfl, rfl⟩))
  · unfold processActive at h
    split at h
    · cases h
    · rename_i d hk; exact .inl ⟨liftS (same_directive h), d, hk⟩
    · simp only [Step.next.injEq] at h; subst h; exact .inr (.inl (lift ⟨Same.refl _, rfl, rfl⟩))
    · rename_i hk
      unfold processIdent at h
      split at h
      · simp only [Step.next.injEq] at h; subst h; exact .inr (.inl (lift ⟨Same.refl _, rfl, rfl⟩))
      · split at h
        · simp only [Step.next.injEq] at h; subst h; exact .inr (.inl (lift (quiet_pushSym _ _)))
        · rename_i m hm
          split at h
          · simp only [Step.next.injEq] at h; subst h
            have := quiet_pushSym t.sym { noteArg t s with disabled := (noteArg t s).disabled.filter (· ≠ m) }
            exact .inr (.inl (lift ⟨⟨this.1.1, this.1.2⟩, this.2.1, this.2.2⟩))
          · split at h
            · cases h
            · rename_i o ho
              split at h
              · rename_i d hv
                simp only [Step.next.injEq] at h; subst h
                rw [n1, n2, n3, n4] at ho
                rw [n3] at hm
                exact .inr (.inr ⟨hk, m, o, d, hm, ho, hv, rfl, rfl, n3⟩)
              · cases h
    · simp only [Step.next.injEq] at h; subst h; exact .inr (.inl (lift ⟨Same.refl _, rfl, rfl⟩))
    · simp only [Step.next.injEq] at h; subst h; exact .inr (.inl (lift ⟨Same.refl _, rfl, rfl⟩))
    · simp only [Step.next.injEq] at h; subst h
      split
      · exact .inr (.inl (lift ⟨Same.refl _, rfl, rfl⟩))
      · have := quiet_pushSym t.sym { noteArg t s with intr := none }
        exact .inr (.inl (lift ⟨⟨this.1.1, this.1.2⟩, this.2.1, this.2.2⟩))
    · simp only [Step.next.injEq] at h; subst h
      split
      · exact .inr (.inl (lift ⟨Same.refl _, rfl, rfl⟩))
      · exact .inr (.inl (lift (quiet_pushSym _ _)))
    · cases h
    · simp only [Step.next.injEq] at h; subst h; exact .inr (.inl (lift (quiet_pushSym _ _)))

theorem pNext_shape {s s₁ : PSt} {t : Tok} (h : pNext s = some (t, s₁)) : s₁.macros = s.macros ∧
    ((s₁.lexer.length < s.lexer.length) ∨ (s₁.lexer = s.lexer ∧ s.stack = t :: s₁.stack)) := by
  unfold pNext at h
  split at h
  · rename_i t' ts he
    simp only [Option.some.injEq, Prod.mk.injEq] at h
    obtain ⟨rfl, rfl⟩ := h
    exact ⟨rfl, .inr ⟨rfl, he⟩⟩
  · split at h
    · cases h
    · rename_i x xs hx
      split at h <;> simp only [Option.some.injEq, Prod.mk.injEq] at h <;> obtain ⟨rfl, rfl⟩ := h <;>
        exact ⟨rfl, .inl (by rw [hx]; simp)⟩

/-- Number of directives on the stack. -/
def dirs (stack : List Tok) : Nat := (stack.filter fun t => match t.kind with | .dir _ => true | _ => false).length

theorem dirs_cons (t : Tok) (stack : List Tok) : dirs stack ≤ dirs (t :: stack) := by
  unfold dirs; rw [List.filter_cons]; split
  · simp
  · exact Nat.le_refl _

theorem dirs_cons_dir (t : Tok) (stack : List Tok) (d : Dir) (h : t.kind = .dir d) : dirs stack < dirs (t :: stack) := by
  unfold dirs; rw [List.filter_cons, if_pos (by rw [h])]; simp

def NotDir (k : Kind) : Prop := ∀ d, k ≠ .dir d

theorem dirs_append (out stack : List Tok) (h : ∀ t ∈ out, NotDir t.kind) : dirs (out ++ stack) = dirs stack := by
  unfold dirs
  rw [List.filter_append, List.filter_eq_nil_iff.2, List.nil_append]
  intro t ht
  have := h t ht
  rcases hk : t.kind <;> simp
  exact absurd hk (this _)

/-- A macro table in which every body gives arguments to the macros that take some, and contains no directives. -/
def CleanTable (macros : Macros) : Prop := ∀ x m, macros x = some m → (∀ r ∈ m.body, ∀ d, r.kind ≠ .dir d) ∧ Applied macros m.body

theorem pTurn_less {env : Env} {f : Nat} {t : Tok} {s s₁ s₂ : PSt} (hm : CleanTable s.macros) (hn : pNext s = some (t, s₁))
    (hp : pStep env f t s₁ = .next s₂) : Lex4 (work s₂.macros dirs s₂.lexer s₂.stack) (work s.macros dirs s.lexer s.stack) := by
  obtain ⟨e, hpos⟩ := pNext_shape hn
  rcases pStep_shape hp with ⟨hs, d, hd⟩ | hq | ⟨hk, m, o, d, h1, h2, h3, h4, h5, h6⟩
  · rcases hpos with hp | ⟨hp, hq⟩
    · exact .inl (Nat.lt_of_le_of_lt hs.1 hp)
    · refine .inr ⟨by rw [← hp]; exact hs.1, .inl ?_⟩
      simp only [work]
      rw [hs.2, hq]; exact dirs_cons_dir _ _ d hd
  · rcases hpos with hp | ⟨hp, hs⟩
    · exact .inl (Nat.lt_of_le_of_lt hq.1.1 hp)
    · refine .inr ⟨by rw [← hp]; exact hq.1.1, .inr ⟨?_, .inr ⟨?_, ?_⟩⟩⟩
      · simp only [work]; rw [hq.1.2, hs]; exact dirs_cons _ _
      · simp only [work]; rw [hq.1.2, hs, hq.2.1, e]; exact pending_cons _ _ _
      · simp only [work]; rw [hq.1.2, hs]; simp
  · have hcl : ∀ x m, True → s₁.macros x = some m → (∀ r ∈ m.body, True) ∧ (∀ r ∈ m.body, NotDir r.kind) ∧ Applied s₁.macros m.body := by
      intro x m _ hx
      rw [e] at hx ⊢
      exact ⟨fun _ _ => trivial, (hm x m hx).1, (hm x m hx).2⟩
    have hprog := expand_progress s₁.macros NotDir (by intro d; simp) (fun _ _ => True) (fun _ => trivial) hcl true f t s₁.lexer s₁.stack s₁.disabled
      trivial (by intro d; rw [hk]; simp) (fun _ _ => trivial) o d h2 h3
    have hle : o.lexer.length ≤ s₁.lexer.length := by
      rcases hprog with h | ⟨h, -⟩
      · exact Nat.le_of_lt h
      · exact h
    rcases hpos with hp | ⟨hp, hq⟩
    · exact .inl (by simp only [work]; rw [h4]; exact Nat.lt_of_le_of_lt hle hp)
    · rcases hprog with h | ⟨h, out, h7, h8⟩
      · exact .inl (by simp only [work]; rw [h4, ← hp]; exact h)
      · refine .inr ⟨by simp only [work]; rw [h4, ← hp]; exact h, .inr ⟨?_, .inl ?_⟩⟩
        · simp only [work]; rw [h5, h7, dirs_append _ _ (fun t ht => (h8 t ht).1), hq]; exact dirs_cons _ _
        · simp only [work]; rw [h5, h7, h6, pending_append _ _ _ (fun t ht => (h8 t ht).2), hq, e]
          exact pending_cons_macro _ _ _ hk m (by rw [← e]; exact h1)

/-- Enough fuel for one turn. -/
theorem pStep_fuel (env : Env) (t : Tok) (s : PSt)
    (hc : t.kind = .dir .if_ ∨ t.kind = .dir .elseif → ∃ f r, evaluate env.profile s.macros s.disabled (takeDirective s.lexer).1 f = some r) :
    ∃ f, pStep env f t s ≠ .noFuel := by
  have hnote : ∀ f, evaluate env.profile (noteArg t s).macros (noteArg t s).disabled (takeDirective (noteArg t s).lexer).1 f =
      evaluate env.profile s.macros s.disabled (takeDirective s.lexer).1 f := by
    intro f; unfold noteArg; split <;> rfl
  have hif : ∀ f r x s', evaluate env.profile s'.macros s'.disabled (takeDirective s'.lexer).1 f = some r → processIf env f x s' ≠ .noFuel := by
    intro f r x s' h
    unfold processIf
    simp only [h]
    rcases r with _ | _ | _ <;> simp
  have helif : ∀ f r x s', evaluate env.profile s'.macros s'.disabled (takeDirective s'.lexer).1 f = some r → processElseif env f x s' ≠ .noFuel := by
    intro f r x s' h
    unfold processElseif
    split
    · simp
    · exact hif f r x _ h
    · simp
  have helse : ∀ x s', processElse x s' ≠ .noFuel := by
    intro x s'; unfold processElse; split <;> simp
  have hend : ∀ x s', processEndif x s' ≠ .noFuel := by
    intro x s'; unfold processEndif; split
    · simp
    · simp only; split
      · split <;> simp
      · simp
  obtain ⟨f, o, hx⟩ := expand_terminates (noteArg t s).macros true t (noteArg t s).lexer (noteArg t s).stack (noteArg t s).disabled
  by_cases hk : t.kind = .dir .if_ ∨ t.kind = .dir .elseif
  · obtain ⟨g, r, hr⟩ := hc hk
    rw [← hnote] at hr
    refine ⟨g, ?_⟩
    unfold pStep
    simp only
    split
    · unfold processNegative
      rcases hk with hk | hk <;> (unfold Tok.kind at hk; simp only [hk])
      · simp
      · exact helif g r _ _ hr
    · unfold processActive
      rcases hk with hk | hk <;> simp only [hk, processDirective]
      · exact hif g r _ _ hr
      · exact helif g r _ _ hr
  · refine ⟨f, ?_⟩
    unfold pStep
    simp only
    split
    · unfold processNegative
      split
      · simp
      · exact hend _ _
      · exact helse _ _
      · rename_i hk'; exact absurd (.inr hk') hk
      · simp
      · simp
    · unfold processActive
      split
      · simp
      · rename_i d hd
        cases d
        case if_ => exact absurd (.inl hd) hk
        case elseif => exact absurd (.inr hd) hk
        case else_ => exact helse _ _
        case endif => exact hend _ _
        case define =>
          simp only [processDirective, processDefine]
          split <;> simp
        all_goals simp [processDirective]
      · simp
      · have hx0 := hx 0
        simp only [Nat.add_zero] at hx0
        unfold processIdent
        split
        · simp
        · split
          · simp
          · split
            · simp
            · rw [hx0]
              simp only
              split <;> simp
      all_goals first | simp | (split <;> simp)

theorem preprocess_run {env : Env} {s₀ : PSt} (hc : ∀ s, Reach env s₀ s → CleanTable s.macros)
    (hif : ∀ s t s₁, Reach env s₀ s → pNext s = some (t, s₁) → t.kind = .dir .if_ ∨ t.kind = .dir .elseif →
      ∃ f r, evaluate env.profile s₁.macros s₁.disabled (takeDirective s₁.lexer).1 f = some r) :
    ∀ s, Reach env s₀ s → ∃ f r, pLoop env f s = some r := by
  refine lex4_induction (fun s : PSt => work s.macros dirs s.lexer s.stack) (fun s => Reach env s₀ s → ∃ f r, pLoop env f s = some r) ?_
  intro s ih hs
  rcases hn : pNext s with _ | ⟨t, s₁⟩
  · exact ⟨1, .result s, by simp only [pLoop, hn]⟩
  · obtain ⟨f, hf⟩ := pStep_fuel env t s₁ (fun hk => hif s t s₁ hs hn hk)
    rcases hp : pStep env f t s₁ with s₂ | s₂ | s₂ | _ | _
    · obtain ⟨g, r, hg⟩ := ih s₂ (pTurn_less (hc s hs) hn hp) (hs.step hn hp)
      refine ⟨f + g + 1, r, ?_⟩
      simp only [pLoop, hn]
      rw [pStep_mono env f g t s₁ hf, hp]
      simp only
      rw [Nat.add_comm]
      exact pLoop_mono env g s₂ r hg f
    · exact ⟨f + 1, .result s₂, by simp only [pLoop, hn, hp]⟩
    · exact ⟨f + 1, .errorResult s₂, by simp only [pLoop, hn, hp]⟩
    · exact ⟨f + 1, .panic, by simp only [pLoop, hn, hp]⟩
    · exact absurd hp hf

/-- **C23** for whole files (part): preprocessing a file ends if, at every moment of the run, the bodies of the macros defined then
give arguments to the macros that take some (and contain no directives), and every condition met can be evaluated (see
`EvalTerm.evaluation_terminates_partial`). Macros may be recursive in any way. Missing: bodies that name a macro with parameters
without giving it any, for which it need not end (`preprocessing_terminates_refuted`). -/
theorem preprocessing_terminates_partial (env : Env) (macros : Macros) (tokens : List Sym)
    (hc : ∀ s, Reach env { lexer := tokens, macros := macros } s → CleanTable s.macros)
    (hif : ∀ s t s₁, Reach env { lexer := tokens, macros := macros } s → pNext s = some (t, s₁) → t.kind = .dir .if_ ∨ t.kind = .dir .elseif →
      ∃ f r, evaluate env.profile s₁.macros s₁.disabled (takeDirective s₁.lexer).1 f = some r) :
    ∃ fuel r, ∀ k, preprocess env (fuel + k) macros tokens = some r := by
  obtain ⟨f, r, h⟩ := preprocess_run hc hif _ .start
  exact ⟨f, r, fun k => pLoop_mono env f _ r h k⟩

/-- Nothing but ordinary tokens left. -/
structure NoDirs (macros : Macros) (s : PSt) : Prop where
  macros : s.macros = macros
  lexer : ∀ x ∈ s.lexer, NotDir x.kind
  stack : ∀ t ∈ s.stack, NotDir t.kind

/-- A file without directives is finished whenever the table of macros is clean, however recursive. -/
theorem plain_file_terminates (env : Env) (macros : Macros) (tokens : List Sym) (hm : CleanTable macros) (ht : ∀ x ∈ tokens, ∀ d, x.kind ≠ .dir d) :
    ∃ fuel r, ∀ k, preprocess env (fuel + k) macros tokens = some r := by
  have next : ∀ s t s₁, pNext s = some (t, s₁) → NoDirs macros s → NotDir t.kind ∧ NoDirs macros s₁ := by
    intro s t s₁ hn h
    unfold pNext at hn
    split at hn
    · rename_i t' ts he
      simp only [Option.some.injEq, Prod.mk.injEq] at hn
      obtain ⟨rfl, rfl⟩ := hn
      exact ⟨h.stack _ (by rw [he]; simp), h.macros, h.lexer, fun u hu => h.stack u (by rw [he]; simp only at hu; simp [hu])⟩
    · rename_i he
      split at hn
      · cases hn
      · rename_i x xs hx
        have h1 : NotDir x.kind := h.lexer x (by rw [hx]; simp)
        have h2 : ∀ y ∈ xs, NotDir y.kind := fun y hy => h.lexer y (by rw [hx]; simp [hy])
        split at hn <;> simp only [Option.some.injEq, Prod.mk.injEq] at hn <;> obtain ⟨rfl, rfl⟩ := hn <;>
          exact ⟨h1, h.macros, h2, h.stack⟩
  have inv : ∀ s, Reach env { lexer := tokens, macros := macros } s → NoDirs macros s := by
    intro s hs
    induction hs with
    | start => exact ⟨rfl, ht, by simp⟩
    | @step s t s₁ f s₂ _ hn hp ih =>
      obtain ⟨h1, h2⟩ := next s t s₁ hn ih
      rcases pStep_shape hp with ⟨-, d, hd⟩ | hq | ⟨hk, m, o, d, e1, e2, e3, e4, e5, e6⟩
      · exact absurd hd (h1 d)
      · exact ⟨hq.2.1.trans h2.macros, by rw [hq.2.2]; exact h2.lexer, by rw [hq.1.2]; exact h2.stack⟩
      · obtain ⟨p1, p2, -⟩ := expand_P (fun k _ => NotDir k) (fun _ d => by simp) (macros := s₁.macros)
          (fun x m _ hx => by rw [h2.macros] at hx; exact (hm x m hx).1) true f t s₁.lexer s₁.stack s₁.disabled h1 h2.lexer h2.stack o d e2 e3
        exact ⟨e6.trans h2.macros, by rw [e4]; exact p1, by rw [e5]; exact p2⟩
  refine preprocessing_terminates_partial env macros tokens (fun s hs => by rw [(inv s hs).macros]; exact hm) ?_
  intro s t s₁ hs hn hk
  have := (next s t s₁ hn (inv s hs)).1
  rcases hk with hk | hk
  · exact absurd hk (this _)
  · exact absurd hk (this _)

/-- `#define A B A`, `#define B F(A)`, `#define F(%1) %1 B` — mutually recursive, and every use of `A` in a plain file is finished. -/
example (env : Env) : ∃ fuel r, ∀ k, preprocess env (fuel + k)
    (fun x => if x = "A".toList then some ⟨0, 0, none, 0, [⟨.ident, "B".toList, ⟨0, 1⟩, none⟩, ⟨.ident, "A".toList, ⟨0, 1⟩, none⟩]⟩
      else if x = "B".toList then some ⟨0, 1, none, 0, [⟨.ident, "F".toList, ⟨0, 1⟩, none⟩, ⟨.lparen, "(".toList, ⟨0, 0⟩, none⟩,
        ⟨.ident, "A".toList, ⟨0, 0⟩, none⟩, ⟨.rparen, ")".toList, ⟨0, 0⟩, none⟩]⟩
      else if x = "F".toList then some ⟨0, 2, some [-1, 0], 1, [⟨.op .percent, "%".toList, ⟨0, 1⟩, none⟩, ⟨.intLit, "1".toList, ⟨0, 0⟩, some 1⟩,
        ⟨.ident, "B".toList, ⟨0, 1⟩, none⟩]⟩
      else none)
    [⟨.ident, "A".toList, ⟨⟨0, 0⟩, ⟨0, 1⟩⟩, ⟨0, 0⟩, none, false⟩, ⟨.ident, "F".toList, ⟨⟨0, 2⟩, ⟨0, 3⟩⟩, ⟨0, 1⟩, none, false⟩,
      ⟨.eof, [], ⟨⟨0, 3⟩, ⟨0, 3⟩⟩, ⟨0, 0⟩, none, false⟩] = some r := by
  apply plain_file_terminates
  · intro x m hx
    dsimp only at hx
    split at hx
    · simp only [Option.some.injEq] at hx; subst hx
      refine ⟨by simp, ?_, ?_, trivial⟩
      · rintro ⟨-, m, h, hp⟩
        revert h; simp only [show ¬ ("B".toList = "A".toList) from by decide, if_false, if_true]
        rintro h; cases h; cases hp
      · rintro ⟨-, m, h, hp⟩
        simp only [if_true] at h
        cases h; cases hp
    · split at hx
      · simp only [Option.some.injEq] at hx; subst hx
        refine ⟨by simp, fun _ => ⟨_, _, rfl, rfl⟩, ?_, ?_, ?_, trivial⟩
        · rintro ⟨h, -⟩; cases h
        · rintro ⟨-, m, h, hp⟩
          simp only [if_true] at h
          cases h; cases hp
        · rintro ⟨h, -⟩; cases h
      · split at hx
        · simp only [Option.some.injEq] at hx; subst hx
          refine ⟨by simp, ?_, ?_, ?_, trivial⟩
          · rintro ⟨h, -⟩; cases h
          · rintro ⟨h, -⟩; cases h
          · rintro ⟨-, m, h, hp⟩
            revert h; simp only [show ¬ ("B".toList = "A".toList) from by decide, if_false, if_true]
            rintro h; cases h; cases hp
        · cases hx
  · intro x hx d
    simp only [List.mem_cons, List.not_mem_nil, or_false] at hx
    rcases hx with rfl | rfl | rfl <;> simp

end Verif.Props.MainLoop
