import Verif.Props.PreFuel
import Verif.Pre.Reports
/-!
# C18 and C28: conditional compilation
-/

namespace Verif.Props.Conditional

open Verif.Pre Verif.Pre.Spec Verif.Props.PreFuel

/-! ### What does not matter for the tokens -/

def gl (r : Rng) : Rng := ⟨⟨r.s.line, 0⟩, ⟨r.e.line, 0⟩⟩

/-- The state without columns, positions and white space in the output. -/
def er (s : PSt) : PSt :=
  { s with
    skipCol := 0, skipped := s.skipped.map gl, line := visible (s.out.flatten ++ s.line), out := [], pos := ⟨0, 0⟩, offsets := [],
    argsMap := [], colOffset := none, expanded := none, argsDiff := 0 }

theorem visible_append (a b : Str) : visible (a ++ b) = visible a ++ visible b := List.filter_append ..

theorem visible_visible (a : Str) : visible (visible a) = visible a := by simp [visible, List.filter_filter]

theorem visible_replicate (n : Nat) : visible (List.replicate n ' ') = [] := by
  unfold visible
  rw [List.filter_eq_nil_iff]
  intro c hc
  rw [List.eq_of_mem_replicate hc]; decide

theorem visible_blanks (n : Int) : visible (blanks n) = [] := visible_replicate _

theorem gl_gl (r : Rng) : gl (gl r) = gl r := rfl

theorem er_er (s : PSt) : er (er s) = er s := by
  simp only [er, List.flatten_nil, List.nil_append, visible_visible, List.map_map]
  congr 1

def addVis (w : Str) (s : PSt) : PSt := { s with line := s.line ++ visible w }

theorem er_pushWs (x : Sym) (s : PSt) : er (pushWs x s) = er s := by
  simp only [er, pushWs, visible_append, visible_blanks, List.append_nil]

theorem er_newLine (s : PSt) : er (resetLine (pushLine s)) = er s := by
  simp only [er, resetLine, pushLine, List.flatten_append, List.flatten_cons, List.flatten_nil, List.append_nil]

theorem er_pushSym {x : Sym} (h : x.kind ≠ .eof) (s : PSt) : er (pushSym x s) = addVis x.text (er s) := by
  simp only [er, pushSym, h, if_false, pushWs, visible_append, visible_blanks, List.append_nil, addVis]
  simp only [List.append_assoc]

theorem er_addVis (w : Str) (s : PSt) : er (addVis w (er s)) = addVis w (er s) := by
  simp only [er, addVis, List.flatten_nil, List.nil_append, visible_visible, visible_append, List.map_map]
  congr 1

theorem er_text (w : Str) (s : PSt) : er { s with line := s.line ++ w } = addVis w (er s) := by
  simp only [er, addVis, visible_append, List.append_assoc]

/-- The next state, without what does not matter. -/
def nx : Step → Option PSt
  | .next s => some (er s)
  | _ => none

theorem nx_pushSym {x : Sym} (h : x.kind ≠ .eof) (s : PSt) : nx (.next (pushSym x s)) = nx (.next (pushSym x (er s))) := by
  simp only [nx, er_pushSym h, er_er]

/-- Changing a field that matters commutes. -/
theorem processIf_er (env : Env) (f : Nat) (x : Sym) (s : PSt) : nx (processIf env f x s) = nx (processIf env f x (er s)) := by
  unfold processIf
  simp only [show (er s).lexer = s.lexer from rfl, show (er s).macros = s.macros from rfl, show (er s).disabled = s.disabled from rfl]
  generalize evaluate env.profile s.macros s.disabled (takeDirective s.lexer).1 f = r
  have hb : ∀ n : Nat, (List.replicate n ([] : Str)).flatten = [] := by
    intro n; rw [List.flatten_eq_nil_iff]; intro l hl; exact List.eq_of_mem_replicate hl
  rcases r with _ | (_ | b) <;> simp only [nx]
  case some.ok =>
    rename_i b
    cases b <;> simp [er, hb, visible_append, visible_visible, gl]
  case some.err => simp [er, hb, visible_append, visible_visible, gl]

theorem processElse_er (x : Sym) (s : PSt) : nx (processElse x s) = nx (processElse x (er s)) := by
  unfold processElse
  simp only [show (er s).conds = s.conds from rfl]
  rcases s.conds with _ | ⟨_ | _ | _, cs⟩ <;> simp [nx, er, visible_visible, gl]

theorem processEndif_er (x : Sym) (s : PSt) : nx (processEndif x s) = nx (processEndif x (er s)) := by
  unfold processEndif
  simp only [show (er s).conds = s.conds from rfl]
  rcases s.conds with _ | ⟨c, cs⟩
  · simp [nx]
  · rcases cs with _ | ⟨d, ds⟩
    · simp [nx, er, visible_visible, gl]
    · cases d <;> simp [nx, er, visible_visible, gl]

theorem processElseif_er (env : Env) (f : Nat) (x : Sym) (s : PSt) : nx (processElseif env f x s) = nx (processElseif env f x (er s)) := by
  unfold processElseif
  simp only [show (er s).conds = s.conds from rfl]
  rcases s.conds with _ | ⟨_ | _ | _, cs⟩
  · simp [nx]
  · simp only
    rw [processIf_er, processIf_er (s := { er s with conds := cs })]
    congr 2
    simp [er, visible_visible, gl]
  all_goals simp [nx, er, visible_visible, gl]

theorem defineLoop_er (ss : List Sym) : ∀ (d : DSt) (s u : PSt), er s = er u →
    (defineLoop ss d s).1 = (defineLoop ss d u).1 ∧ er (defineLoop ss d s).2 = er (defineLoop ss d u).2 := by
  induction ss with
  | nil =>
    intro d s u h
    refine ⟨rfl, ?_⟩
    have := congrArg (fun z : PSt => { z with lexer := [] }) h
    simpa [defineLoop, er] using this
  | cons x xs ih =>
    intro d s u h
    unfold defineLoop
    have hl : ∀ l, er { s with lexer := l } = er { u with lexer := l } := by
      intro l
      have := congrArg (fun z : PSt => { z with lexer := l }) h
      simpa [er] using this
    by_cases hp : x.inPre = true
    · simp only [hp, if_true]
      by_cases he : x.kind = .eof
      · simp only [he, if_true]; exact ⟨trivial, hl _⟩
      · simp only [he, if_false]
        have hw : er (pushWs x { s with lexer := xs }) = er (pushWs x { u with lexer := xs }) := by
          rw [er_pushWs, er_pushWs]; exact hl _
        have hw2 : er (if x.kind = .newline then pushWs x { s with lexer := xs } else { pushWs x { s with lexer := xs } with line := (pushWs x { s with lexer := xs }).line ++ x.text })
            = er (if x.kind = .newline then pushWs x { u with lexer := xs } else { pushWs x { u with lexer := xs } with line := (pushWs x { u with lexer := xs }).line ++ x.text }) := by
          by_cases hn : x.kind = .newline
          · simp only [hn, if_true]; exact hw
          · simp only [hn, if_false]
            rw [er_text, er_text, hw]
        rcases dStep x d with _ | d'
        · exact ⟨rfl, hw2⟩
        · exact ih d' _ _ hw2
    · simp only [hp, Bool.false_eq_true, if_false]; exact ⟨trivial, hl _⟩

theorem undefLoop_er (ss : List Sym) : ∀ (s u : PSt), er s = er u → er (undefLoop ss s) = er (undefLoop ss u) := by
  induction ss with
  | nil =>
    intro s u h
    have := congrArg (fun z : PSt => { z with lexer := [] }) h
    simpa [undefLoop, er] using this
  | cons x xs ih =>
    intro s u h
    unfold undefLoop
    have hl : ∀ l, er { s with lexer := l } = er { u with lexer := l } := by
      intro l
      have := congrArg (fun z : PSt => { z with lexer := l }) h
      simpa [er] using this
    by_cases hp : x.inPre = true
    · simp only [hp, if_true]
      have hw : er (pushWs x { s with lexer := xs }) = er (pushWs x { u with lexer := xs }) := by
        rw [er_pushWs, er_pushWs]; exact hl _
      have hw2 : er (if x.kind = .newline ∨ x.kind = .eof then pushWs x { s with lexer := xs } else { pushWs x { s with lexer := xs } with line := (pushWs x { s with lexer := xs }).line ++ x.text })
            = er (if x.kind = .newline ∨ x.kind = .eof then pushWs x { u with lexer := xs } else { pushWs x { u with lexer := xs } with line := (pushWs x { u with lexer := xs }).line ++ x.text }) := by
        by_cases hn : x.kind = .newline ∨ x.kind = .eof
        · simp only [hn, if_true]; exact hw
        · simp only [hn, if_false]
          rw [er_text, er_text, hw]
      generalize (if x.kind = .newline ∨ x.kind = .eof then pushWs x { s with lexer := xs } else { pushWs x { s with lexer := xs } with line := (pushWs x { s with lexer := xs }).line ++ x.text }) = a at *
      generalize (if x.kind = .newline ∨ x.kind = .eof then pushWs x { u with lexer := xs } else { pushWs x { u with lexer := xs } with line := (pushWs x { u with lexer := xs }).line ++ x.text }) = b at *
      by_cases hi : x.kind = .ident
      · simp only [hi, if_true]
        have hm : a.macros = b.macros := by have := congrArg PSt.macros hw2; exact this
        have := congrArg (fun z : PSt => { z with macros := updateMacros z.macros x.text none }) hw2
        simpa [er, hm] using this
      · simp only [hi, if_false]; exact ih _ _ hw2
    · simp only [hp, if_false]; exact hl _

theorem processDefine_er (env : Env) (x : Sym) (hx : x.kind ≠ .eof) (s : PSt) : nx (processDefine env x s) = nx (processDefine env x (er s)) := by
  unfold processDefine
  simp only [show (er s).lexer = s.lexer from rfl]
  have h0 : er (pushSym x s) = er (pushSym x (er s)) := by rw [er_pushSym hx, er_pushSym hx, er_er]
  obtain ⟨h1, h2⟩ := defineLoop_er s.lexer {} _ _ h0
  generalize defineLoop s.lexer {} (pushSym x s) = a at *
  generalize defineLoop s.lexer {} (pushSym x (er s)) = b at *
  obtain ⟨a1, a2⟩ := a
  obtain ⟨b1, b2⟩ := b
  simp only at h1 h2
  subst h1
  rcases a1 with _ | d
  · rfl
  · simp only [nx, Option.some.injEq]
    have h3 : er (resetLine (pushLine a2)) = er (resetLine (pushLine b2)) := by rw [er_newLine, er_newLine, h2]
    generalize resetLine (pushLine a2) = a at *
    generalize resetLine (pushLine b2) = b at *
    have hm : a.macros = b.macros := by have := congrArg PSt.macros h3; exact this
    have hi : a.idx = b.idx := by have := congrArg PSt.idx h3; exact this
    have := congrArg (fun z : PSt => { z with macros := updateMacros z.macros d.name (some (d.macro env.fileId z.idx)), idx := z.idx + 1 }) h3
    simpa [er, hm, hi] using this

theorem processInclude_er (env : Env) (x : Sym) (hx : x.kind ≠ .eof) (s : PSt) : er (processInclude env x s) = er (processInclude env x (er s)) := by
  unfold processInclude
  have hb : ∀ n : Nat, (List.replicate n ([] : Str)).flatten = [] := by
    intro n; rw [List.flatten_eq_nil_iff]; intro l hl; exact List.eq_of_mem_replicate hl
  simp only [show (er s).macros = s.macros from rfl]
  have h0 : ∀ M, er (pushSym { x with text := trim x.text } { s with macros := M }) = er (pushSym { x with text := trim x.text } { er s with macros := M }) := by
    intro M
    rw [er_pushSym (x := { x with text := trim x.text }) hx, er_pushSym (x := { x with text := trim x.text }) hx]
    have := congrArg (fun z : PSt => addVis (trim x.text) { z with macros := M }) (er_er s)
    simpa [er, addVis] using this.symm
  have h0 := h0 (env.inc (trim x.text) s.macros)
  generalize pushSym { x with text := trim x.text } { s with macros := env.inc (trim x.text) s.macros } = a at *
  generalize pushSym { x with text := trim x.text } { er s with macros := env.inc (trim x.text) s.macros } = b at *
  split
  · have h3 : er (resetLine (pushLine a)) = er (resetLine (pushLine b)) := by rw [er_newLine, er_newLine, h0]
    generalize resetLine (pushLine a) = a at *
    generalize resetLine (pushLine b) = b at *
    have : ∀ (z : PSt) (n : Nat), er { z with out := z.out ++ List.replicate n [] } = addVis [] (er z) := by
      intro z n; simp [er, addVis, hb, visible_append]; simp [visible]
    rw [this, this, h3]
  · exact h0

theorem processDirective_er (env : Env) (f : Nat) (d : Dir) (x : Sym) (hx : x.kind ≠ .eof) (s : PSt) :
    nx (processDirective env f d x s) = nx (processDirective env f d x (er s)) := by
  have h0 : er (pushSym x s) = er (pushSym x (er s)) := by rw [er_pushSym hx, er_pushSym hx, er_er]
  unfold processDirective
  cases d
  case if_ => exact processIf_er ..
  case elseif => exact processElseif_er ..
  case else_ => exact processElse_er ..
  case endif => exact processEndif_er ..
  case define => exact processDefine_er _ _ hx _
  case undef => simp only [nx, show (er s).lexer = s.lexer from rfl]; rw [undefLoop_er _ _ _ h0]
  case include_ => simp only [nx]; rw [processInclude_er _ _ hx]
  case tryinclude => simp only [nx]; rw [processInclude_er _ _ hx]
  case other => simp only [nx]; rw [h0]

theorem processNegative_er (env : Env) (f : Nat) (x : Sym) (s : PSt) : nx (processNegative env f x s) = nx (processNegative env f x (er s)) := by
  unfold processNegative
  split
  · simp [nx, er, visible_visible, gl]
  · exact processEndif_er ..
  · exact processElse_er ..
  · exact processElseif_er ..
  · simp [nx, er, visible_visible, gl, resetLine, pushLine]
  · simp only [nx, er_er]

theorem processIdent_er (f : Nat) (t : Tok) (hx : t.sym.kind ≠ .eof) (s : PSt) : nx (processIdent f t s) = nx (processIdent f t (er s)) := by
  unfold processIdent
  simp only [show (er s).lexer = s.lexer from rfl, show (er s).macros = s.macros from rfl, show (er s).disabled = s.disabled from rfl,
    show (er s).intr = s.intr from rfl, show (er s).stack = s.stack from rfl]
  by_cases h : s.intr = some .dot
  · simp only [h, if_true, nx, Option.some.injEq]
    by_cases h2 : t.text = "Handle".toList
    · simp only [h2, if_true]; simp [er, visible_append, visible_visible, gl]
    · simp only [h2, if_false]; simp [er, visible_append, visible_visible, gl]
  · simp only [h, if_false]
    rcases s.macros t.text with _ | m
    · exact nx_pushSym hx s
    · by_cases hd : m ∈ s.disabled
      · simp only [hd, if_true, nx]
        rw [er_pushSym hx, er_pushSym hx]
        have := congrArg (fun z : PSt => addVis t.sym.text { z with disabled := s.disabled.filter (· ≠ m) }) (er_er s)
        simpa [er, addVis] using this.symm
      · simp only [hd, if_false]
        rcases expandIdentifier s.macros true f t s.lexer s.stack s.disabled with _ | o
        · rfl
        · simp only
          rcases o.value with _ | d
          · rfl
          · simp [nx, er, visible_visible, gl]

theorem setIntr_er (i : Option Intr) (s : PSt) : er { s with intr := i } = er { er s with intr := i } := by
  have := congrArg (fun z : PSt => { z with intr := i }) (er_er s)
  simpa [er] using this.symm

theorem processActive_er (env : Env) (f : Nat) (t : Tok) (s : PSt) : nx (processActive env f t s) = nx (processActive env f t (er s)) := by
  have hk : t.kind = t.sym.kind := rfl
  by_cases he : t.kind = .eof
  · unfold processActive; simp [he, nx]
  have hx : t.sym.kind ≠ .eof := he
  have hp := nx_pushSym hx s
  unfold processActive
  split
  · rfl
  · exact processDirective_er _ _ _ _ hx _
  · simp only [nx]; rw [er_newLine, er_newLine, er_pushWs, er_pushWs, er_er]
  · exact processIdent_er _ _ hx _
  · simp only [nx, show (er s).intr = s.intr from rfl]; rw [setIntr_er]
  · simp only [nx, show (er s).intr = s.intr from rfl]; rw [setIntr_er]
  · simp only [show (er s).intr = s.intr from rfl]
    split
    · simp only [nx]; rw [setIntr_er]
    · simp only [nx]
      rw [er_pushSym hx, er_pushSym hx, setIntr_er]
  · simp only [show (er s).intr = s.intr from rfl]
    split
    · simp only [nx]; rw [setIntr_er]
    · exact hp
  · rfl
  · exact hp

theorem pStep_er (env : Env) (f : Nat) (t : Tok) (s : PSt) : nx (pStep env f t s) = nx (pStep env f t (er s)) := by
  unfold pStep
  have key : ∀ a b : PSt, er a = er b →
      nx (if skipping a.conds = true then processNegative env f t.sym a else processActive env f t a) =
      nx (if skipping b.conds = true then processNegative env f t.sym b else processActive env f t b) := by
    intro a b h
    have hc : a.conds = b.conds := by have := congrArg PSt.conds h; exact this
    rw [hc]
    split
    · rw [processNegative_er, h, ← processNegative_er]
    · rw [processActive_er, h, ← processActive_er]
  apply key
  unfold noteArg
  rcases t.orig with _ | r
  · simp only [er_er]
  · simp [er, visible_visible, gl]

theorem pNext_er (s : PSt) : (pNext s).map (fun p => (p.1, er p.2)) = (pNext (er s)).map (fun p => (p.1, er p.2)) := by
  unfold pNext
  simp only [show (er s).lexer = s.lexer from rfl, show (er s).stack = s.stack from rfl, show (er s).expanded = none from rfl]
  rcases s.stack with _ | ⟨t, ts⟩
  · rcases s.lexer with _ | ⟨x, xs⟩
    · rfl
    · rcases s.expanded with _ | ⟨y, i, fi⟩ <;> simp [er, visible_visible, gl]
  · simp [er, visible_visible, gl]

/-- States that differ only in what does not matter take the same turns. -/
theorem turn_er {env : Env} {s s' u : PSt} (h : Turn env s s') (e : er s = er u) : ∃ u', Turn env u u' ∧ er s' = er u' := by
  obtain ⟨t, s₁, f₀, hn, hs⟩ := h
  have h1 := pNext_er s
  rw [e, ← pNext_er u, hn] at h1
  rcases h2 : pNext u with _ | ⟨t', u₁⟩
  · rw [h2] at h1; simp at h1
  rw [h2] at h1
  simp only [Option.map_some, Option.some.injEq, Prod.mk.injEq] at h1
  obtain ⟨rfl, h1⟩ := h1
  have h3 : ∀ f, f₀ ≤ f → nx (pStep env f t u₁) = some (er s') := by
    intro f hf
    rw [pStep_er, ← h1, ← pStep_er, hs f hf]; rfl
  have h4 : ∃ u', pStep env f₀ t u₁ = .next u' ∧ er u' = er s' := by
    have := h3 f₀ (Nat.le_refl _)
    rcases h5 : pStep env f₀ t u₁ with u' | _ | _ | _ | _ <;> rw [h5] at this <;> simp [nx] at this
    exact ⟨u', rfl, this⟩
  obtain ⟨u', hu, he⟩ := h4
  refine ⟨u', ⟨t, u₁, f₀, h2, fun f hf => ?_⟩, he.symm⟩
  obtain ⟨k, rfl⟩ := Nat.le.dest hf
  rw [pStep_mono env f₀ k t u₁ (by rw [hu]; simp), hu]

theorem turns_er {env : Env} {s s' : PSt} (h : Turns env s s') : ∀ u, er s = er u → ∃ u', Turns env u u' ∧ er s' = er u' := by
  induction h with
  | refl => intro u e; exact ⟨u, .refl, e⟩
  | head h1 _ ih =>
    intro u e
    obtain ⟨u₁, h2, e2⟩ := turn_er h1 e
    obtain ⟨u', h3, e3⟩ := ih u₁ e2
    exact ⟨u', .head h2 h3, e3⟩

theorem _root_.Verif.Pre.Spec.Turns.trans {env : Env} {s s' s'' : PSt} (h : Turns env s s') (h' : Turns env s' s'') : Turns env s s'' := by
  induction h with
  | refl => exact h'
  | head h1 _ ih => exact .head h1 (ih h')

/-! ### Skipping -/

/-- A turn that reports nothing. -/
def Still (env : Env) (s s' : PSt) : Prop :=
  ∃ t s₁ f₀, pNext s = some (t, s₁) ∧ (∀ found f, stepReports found env f t s₁ = []) ∧ ∀ f, f₀ ≤ f → pStep env f t s₁ = .next s'

inductive Stills (env : Env) : PSt → PSt → Prop where
  | refl {s : PSt} : Stills env s s
  | head {s s₁ s' : PSt} : Still env s s₁ → Stills env s₁ s' → Stills env s s'

theorem Still.turn {env : Env} {s s' : PSt} (h : Still env s s') : Turn env s s' :=
  let ⟨t, s₁, f₀, h1, _, h2⟩ := h
  ⟨t, s₁, f₀, h1, h2⟩

theorem Stills.turns {env : Env} {s s' : PSt} (h : Stills env s s') : Turns env s s' := by
  induction h with
  | refl => exact .refl
  | head h _ ih => exact .head h.turn ih

theorem Stills.trans {env : Env} {s s' s'' : PSt} (h : Stills env s s') (h' : Stills env s' s'') : Stills env s s'' := by
  induction h with
  | refl => exact h'
  | head h1 _ ih => exact .head h1 (ih h')

/-- A directive that is not asked about reports nothing. -/
theorem directive_still {x : Sym} {t₁ : PSt} (hk : x.kind = .dir .endif ∨ x.kind = .dir .else_ ∨
    (x.kind = .dir .elseif ∧ ∃ c C, t₁.conds = c :: C ∧ c ≠ .notActivated)) (env : Env) (found : Str → Bool → Bool) (f : Nat) :
    stepReports found env f x.tok t₁ = [] := by
  unfold stepReports
  rcases hk with hk | hk | ⟨hk, c, C, hc, hn⟩
  · simp only [show x.tok.sym = x from rfl, show x.tok.kind = x.kind from rfl, hk]
    split <;> rfl
  · simp only [show x.tok.sym = x from rfl, show x.tok.kind = x.kind from rfl, hk]
    split <;> rfl
  · simp only [show x.tok.sym = x from rfl, show x.tok.kind = x.kind from rfl, hk, hc]
    cases c
    · exact absurd rfl hn
    all_goals split <;> rfl

/-- What the selected text depends on. -/
def co (s : PSt) : PSt := er { s with lexer := [], conds := [], skipped := [] }

def sl (s : PSt) : List (Nat × Nat) := s.skipped.map fun r => (r.s.line, r.e.line)

def dup (l : List Nat) : List (Nat × Nat) := l.map fun n => (n, n)

theorem dup_append (a b : List Nat) : dup (a ++ b) = dup a ++ dup b := List.map_append

theorem er_eq_co (s : PSt) : er s = { co s with lexer := s.lexer, conds := s.conds, skipped := s.skipped.map gl } := rfl

theorem sl_of_gl {s t : PSt} (h : s.skipped.map gl = t.skipped.map gl) : sl s = sl t := by
  have := congrArg (List.map fun r : Rng => (r.s.line, r.e.line)) h
  simpa [sl, List.map_map, Function.comp_def, gl] using this

theorem co_stack {s t : PSt} (h : co s = co t) : s.stack = t.stack := by have := congrArg PSt.stack h; exact this
theorem co_macros {s t : PSt} (h : co s = co t) : s.macros = t.macros := by have := congrArg PSt.macros h; exact this
theorem co_disabled {s t : PSt} (h : co s = co t) : s.disabled = t.disabled := by have := congrArg PSt.disabled h; exact this
theorem co_line {s t : PSt} (h : co s = co t) : visible (s.out.flatten ++ s.line) = visible (t.out.flatten ++ t.line) := by
  have := congrArg PSt.line h; exact this

theorem segment_run {env : Env} {ts : List Sym} {s s' : PSt} (h : Segment env ts s s') (t : PSt) (rest : List Sym)
    (hc : skipping t.conds = false) (he : co s = co t) (hl : t.lexer = ts ++ rest) :
    ∃ t', Turns env t t' ∧ t'.lexer = rest ∧ t'.conds = t.conds ∧ sl t' = sl t ∧ co s' = co t' := by
  obtain ⟨-, h⟩ := h
  have h := h rest t.conds t.skipped hc
  have he' : er { s with lexer := ts ++ rest, conds := t.conds, skipped := t.skipped } = er t := by
    rw [er_eq_co, er_eq_co t, ← he, hl]; rfl
  obtain ⟨t', h1, h2⟩ := turns_er h t he'
  refine ⟨t', h1, ?_, ?_, ?_, ?_⟩
  · have := congrArg PSt.lexer h2; exact this.symm
  · have := congrArg PSt.conds h2; exact this.symm
  · have := congrArg PSt.skipped h2; exact sl_of_gl this.symm
  · have := congrArg co h2
    simpa [co, er, visible_visible] using this

/-- A token read from the lexer. -/
theorem pNext_lexer {t : PSt} {x : Sym} {l : List Sym} (hs : t.stack = []) (hl : t.lexer = x :: l) :
    ∃ t₁, pNext t = some (x.tok, t₁) ∧ t₁.lexer = l ∧ t₁.conds = t.conds ∧ t₁.skipped = t.skipped ∧ co t₁ = co t := by
  unfold pNext
  simp only [hs, hl]
  rcases t.expanded with _ | ⟨y, i, fi⟩
  · exact ⟨_, rfl, rfl, rfl, rfl, by simp [co, er, hs]⟩
  · exact ⟨_, rfl, rfl, rfl, rfl, by simp [co, er, hs]⟩

theorem skip_tok {env : Env} {t : PSt} {x : Sym} {l : List Sym} (hs : t.stack = []) (hl : t.lexer = x :: l)
    (hc : skipping t.conds = true) (hp : Plain x.kind) :
    ∃ t', Still env t t' ∧ t'.lexer = l ∧ t'.conds = t.conds ∧ sl t' = sl t ++ dup (lineEnds [x]) ∧ co t' = co t := by
  obtain ⟨t₁, h1, h2, h3, h4, h5⟩ := pNext_lexer hs hl
  have hst : ∀ f, pStep env f x.tok t₁ = processNegative env f x t₁ := by
    intro f
    unfold pStep
    simp only [noteArg, Sym.tok, h3, hc, if_true]
  have hr : ∀ found f, stepReports found env f x.tok t₁ = [] := by
    intro found f
    unfold stepReports
    simp only [h3, hc, if_true]
    split
    · rename_i h _; exact absurd h hp.2.1
    · rfl
  by_cases hn : x.kind = .newline
  · refine ⟨resetLine { pushLine t₁ with skipped := (pushLine t₁).skipped ++ [⟨⟨x.range.s.line, (pushLine t₁).skipCol⟩, x.range.s⟩] },
      ⟨x.tok, t₁, 0, h1, hr, fun f _ => ?_⟩, ?_⟩
    · rw [hst]; unfold processNegative; simp only [hn]
    · refine ⟨h2, h3, ?_, ?_⟩
      · simp [sl, resetLine, pushLine, h4, lineEnds, dup, hn]
      · rw [← h5]; simp [co, er, resetLine, pushLine]
  · refine ⟨t₁, ⟨x.tok, t₁, 0, h1, hr, fun f _ => ?_⟩, h2, h3, ?_, h5⟩
    · rw [hst]
      obtain ⟨p1, p2, p3, p4⟩ := hp
      unfold processNegative
      split
      · rename_i h; exact absurd h p1
      · rename_i h; exact absurd h p4
      · rename_i h; exact absurd h p3
      · rename_i h; exact absurd h p2
      · rename_i h; exact absurd h hn
      · rfl
    · simp [sl, h4, lineEnds, dup, hn]

theorem lineEnds_append (a b : List Sym) : lineEnds (a ++ b) = lineEnds a ++ lineEnds b := by simp [lineEnds]

theorem skip_toks {env : Env} {rest : List Sym} (ts : List Sym) : ∀ (t : PSt), t.stack = [] → t.lexer = ts ++ rest →
    skipping t.conds = true → (∀ x ∈ ts, Plain x.kind) →
    ∃ t', Stills env t t' ∧ t'.lexer = rest ∧ t'.conds = t.conds ∧ sl t' = sl t ++ dup (lineEnds ts) ∧ co t' = co t := by
  induction ts with
  | nil => intro t hs hl hc _; exact ⟨t, .refl, hl, rfl, by simp [lineEnds, dup], rfl⟩
  | cons x xs ih =>
    intro t hs hl hc hp
    obtain ⟨t₁, a1, a2, a3, a4, a5⟩ := skip_tok (env := env) hs hl hc (hp x (by simp))
    obtain ⟨t', b1, b2, b3, b4, b5⟩ := ih t₁ (by rw [co_stack a5, hs]) a2 (by rw [a3, hc]) (fun y hy => hp y (by simp [hy]))
    refine ⟨t', .head a1 b1, b2, by rw [b3, a3], ?_, by rw [b5, a5]⟩
    rw [b4, a4, List.append_assoc, ← dup_append, ← lineEnds_append]; rfl

/-- A conditional directive read from the lexer: what it does to the state. -/
theorem directive_turn {env : Env} {t : PSt} {x : Sym} {l : List Sym} {d : Dir} (hs : t.stack = []) (hl : t.lexer = x :: l)
    (hk : x.kind = .dir d) (hd : d = .elseif ∨ d = .else_ ∨ d = .endif ∨ (d = .if_ ∧ skipping t.conds = false)) :
    ∃ t₁, pNext t = some (x.tok, t₁) ∧ t₁.lexer = l ∧ t₁.conds = t.conds ∧ t₁.skipped = t.skipped ∧ co t₁ = co t ∧
      ∀ f, pStep env f x.tok t₁ = processDirective env f d x t₁ := by
  obtain ⟨t₁, h1, h2, h3, h4, h5⟩ := pNext_lexer hs hl
  refine ⟨t₁, h1, h2, h3, h4, h5, fun f => ?_⟩
  unfold pStep
  have hn : noteArg x.tok t₁ = t₁ := rfl
  simp only [hn, h3]
  by_cases hc : skipping t.conds = true
  · simp only [hc, if_true]
    unfold processNegative
    rcases hd with rfl | rfl | rfl | ⟨rfl, h⟩
    · simp only [show x.tok.sym = x from rfl, hk]; rfl
    · simp only [show x.tok.sym = x from rfl, hk]; rfl
    · simp only [show x.tok.sym = x from rfl, hk]; rfl
    · rw [hc] at h; exact absurd h (by decide)
  · simp only [hc, Bool.false_eq_true, if_false]
    unfold processActive
    simp only [show x.tok.kind = x.kind from rfl, hk]; rfl

theorem endif_turn {env : Env} {t : PSt} {x : Sym} {l : List Sym} {c : Cond} {C : List Cond} (hs : t.stack = []) (hl : t.lexer = x :: l)
    (hk : x.kind = .dir .endif) (hc : t.conds = c :: C) :
    ∃ t', Still env t t' ∧ t'.lexer = l ∧ t'.conds = C ∧ sl t' = sl t ++ dup (if skipping C then [x.range.s.line] else []) ∧ co t' = co t := by
  obtain ⟨t₁, h1, h2, h3, h4, h5, h6⟩ := directive_turn (env := env) hs hl hk (by simp)
  have key : ∃ t', processEndif x t₁ = .next t' ∧ t'.lexer = l ∧ t'.conds = C ∧ sl t' = sl t ++ dup (if skipping C then [x.range.s.line] else []) ∧
      co t' = co t := by
    unfold processEndif
    rw [h3, hc]
    simp only
    rcases C with _ | ⟨_ | _ | _, C⟩
    · exact ⟨_, rfl, h2, rfl, by simp [sl, h4, skipping, dup], by rw [← h5]; rfl⟩
    · exact ⟨_, rfl, h2, rfl, by simp [sl, h4, skipping, dup], by rw [← h5]; rfl⟩
    · exact ⟨_, rfl, h2, rfl, by simp [sl, h4, skipping, dup], by rw [← h5]; rfl⟩
    · exact ⟨_, rfl, h2, rfl, by simp [sl, h4, skipping, dup], by rw [← h5]; rfl⟩
  obtain ⟨t', k, rest⟩ := key
  exact ⟨t', ⟨_, t₁, 0, h1, fun found f => directive_still (.inl hk) env found f, fun f _ => by rw [h6 f]; exact k⟩, rest⟩

/-- `#else` or `#elseif` after a selected branch. -/
theorem later_turn {env : Env} {t : PSt} {x : Sym} {l : List Sym} {c : Cond} {C : List Cond} (hs : t.stack = []) (hl : t.lexer = x :: l)
    (hk : x.kind = .dir .else_ ∨ x.kind = .dir .elseif) (hc : t.conds = c :: C) (hn : c ≠ .notActivated) :
    ∃ t', Still env t t' ∧ t'.lexer = l ∧ t'.conds = .activated :: C ∧ sl t' = sl t ∧ co t' = co t := by
  rcases hk with hk | hk
  · obtain ⟨t₁, h1, h2, h3, h4, h5, h6⟩ := directive_turn (env := env) hs hl hk (by simp)
    have key : ∃ t', processElse x t₁ = .next t' ∧ t'.lexer = l ∧ t'.conds = .activated :: C ∧ sl t' = sl t ∧ co t' = co t := by
      unfold processElse
      rw [h3, hc]
      cases c
      · exact absurd rfl hn
      all_goals exact ⟨_, rfl, h2, rfl, by simp [sl, h4], by rw [← h5]; rfl⟩
    obtain ⟨t', k, rest⟩ := key
    exact ⟨t', ⟨_, t₁, 0, h1, fun found f => directive_still (.inr (.inl hk)) env found f, fun f _ => by rw [h6 f]; exact k⟩, rest⟩
  · obtain ⟨t₁, h1, h2, h3, h4, h5, h6⟩ := directive_turn (env := env) hs hl hk (by simp)
    have key : ∃ t', (∀ f, processElseif env f x t₁ = .next t') ∧ t'.lexer = l ∧ t'.conds = .activated :: C ∧ sl t' = sl t ∧ co t' = co t := by
      unfold processElseif
      rw [h3, hc]
      cases c
      · exact absurd rfl hn
      all_goals exact ⟨_, fun f => rfl, h2, rfl, by simp [sl, h4], by rw [← h5]; rfl⟩
    obtain ⟨t', k, rest⟩ := key
    exact ⟨t', ⟨_, t₁, 0, h1, fun found f => directive_still (.inr (.inr ⟨hk, c, C, by rw [h3, hc], hn⟩)) env found f, fun f _ => by rw [h6 f]; exact k f⟩, rest⟩

/-- `#if` in a skipped branch. -/
theorem nested_if_turn {env : Env} {t : PSt} {x : Sym} {l : List Sym} (hs : t.stack = []) (hl : t.lexer = x :: l)
    (hk : x.kind = .dir .if_) (hc : skipping t.conds = true) :
    ∃ t', Still env t t' ∧ t'.lexer = l ∧ t'.conds = .activated :: t.conds ∧ sl t' = sl t ∧ co t' = co t := by
  obtain ⟨t₁, h1, h2, h3, h4, h5⟩ := pNext_lexer hs hl
  refine ⟨{ t₁ with conds := .activated :: t₁.conds }, ⟨_, t₁, 0, h1, fun found f => ?_, fun f _ => ?_⟩, h2, by rw [h3], by simp [sl, h4], by rw [← h5]; rfl⟩
  · unfold stepReports
    simp only [h3, hc, if_true, show x.tok.sym = x from rfl, hk]
  unfold pStep
  have hn : noteArg x.tok t₁ = t₁ := rfl
  simp only [hn, h3, hc, if_true]
  unfold processNegative
  simp only [show x.tok.sym = x from rfl, hk, h3]

mutual
theorem skip_items {env : Env} : ∀ (it : Items) (rest : List Sym) (t : PSt), it.WF → t.stack = [] → t.lexer = it.tokens ++ rest →
    skipping t.conds = true →
    ∃ t', Stills env t t' ∧ t'.lexer = rest ∧ t'.conds = t.conds ∧ sl t' = sl t ++ dup it.lines ∧ co t' = co t
  | .nil, rest, t, _, hs, hl, hc => ⟨t, .refl, by simpa [Items.tokens] using hl, rfl, by simp [Items.lines, dup], rfl⟩
  | .text ts r, rest, t, hw, hs, hl, hc => by
    simp only [Items.WF] at hw
    simp only [Items.tokens, List.append_assoc] at hl
    obtain ⟨t₁, a1, a2, a3, a4, a5⟩ := skip_toks (env := env) ts t hs hl hc hw.2.1
    obtain ⟨t', b1, b2, b3, b4, b5⟩ := skip_items r rest t₁ hw.2.2 (by rw [co_stack a5, hs]) a2 (by rw [a3, hc])
    exact ⟨t', a1.trans b1, b2, by rw [b3, a3], by rw [b4, a4, Items.lines, dup_append, List.append_assoc], by rw [b5, a5]⟩
  | .chain (.done e) r, rest, t, hw, hs, hl, hc => by
    simp only [Items.WF, Branches.First, false_and] at hw
  | .chain (.branch d cond body more) r, rest, t, hw, hs, hl, hc => by
    simp only [Items.WF, Branches.First] at hw
    obtain ⟨⟨-, hk, ⟨c, rfl, hcl⟩, hb, hm⟩, hr⟩ := hw
    simp only [Items.tokens, Branches.tokens, List.cons_append, List.append_assoc, Option.getD_some] at hl
    obtain ⟨t₁, a1, a2, a3, a4, a5⟩ := nested_if_turn (env := env) hs hl hk hc
    obtain ⟨t₂, b1, b2, b3, b4, b5⟩ := skip_toks (env := env) c t₁ (by rw [co_stack a5, hs]) a2 (by rw [a3]; rfl) (fun x hx => (hcl x hx).2)
    obtain ⟨t₃, c1, c2, c3, c4, c5⟩ := skip_items body (more.tokens ++ (r.tokens ++ rest)) t₂ hb (by rw [co_stack b5, co_stack a5, hs]) b2 (by rw [b3, a3]; rfl)
    obtain ⟨t₄, d1, d2, d3, d4, d5⟩ := skip_more more (r.tokens ++ rest) t₃ .activated t.conds (.inl hm)
      (by rw [co_stack c5, co_stack b5, co_stack a5, hs]) c2 (by rw [c3, b3, a3]) (by simp)
    obtain ⟨t', e1, e2, e3, e4, e5⟩ := skip_items r rest t₄ hr (by rw [co_stack d5, co_stack c5, co_stack b5, co_stack a5, hs]) d2 (by rw [d3, hc])
    refine ⟨t', (Stills.head a1 (b1.trans (c1.trans (d1.trans e1)))), e2, by rw [e3, d3], ?_, by rw [e5, d5, c5, b5, a5]⟩
    rw [e4, d4, c4, b4, a4, hc]
    simp only [Items.lines, Branches.lines, Option.getD_some, List.append_assoc, dup_append]
theorem skip_more {env : Env} : ∀ (more : Branches) (rest : List Sym) (t : PSt) (c : Cond) (C : List Cond), (more.Next ∨ more.Last) →
    t.stack = [] → t.lexer = more.tokens ++ rest → t.conds = c :: C → c ≠ .notActivated →
    ∃ t', Stills env t t' ∧ t'.lexer = rest ∧ t'.conds = C ∧ sl t' = sl t ++ dup (more.lines (skipping C)) ∧ co t' = co t
  | .done e, rest, t, c, C, hw, hs, hl, hc, hn => by
    have hk : e.kind = .dir .endif := by rcases hw with hw | hw <;> simp only [Branches.Next, Branches.Last] at hw <;> exact hw.2
    obtain ⟨t', a1, a2, a3, a4, a5⟩ := endif_turn (env := env) hs (by simpa [Branches.tokens] using hl) hk hc
    exact ⟨t', .head a1 .refl, a2, a3, by rw [a4]; rfl, a5⟩
  | .branch d cond body more, rest, t, c, C, hw, hs, hl, hc, hn => by
    rcases hw with hw | hw
    · simp only [Branches.Next] at hw
      obtain ⟨-, hb, hw⟩ := hw
      simp only [Branches.tokens, List.cons_append, List.append_assoc] at hl
      obtain ⟨t₁, a1, a2, a3, a4, a5⟩ := later_turn (env := env) hs hl (by rcases hw with hw | hw; exact .inr hw.1; exact .inl hw.1) hc hn
      have hcl : ∀ x ∈ cond.getD [], Plain x.kind := by
        rcases hw with ⟨-, ⟨c, rfl, h⟩, -⟩ | ⟨-, rfl, -⟩
        · intro x hx; exact (h x hx).2
        · simp
      have hm : more.Next ∨ more.Last := by rcases hw with hw | hw; exact .inl hw.2.2; exact .inr hw.2.2
      obtain ⟨t₂, b1, b2, b3, b4, b5⟩ := skip_toks (env := env) (cond.getD []) t₁ (by rw [co_stack a5, hs]) a2 (by rw [a3]; rfl) hcl
      obtain ⟨t₃, c1, c2, c3, c4, c5⟩ := skip_items body (more.tokens ++ rest) t₂ hb (by rw [co_stack b5, co_stack a5, hs]) b2 (by rw [b3, a3]; rfl)
      obtain ⟨t', d1, d2, d3, d4, d5⟩ := skip_more more rest t₃ .activated C hm
        (by rw [co_stack c5, co_stack b5, co_stack a5, hs]) c2 (by rw [c3, b3, a3]) (by simp)
      refine ⟨t', (Stills.head a1 (b1.trans (c1.trans d1))), d2, d3, ?_, by rw [d5, c5, b5, a5]⟩
      rw [d4, c4, b4, a4]
      simp only [Branches.lines, List.append_assoc, dup_append]
    · simp only [Branches.Last] at hw
end

/-! ### Selecting -/

theorem takeDirective_append {c l : List Sym} (h : ConditionLine c) (hl : StartsLine l) : takeDirective (c ++ l) = (c, l) := by
  induction c with
  | nil =>
    cases l with
    | nil => rfl
    | cons x xs => simp [takeDirective, hl x rfl]
  | cons x xs ih =>
    have := ih (fun y hy => h y (by simp [hy]))
    simp [takeDirective, (h x (by simp)).1, this]

theorem startsLine_append {a b : List Sym} (ha : StartsLine a) (hb : StartsLine b) : StartsLine (a ++ b) := by
  cases a with
  | nil => exact hb
  | cons x xs => intro s hs; exact ha s (by simpa using hs)

theorem startsLine_branches {c : Branches} (h : c.First ∨ c.Next ∨ c.Last) (l : List Sym) : StartsLine (c.tokens ++ l) := by
  intro s hs
  cases c with
  | done e =>
    simp only [Branches.First, Branches.Next, Branches.Last, false_or, or_self, Branches.tokens, List.cons_append, List.head?_cons, Option.some.injEq] at h hs
    subst hs; exact h.1
  | branch d cond body more =>
    simp only [Branches.First, Branches.Next, Branches.Last, or_false, Branches.tokens, List.cons_append, List.head?_cons, Option.some.injEq] at h hs
    subst hs
    rcases h with h | h <;> exact h.1

theorem startsLine_items : ∀ (it : Items) (l : List Sym), it.WF → StartsLine l → StartsLine (it.tokens ++ l)
  | .nil, l, _, hl => by simpa [Items.tokens] using hl
  | .text ts r, l, hw, hl => by
    simp only [Items.WF] at hw
    simp only [Items.tokens, List.append_assoc]
    exact startsLine_append hw.1 (startsLine_items r l hw.2.2 hl)
  | .chain c r, l, hw, hl => by
    simp only [Items.WF] at hw
    simp only [Items.tokens, List.append_assoc]
    exact startsLine_branches (.inl hw.1) _

/-- Evaluating a condition. -/
theorem if_run {env : Env} {s t : PSt} {x : Sym} {cond l : List Sym} {b : Bool} (h : Condition env s cond b) (he : co s = co t)
    (hl : t.lexer = cond ++ l) (hcl : ConditionLine cond) (hsl : StartsLine l) :
    ∃ t' f₀, (∀ f, f₀ ≤ f → processIf env f x t = .next t') ∧ t'.lexer = l ∧
      t'.conds = (if b then .active else .notActivated) :: t.conds ∧ t'.skipped = t.skipped ∧ co t' = co t := by
  obtain ⟨r, f₀, h1, h2, h3⟩ := h
  have hb : ∀ n : Nat, (List.replicate n ([] : Str)).flatten = [] := by
    intro n; rw [List.flatten_eq_nil_iff]; intro l hl; exact List.eq_of_mem_replicate hl
  have hm : s.macros = t.macros := co_macros he
  have hd : s.disabled = t.disabled := co_disabled he
  rw [hm, hd] at h1
  have hmono : ∀ f, f₀ ≤ f → processIf env f x t = processIf env f₀ x t := by
    intro f hf
    obtain ⟨k, rfl⟩ := Nat.le.dest hf
    refine processIf_mono env f₀ k x t ?_
    unfold processIf
    simp only [hl, takeDirective_append hcl hsl, (h1 f₀ (Nat.le_refl _)).1]
    cases r <;> simp
  have key : ∃ t', processIf env f₀ x t = .next t' ∧ t'.lexer = l ∧
      t'.conds = (if b then .active else .notActivated) :: t.conds ∧ t'.skipped = t.skipped ∧ co t' = co t := by
    obtain ⟨e1, e2⟩ := h1 f₀ (Nat.le_refl _)
    unfold processIf
    simp only [hl, takeDirective_append hcl hsl, e1]
    rcases r with v | _ | _
    · simp only [Res.ok.injEq] at h3
      have hv : v = b := by cases v <;> cases b <;> simp_all
      subst hv
      cases v <;> exact ⟨_, rfl, rfl, rfl, rfl, by simp [co, er, hb, e2]⟩
    · have hv : b = false := by cases b <;> simp_all
      subst hv
      exact ⟨_, rfl, rfl, rfl, rfl, by simp [co, er, hb, e2]⟩
    · exact absurd rfl h2
  obtain ⟨t', k1, k2⟩ := key
  exact ⟨t', f₀, fun f hf => by rw [hmono f hf, k1], k2⟩

/-- `#if`, or `#elseif` when no branch has been selected. -/
theorem cond_turn {env : Env} {s t : PSt} {x : Sym} {cond l : List Sym} {b : Bool} {C : List Cond} (h : Condition env s cond b) (he : co s = co t)
    (hs : t.stack = []) (hl : t.lexer = x :: (cond ++ l)) (hcl : ConditionLine cond) (hsl : StartsLine l) (hC : skipping C = false)
    (hk : (x.kind = .dir .if_ ∧ t.conds = C) ∨ (x.kind = .dir .elseif ∧ t.conds = .notActivated :: C)) :
    ∃ t', Turn env t t' ∧ t'.lexer = l ∧ t'.conds = (if b then .active else .notActivated) :: C ∧ sl t' = sl t ∧ co t' = co t := by
  rcases hk with ⟨hk, hc⟩ | ⟨hk, hc⟩
  · obtain ⟨t₁, h1, h2, h3, h4, h5, h6⟩ := directive_turn (env := env) hs hl hk (by simp [hc, hC])
    obtain ⟨t', f₀, k1, k2, k3, k4, k5⟩ := if_run (x := x) h (he.trans h5.symm) h2 hcl hsl
    exact ⟨t', ⟨_, t₁, f₀, h1, fun f hf => by rw [h6 f]; exact k1 f hf⟩, k2, by rw [k3, h3, hc], by simp [sl, k4, h4], by rw [k5, h5]⟩
  · obtain ⟨t₁, h1, h2, h3, h4, h5, h6⟩ := directive_turn (env := env) hs hl hk (by simp)
    obtain ⟨t', f₀, k1, k2, k3, k4, k5⟩ := if_run (t := { t₁ with conds := C }) (x := x) h (he.trans h5.symm) h2 hcl hsl
    refine ⟨t', ⟨_, t₁, f₀, h1, fun f hf => ?_⟩, k2, by rw [k3], by simp [sl, k4, h4], by rw [k5]; exact h5⟩
    rw [h6 f]
    show processElseif env f x t₁ = .next t'
    unfold processElseif
    rw [h3, hc]
    exact k1 f hf

theorem else_turn {env : Env} {t : PSt} {x : Sym} {l : List Sym} {C : List Cond} (hs : t.stack = []) (hl : t.lexer = x :: l)
    (hk : x.kind = .dir .else_) (hc : t.conds = .notActivated :: C) :
    ∃ t', Still env t t' ∧ t'.lexer = l ∧ t'.conds = .active :: C ∧ sl t' = sl t ∧ co t' = co t := by
  obtain ⟨t₁, h1, h2, h3, h4, h5, h6⟩ := directive_turn (env := env) hs hl hk (by simp)
  refine ⟨{ t₁ with conds := .active :: C }, ⟨_, t₁, 0, h1, fun found f => directive_still (.inr (.inl hk)) env found f, fun f _ => ?_⟩, h2, rfl, by simp [sl, h4], by rw [← h5]; rfl⟩
  rw [h6 f]
  show processElse x t₁ = _
  unfold processElse
  rw [h3, hc]

mutual
/-- The preprocessor follows the selection. -/
theorem sel_run {env : Env} : ∀ (it : Items) (s s' : PSt) (sel : List Sym) (g : List Nat) (t : PSt) (rest : List Sym), Sel env s it sel g s' →
    it.WF → StartsLine rest → t.stack = [] → co s = co t → t.lexer = it.tokens ++ rest → skipping t.conds = false →
    ∃ t', Turns env t t' ∧ t'.lexer = rest ∧ t'.conds = t.conds ∧ sl t' = sl t ++ dup g ∧ co s' = co t' ∧ t'.stack = []
  | .nil, s, s', sel, g, t, rest, h, hw, hr, hs, he, hl, hc => by
    cases h
    exact ⟨t, .refl, by simpa [Items.tokens] using hl, rfl, by simp [dup], he, hs⟩
  | .text ts r, s, s', _, g, t, rest, h, hw, hr, hs, he, hl, hc => by
    cases h with
    | text h1 h2 =>
      simp only [Items.WF] at hw
      simp only [Items.tokens, List.append_assoc] at hl
      obtain ⟨t₁, a1, a2, a3, a4, a5⟩ := segment_run h1 t _ hc he hl
      obtain ⟨t', b1, b2, b3, b4, b5, b6⟩ := sel_run r _ s' _ g t₁ rest h2 hw.2.2 hr (by rw [← co_stack a5]; exact h1.1) a5 a2 (by rw [a3, hc])
      exact ⟨t', a1.trans b1, b2, by rw [b3, a3], by rw [b4, a4], b5, b6⟩
  | .chain (.done e) r, s, s', sel, g, t, rest, h, hw, hr, hs, he, hl, hc => by
    simp only [Items.WF, Branches.First, false_and] at hw
  | .chain (.branch d cond body more) r, s, s', _, _, t, rest, h, hw, hr, hs, he, hl, hc => by
    simp only [Items.WF] at hw
    obtain ⟨hf, hwr⟩ := hw
    cases h with
    | chain h1 h2 =>
      simp only [Items.tokens, List.append_assoc] at hl
      have hsr := startsLine_items r rest hwr hr
      obtain ⟨t₁, a1, a2, a3, a4, a5, a6⟩ := choose_run (.branch d cond body more) s _ _ _ t (r.tokens ++ rest) t.conds h1
        (.inl ⟨hf, rfl⟩) hs he hl hc
      obtain ⟨t', b1, b2, b3, b4, b5, b6⟩ := sel_run r _ s' _ _ t₁ rest h2 hwr hr a6 a5 a2 (by rw [a3, hc])
      exact ⟨t', a1.trans b1, b2, by rw [b3, a3], by rw [b4, a4, dup_append, List.append_assoc], b5, b6⟩
theorem choose_run {env : Env} : ∀ (c : Branches) (s s' : PSt) (sel : List Sym) (g : List Nat) (t : PSt) (rest : List Sym) (C : List Cond),
    Choose env s c sel g s' →
    ((c.First ∧ t.conds = C) ∨ (c.Next ∧ t.conds = .notActivated :: C)) → t.stack = [] → co s = co t → t.lexer = c.tokens ++ rest → skipping C = false →
    ∃ t', Turns env t t' ∧ t'.lexer = rest ∧ t'.conds = C ∧ sl t' = sl t ++ dup g ∧ co s' = co t' ∧ t'.stack = []
  | .done e, s, s', sel, g, t, rest, C, h, hw, hs, he, hl, hC => by
    cases h
    rcases hw with ⟨hw, -⟩ | ⟨hw, hc⟩
    · simp only [Branches.First] at hw
    · simp only [Branches.Next] at hw
      obtain ⟨t', a1, a2, a3, a4, a5⟩ := endif_turn (env := env) hs (by simpa [Branches.tokens] using hl) hw.2 hc
      exact ⟨t', .head a1.turn .refl, a2, a3, by simpa [hC, dup] using a4, he.trans a5.symm, by rw [co_stack a5, hs]⟩
  | .branch d cond body more, s, s', sel, g, t, rest, C, h, hw, hs, he, hl, hC => by
    simp only [Branches.tokens, List.cons_append, List.append_assoc] at hl
    cases h with
    | skip hcond h2 =>
      rename_i cond g
      simp only [Option.getD_some] at hl
      have hb : body.WF ∧ more.Next ∧ ConditionLine cond ∧
          ((d.kind = .dir .if_ ∧ t.conds = C) ∨ (d.kind = .dir .elseif ∧ t.conds = .notActivated :: C)) := by
        rcases hw with ⟨hw, hc⟩ | ⟨hw, hc⟩
        · simp only [Branches.First] at hw
          obtain ⟨-, hk, ⟨c, e, hcl⟩, hb, hm⟩ := hw
          cases e; exact ⟨hb, hm, hcl, .inl ⟨hk, hc⟩⟩
        · simp only [Branches.Next] at hw
          obtain ⟨-, hb, ⟨hk, ⟨c, e, hcl⟩, hm⟩ | ⟨-, e, -⟩⟩ := hw
          · cases e; exact ⟨hb, hm, hcl, .inr ⟨hk, hc⟩⟩
          · cases e
      obtain ⟨hb, hm, hcl, hk⟩ := hb
      obtain ⟨t₁, a1, a2, a3, a4, a5⟩ := cond_turn hcond he hs hl hcl (startsLine_items _ _ hb (startsLine_branches (.inr (.inl hm)) _)) hC hk
      simp only [Bool.false_eq_true, if_false] at a3
      obtain ⟨t₂, b1, b2, b3, b4, b5⟩ := skip_items (env := env) body (more.tokens ++ rest) t₁ hb (by rw [co_stack a5, hs]) a2 (by rw [a3]; rfl)
      obtain ⟨t', c1, c2, c3, c4, c5, c6⟩ := choose_run more s s' sel g t₂ rest C h2 (.inr ⟨hm, by rw [b3, a3]⟩) (by rw [co_stack b5, co_stack a5, hs])
        (by rw [b5, a5, he]) b2 hC
      exact ⟨t', .head a1 (b1.turns.trans c1), c2, c3, by rw [c4, b4, a4, dup_append, List.append_assoc], c5, c6⟩
    | take hcond h2 =>
      rename_i cond g
      simp only [Option.getD_some] at hl
      have hb : body.WF ∧ more.Next ∧ ConditionLine cond ∧
          ((d.kind = .dir .if_ ∧ t.conds = C) ∨ (d.kind = .dir .elseif ∧ t.conds = .notActivated :: C)) := by
        rcases hw with ⟨hw, hc⟩ | ⟨hw, hc⟩
        · simp only [Branches.First] at hw
          obtain ⟨-, hk, ⟨c, e, hcl⟩, hb, hm⟩ := hw
          cases e; exact ⟨hb, hm, hcl, .inl ⟨hk, hc⟩⟩
        · simp only [Branches.Next] at hw
          obtain ⟨-, hb, ⟨hk, ⟨c, e, hcl⟩, hm⟩ | ⟨-, e, -⟩⟩ := hw
          · cases e; exact ⟨hb, hm, hcl, .inr ⟨hk, hc⟩⟩
          · cases e
      obtain ⟨hb, hm, hcl, hk⟩ := hb
      have hsm := startsLine_branches (.inr (.inl hm)) rest
      obtain ⟨t₁, a1, a2, a3, a4, a5⟩ := cond_turn hcond he hs hl hcl (startsLine_items _ _ hb hsm) hC hk
      simp only [if_true] at a3
      obtain ⟨t₂, b1, b2, b3, b4, b5, b6⟩ := sel_run body s s' sel g t₁ (more.tokens ++ rest) h2 hb hsm (by rw [co_stack a5, hs]) (he.trans a5.symm) a2 (by rw [a3]; rfl)
      obtain ⟨t', c1, c2, c3, c4, c5⟩ := skip_more (env := env) more rest t₂ .active C (.inl hm) b6 b2 (by rw [b3, a3]) (by simp)
      exact ⟨t', .head a1 (b1.trans c1.turns), c2, c3, by rw [c4, b4, a4, hC, dup_append, List.append_assoc], b5.trans c5.symm, by rw [co_stack c5, b6]⟩
    | otherwise h2 =>
      rename_i g
      simp only [Option.getD_none, List.nil_append] at hl
      have hb : body.WF ∧ more.Last ∧ d.kind = .dir .else_ ∧ t.conds = .notActivated :: C := by
        rcases hw with ⟨hw, hc⟩ | ⟨hw, hc⟩
        · simp only [Branches.First] at hw
          obtain ⟨-, hk, ⟨c, e, hcl⟩, hb, hm⟩ := hw
          cases e
        · simp only [Branches.Next] at hw
          obtain ⟨-, hb, ⟨hk, ⟨c, e, hcl⟩, hm⟩ | ⟨hk, e, hm⟩⟩ := hw
          · cases e
          · exact ⟨hb, hm, hk, hc⟩
      obtain ⟨hb, hm, hk, hc⟩ := hb
      have hsm := startsLine_branches (.inr (.inr hm)) rest
      obtain ⟨t₁, a1, a2, a3, a4, a5⟩ := else_turn (env := env) hs hl hk hc
      obtain ⟨t₂, b1, b2, b3, b4, b5, b6⟩ := sel_run body s s' sel g t₁ (more.tokens ++ rest) h2 hb hsm (by rw [co_stack a5, hs]) (he.trans a5.symm) a2 (by rw [a3]; rfl)
      obtain ⟨t', c1, c2, c3, c4, c5⟩ := skip_more (env := env) more rest t₂ .active C (.inr hm) b6 b2 (by rw [b3, a3]) (by simp)
      exact ⟨t', .head a1.turn (b1.trans c1.turns), c2, c3, by rw [c4, b4, a4, hC, dup_append, List.append_assoc], b5.trans c5.symm, by rw [co_stack c5, b6]⟩
end

mutual
/-- Preprocessing only the selected text has the same effect. -/
theorem sel_only_run {env : Env} : ∀ (it : Items) (s s' : PSt) (sel : List Sym) (g : List Nat) (t : PSt) (rest : List Sym), Sel env s it sel g s' →
    t.stack = [] → co s = co t → t.lexer = sel ++ rest → skipping t.conds = false →
    ∃ t', Turns env t t' ∧ t'.lexer = rest ∧ t'.conds = t.conds ∧ co s' = co t' ∧ t'.stack = []
  | .nil, s, s', sel, g, t, rest, h, hs, he, hl, hc => by
    cases h
    exact ⟨t, .refl, by simpa using hl, rfl, he, hs⟩
  | .text ts r, s, s', _, g, t, rest, h, hs, he, hl, hc => by
    cases h with
    | text h1 h2 =>
      simp only [List.append_assoc] at hl
      obtain ⟨t₁, a1, a2, a3, a4, a5⟩ := segment_run h1 t _ hc he hl
      obtain ⟨t', b1, b2, b3, b5, b6⟩ := sel_only_run r _ s' _ g t₁ rest h2 (by rw [← co_stack a5]; exact h1.1) a5 a2 (by rw [a3, hc])
      exact ⟨t', a1.trans b1, b2, by rw [b3, a3], b5, b6⟩
  | .chain c r, s, s', _, _, t, rest, h, hs, he, hl, hc => by
    cases h with
    | chain h1 h2 =>
      simp only [List.append_assoc] at hl
      obtain ⟨t₁, a1, a2, a3, a5, a6⟩ := choose_only_run c s _ _ _ t _ h1 hs he hl hc
      obtain ⟨t', b1, b2, b3, b5, b6⟩ := sel_only_run r _ s' _ _ t₁ rest h2 a6 a5 a2 (by rw [a3, hc])
      exact ⟨t', a1.trans b1, b2, by rw [b3, a3], b5, b6⟩
theorem choose_only_run {env : Env} : ∀ (c : Branches) (s s' : PSt) (sel : List Sym) (g : List Nat) (t : PSt) (rest : List Sym),
    Choose env s c sel g s' → t.stack = [] → co s = co t → t.lexer = sel ++ rest → skipping t.conds = false →
    ∃ t', Turns env t t' ∧ t'.lexer = rest ∧ t'.conds = t.conds ∧ co s' = co t' ∧ t'.stack = []
  | .done e, s, s', sel, g, t, rest, h, hs, he, hl, hc => by
    cases h
    exact ⟨t, .refl, by simpa using hl, rfl, he, hs⟩
  | .branch d cond body more, s, s', sel, g, t, rest, h, hs, he, hl, hc => by
    cases h with
    | skip hcond h2 => exact choose_only_run more s s' sel _ t rest h2 hs he hl hc
    | take hcond h2 => exact sel_only_run body s s' sel _ t rest h2 hs he hl hc
    | otherwise h2 => exact sel_only_run body s s' sel _ t rest h2 hs he hl hc
end

theorem turns_finish {env : Env} {s s' : PSt} (h : Turns env s s') {r : Final} :
    (∃ f₀, ∀ f, f₀ ≤ f → pLoop env f s' = some r) → ∃ f₀, ∀ f, f₀ ≤ f → pLoop env f s = some r := by
  induction h with
  | refl => exact id
  | head h1 _ ih =>
    intro h
    obtain ⟨f₁, h2⟩ := ih h
    obtain ⟨t, s₁, f₂, h3, h4⟩ := h1
    refine ⟨max f₁ f₂ + 1, fun f hf => ?_⟩
    obtain ⟨g, rfl⟩ : ∃ g, f = g + 1 := ⟨f - 1, by omega⟩
    simp only [pLoop, h3, h4 g (by omega)]
    exact h2 g (by omega)

theorem visible_joinLines : ∀ ls : List Str, visible (joinLines ls) = visible ls.flatten
  | [] => rfl
  | [l] => by simp [joinLines]
  | l :: m :: ls => by
    have := visible_joinLines (m :: ls)
    have e : joinLines (l :: m :: ls) = l ++ '\n' :: joinLines (m :: ls) := rfl
    rw [e, visible_append, List.flatten_cons, visible_append, ← this]
    rfl

theorem joinLines_eq : ∀ ls : List Str, joinLines ls = ['\n'].intercalate ls
  | [] => rfl
  | [l] => by simp [joinLines]
  | l :: m :: ls => by
    have e : joinLines (l :: m :: ls) = l ++ '\n' :: joinLines (m :: ls) := rfl
    rw [e, joinLines_eq (m :: ls)]
    simp

theorem eof_finish {env : Env} {t : PSt} {e : Sym} (hs : t.stack = []) (hl : t.lexer = [e]) (hk : e.kind = .eof) (hc : skipping t.conds = false) :
    ∃ r, (∃ f₀, ∀ f, f₀ ≤ f → pLoop env f t = some (.result r)) ∧ visible (joinLines r.out) = visible (t.out.flatten ++ t.line) ∧
      r.macros = t.macros ∧ sl r = sl t := by
  obtain ⟨t₁, h1, h2, h3, h4, h5⟩ := pNext_lexer hs hl
  have hn : noteArg e.tok t₁ = t₁ := rfl
  refine ⟨pushLine (pushWs e t₁), ⟨1, fun f hf => ?_⟩, ?_, ?_, ?_⟩
  · obtain ⟨g, rfl⟩ : ∃ g, f = g + 1 := ⟨f - 1, by omega⟩
    simp only [pLoop, h1, pStep, hn, h3, hc, Bool.false_eq_true, if_false]
    unfold processActive
    simp only [show e.tok.kind = e.kind from rfl, hk]; rfl
  · rw [← co_line h5, visible_joinLines]
    simp [pushLine, pushWs, visible_append, visible_blanks]
  · exact (co_macros h5 : t₁.macros = t.macros)
  · simp [sl, pushLine, pushWs, h4]

/-! ### C18 -/

/-- State of the preprocessor before the first token. -/
def start (macros : Macros) : PSt := { lexer := [], macros := macros }

/-- **C18.** Preprocessing a well-nested file gives what preprocessing the selected text alone gives, up to white space: the same
text and the same macros. The selected text is that of the branches whose condition is the first true one of their chain (`Choose`),
all enclosing branches being selected (`Sel`). -/
theorem conditional_compilation (env : Env) (macros : Macros) (file : Items) (sel : List Sym) (grey : List Nat) (s' : PSt) (eof : Sym)
    (hw : file.WF) (hk : eof.kind = .eof) (hp : eof.inPre = false) (h : Sel env (start macros) file sel grey s') :
    ∃ r₁ r₂, Gives env macros (file.tokens ++ [eof]) (.result r₁) ∧ Gives env macros (sel ++ [eof]) (.result r₂) ∧
      visible (['\n'].intercalate r₁.out) = visible (['\n'].intercalate r₂.out) ∧ r₁.macros = r₂.macros := by
  simp only [← joinLines_eq]
  obtain ⟨t₁, a1, a2, a3, a4, a5, a6⟩ := sel_run file _ s' sel grey { lexer := file.tokens ++ [eof], macros := macros } [eof] h hw
    (by intro s hs; simp at hs; subst hs; exact hp) rfl rfl rfl rfl
  obtain ⟨t₂, b1, b2, b3, b5, b6⟩ := sel_only_run file _ s' sel grey { lexer := sel ++ [eof], macros := macros } [eof] h rfl rfl rfl rfl
  obtain ⟨r₁, c1, c2, c3, c4⟩ := eof_finish (env := env) a6 a2 hk (by rw [a3]; rfl)
  obtain ⟨r₂, d1, d2, d3, d4⟩ := eof_finish (env := env) b6 b2 hk (by rw [b3]; rfl)
  have e := a5.symm.trans b5
  exact ⟨r₁, r₂, turns_finish a1 c1, turns_finish b1 d1, by rw [c2, d2, co_line e], by rw [c3, d3, co_macros e]⟩

/-! ### C28 -/

/-- A line is in one of the ranges. -/
def Covers (rs : List Rng) (n : Nat) : Prop := ∃ r ∈ rs, r.s.line ≤ n ∧ n ≤ r.e.line

theorem covers_cons (r : Rng) (rs : List Rng) (n : Nat) : Covers (r :: rs) n ↔ (r.s.line ≤ n ∧ n ≤ r.e.line) ∨ Covers rs n := by
  simp [Covers]

theorem merge_covers (rs : List Rng) : ∀ (acc : List Rng), (∀ r ∈ acc, r.s.line ≤ r.e.line) → (∀ r ∈ rs, r.s.line ≤ r.e.line) → ∀ n,
    Covers (mergeRanges acc rs) n ↔ Covers acc n ∨ Covers rs n := by
  induction rs with
  | nil => intro acc _ _ n; cases acc <;> simp [mergeRanges, Covers]
  | cons r rs ih =>
    intro acc ha hr n
    have hr0 := hr r (by simp)
    have hrs : ∀ x ∈ rs, x.s.line ≤ x.e.line := fun x hx => hr x (by simp [hx])
    cases acc with
    | nil =>
      simp only [mergeRanges]
      rw [ih [r] (by simpa using hr0) hrs, covers_cons, covers_cons]
      simp [Covers]
    | cons old acc =>
      have ho := ha old (by simp)
      have hacc : ∀ x ∈ acc, x.s.line ≤ x.e.line := fun x hx => ha x (by simp [hx])
      simp only [mergeRanges]
      split
      · rename_i hm
        rw [ih _ (by intro x hx; rcases List.mem_cons.1 hx with rfl | hx; show old.s.line ≤ r.e.line; omega; exact hacc x hx) hrs,
          covers_cons, covers_cons, covers_cons]
        have : (old.s.line ≤ n ∧ n ≤ r.e.line) ↔ (old.s.line ≤ n ∧ n ≤ old.e.line) ∨ (r.s.line ≤ n ∧ n ≤ r.e.line) := by omega
        simp only [this, or_assoc, or_left_comm]
      · rw [ih _ (by intro x hx; rcases List.mem_cons.1 hx with rfl | hx; exact hr0; exact ha x hx) hrs,
          covers_cons, covers_cons, covers_cons]
        simp only [or_assoc, or_left_comm]

theorem inactive_covers (skipped : List Rng) (h : ∀ r ∈ skipped, r.s.line ≤ r.e.line) (n : Nat) :
    Covers (inactiveRanges skipped) n ↔ Covers skipped n := by
  have := merge_covers skipped [] (by simp) h n
  simp only [Covers, List.not_mem_nil, false_and, exists_false, false_or] at this ⊢
  rw [← this]
  unfold inactiveRanges
  simp only [List.mem_map, List.mem_reverse]
  constructor
  · rintro ⟨r, ⟨r', h1, rfl⟩, h2⟩; exact ⟨r', h1, h2⟩
  · rintro ⟨r', h1, h2⟩; exact ⟨_, ⟨r', h1, rfl⟩, h2⟩

/-- Each range starts after a gap. -/
def Gaps : List Rng → Prop
  | [] => True
  | [_] => True
  | a :: b :: rs => a.e.line + 1 < b.s.line ∧ Gaps (b :: rs)

/-- The same, last range first. -/
def GapsRev : List Rng → Prop
  | [] => True
  | [_] => True
  | b :: a :: rs => a.e.line + 1 < b.s.line ∧ GapsRev (a :: rs)

theorem merge_gaps (rs : List Rng) : ∀ (acc : List Rng), GapsRev acc → (∀ r ∈ rs, r.s.line ≤ r.e.line) →
    (rs.Pairwise fun a b => a.e.line < b.s.line) → (∀ old ∈ acc.head?, ∀ r ∈ rs, old.e.line < r.s.line) → GapsRev (mergeRanges acc rs) := by
  induction rs with
  | nil => intro acc ha _ _ _; cases acc <;> simpa [mergeRanges] using ha
  | cons r rs ih =>
    intro acc ha hv hp hl
    rw [List.pairwise_cons] at hp
    have hv' : ∀ x ∈ rs, x.s.line ≤ x.e.line := fun x hx => hv x (by simp [hx])
    cases acc with
    | nil =>
      simp only [mergeRanges]
      refine ih _ trivial hv' hp.2 ?_
      intro old ho x hx
      simp only [List.head?_cons, Option.mem_def, Option.some.injEq] at ho
      subst ho; exact hp.1 x hx
    | cons old acc =>
      simp only [mergeRanges]
      have h0 := hl old rfl r (by simp)
      split
      · rename_i hm
        refine ih _ ?_ hv' hp.2 ?_
        · cases acc with
          | nil => trivial
          | cons a acc => exact ha
        · intro o ho x hx
          simp only [List.head?_cons, Option.mem_def, Option.some.injEq] at ho
          subst ho; exact hp.1 x hx
      · refine ih _ ⟨by omega, ha⟩ hv' hp.2 ?_
        intro o ho x hx
        simp only [List.head?_cons, Option.mem_def, Option.some.injEq] at ho
        subst ho; exact hp.1 x hx

theorem gaps_reverse (l : List Rng) (f : Rng → Rng) (hf : ∀ r, (f r).s.line = r.s.line ∧ (f r).e.line = r.e.line) : ∀ acc : List Rng,
    GapsRev l → Gaps (acc.map f) → (∀ b ∈ acc.head?, ∀ a ∈ l.head?, a.e.line + 1 < b.s.line) → Gaps ((l.reverse ++ acc).map f) := by
  induction l with
  | nil => intro acc _ h _; simpa using h
  | cons a l ih =>
    intro acc h1 h2 h3
    rw [List.reverse_cons, List.append_assoc]
    refine ih (a :: acc) ?_ ?_ ?_
    · cases l with
      | nil => trivial
      | cons b l => exact h1.2
    · cases acc with
      | nil => trivial
      | cons b acc =>
        refine ⟨?_, h2⟩
        rw [(hf a).2, (hf b).1]
        exact h3 b rfl a rfl
    · intro b hb c hc
      simp only [List.head?_cons, Option.mem_def, Option.some.injEq] at hb
      subst hb
      cases l with
      | nil => simp at hc
      | cons d l =>
        simp only [List.head?_cons, Option.mem_def, Option.some.injEq] at hc
        subst hc; exact h1.1

/-- **C28**, in part: the lines covered by the inactive ranges are exactly the lines that end in text that is not selected. What is
missing: the first lines of a skipped token that spans several lines. -/
theorem inactive_lines_partial (env : Env) (macros : Macros) (file : Items) (sel : List Sym) (grey : List Nat) (s' : PSt) (eof : Sym)
    (hw : file.WF) (hk : eof.kind = .eof) (hp : eof.inPre = false) (h : Sel env (start macros) file sel grey s') :
    ∃ r, Gives env macros (file.tokens ++ [eof]) (.result r) ∧ (∀ n, Covers (inactiveRanges r.skipped) n ↔ n ∈ grey) ∧
      (grey.Pairwise (· < ·) → Gaps (inactiveRanges r.skipped)) := by
  obtain ⟨t₁, a1, a2, a3, a4, a5, a6⟩ := sel_run file _ s' sel grey { lexer := file.tokens ++ [eof], macros := macros } [eof] h hw
    (by intro s hs; simp at hs; subst hs; exact hp) rfl rfl rfl rfl
  obtain ⟨r₁, c1, c2, c3, c4⟩ := eof_finish (env := env) a6 a2 hk (by rw [a3]; rfl)
  have hsl : r₁.skipped.map (fun r => (r.s.line, r.e.line)) = grey.map fun n => (n, n) := by
    have : sl r₁ = dup grey := by rw [c4, a4]; rfl
    exact this
  have hv : ∀ r ∈ r₁.skipped, r.s.line = r.e.line := by
    intro r hr
    have : (r.s.line, r.e.line) ∈ grey.map fun n => (n, n) := by rw [← hsl]; exact List.mem_map.2 ⟨r, hr, rfl⟩
    obtain ⟨n, -, hn⟩ := List.mem_map.1 this
    simp only [Prod.mk.injEq] at hn
    omega
  refine ⟨r₁, turns_finish a1 c1, fun n => ?_, fun hg => ?_⟩
  · rw [inactive_covers _ (fun r hr => Nat.le_of_eq (hv r hr))]
    constructor
    · rintro ⟨r, hr, h1, h2⟩
      have h3 := hv r hr
      have : (r.s.line, r.e.line) ∈ grey.map fun n => (n, n) := by rw [← hsl]; exact List.mem_map.2 ⟨r, hr, rfl⟩
      obtain ⟨m, hm, hn⟩ := List.mem_map.1 this
      simp only [Prod.mk.injEq] at hn
      have : m = n := by omega
      subst this; exact hm
    · intro hn
      have : (n, n) ∈ r₁.skipped.map fun r => (r.s.line, r.e.line) := by rw [hsl]; exact List.mem_map.2 ⟨n, hn, rfl⟩
      obtain ⟨r, hr, e⟩ := List.mem_map.1 this
      simp only [Prod.mk.injEq] at e
      exact ⟨r, hr, by omega, by omega⟩
  · unfold inactiveRanges
    have hlines : r₁.skipped.map (fun r => r.s.line) = grey := by
      have := congrArg (List.map Prod.fst) hsl
      simpa [List.map_map, Function.comp_def] using this
    have hpw : r₁.skipped.Pairwise fun a b => a.e.line < b.s.line := by
      have h5 : r₁.skipped.Pairwise fun a b => a.s.line < b.s.line := by
        rw [← hlines] at hg
        exact List.pairwise_map.1 hg
      exact h5.imp_of_mem (fun ha _ hab => by rw [← hv _ ha]; exact hab)
    have := gaps_reverse (mergeRanges [] r₁.skipped) (fun r => ⟨⟨r.s.line, 0⟩, r.e⟩) (fun r => ⟨rfl, rfl⟩) []
      (merge_gaps r₁.skipped [] trivial (fun r hr => Nat.le_of_eq (hv r hr)) hpw (by simp)) trivial (by simp)
    simpa using this

/-! ### A concrete file -/

/-- A token of one line. -/
def sy (k : Kind) (t : String) (line : Nat) (pre : Bool := false) (v : Option Int := none) : Sym :=
  ⟨k, t.toList, ⟨⟨line, 0⟩, ⟨line, t.length⟩⟩, ⟨0, 0⟩, v, pre⟩

/-- The line break that ends a line. -/
def nl (line : Nat) (pre : Bool := false) : Sym := ⟨.newline, ['\n'], ⟨⟨line, 5⟩, ⟨line + 1, 0⟩⟩, ⟨0, 0⟩, none, pre⟩

/-- `#define A 1` is in force. -/
def oneMacro : Macros := fun x => if x = "A".toList then some ⟨0, 0, none, 0, [⟨.intLit, "1".toList, ⟨0, 0⟩, some 1⟩]⟩ else none

def plainEnv : Env := ⟨.release, 0, fun _ m => m⟩

/-- ```
#if A
x
#if 0
y
#endif
#else
z
#endif
``` -/
def sample : Items :=
  .chain
    (.branch (sy (.dir .if_) "#if" 0) (some [sy .ident "A" 0 true, nl 0 true])
      (.text [sy .ident "x" 1, nl 1]
        (.chain
          (.branch (sy (.dir .if_) "#if" 2) (some [sy .intLit "0" 2 true (some 0), nl 2 true]) (.text [sy .ident "y" 3, nl 3] .nil)
            (.done (sy (.dir .endif) "#endif" 4)))
          (.text [nl 4] .nil)))
      (.branch (sy (.dir .else_) "#else" 5) none (.text [nl 5, sy .ident "z" 6, nl 6] .nil) (.done (sy (.dir .endif) "#endif" 7))))
    (.text [nl 7] .nil)

theorem sample_wf : sample.WF := by
  simp [sample, Items.WF, Branches.First, Branches.Next, Branches.Last, StartsLine, ConditionLine, Plain, sy, nl]

/-- A turn on a token of the lexer in active text. -/
theorem active_turn {env : Env} {s s' : PSt} {x : Sym} {l : List Sym} (hs : s.stack = []) (hx : s.expanded = none) (hl : s.lexer = x :: l)
    (hc : skipping s.conds = false) (h : ∀ f, processActive env f x.tok { s with lexer := l } = .next s') : Turn env s s' := by
  refine ⟨x.tok, { s with lexer := l }, 0, ?_, fun f _ => ?_⟩
  · unfold pNext
    simp only [hs, hl, hx]
  · unfold pStep
    have hn : noteArg x.tok { s with lexer := l } = { s with lexer := l } := rfl
    simp only [hn, hc, Bool.false_eq_true, if_false]
    exact h f

theorem segment_nl (s : PSt) (hs : s.stack = []) (hx : s.expanded = none) (n : Nat) :
    Segment plainEnv [nl n] s (resetLine (pushLine (pushWs (nl n) s))) := by
  refine ⟨hs, fun rest conds sk hc => .head (active_turn (l := rest) hs hx rfl hc fun f => rfl) .refl⟩

theorem segment_word (s : PSt) (hs : s.stack = []) (hx : s.expanded = none) (hi : s.intr = none) (t : String) (n : Nat)
    (hm : s.macros t.toList = none) : Segment plainEnv [sy .ident t n] s (pushSym (sy .ident t n) s) := by
  refine ⟨?_, fun rest conds sk hc => .head (active_turn (l := rest) hs hx rfl hc fun f => ?_) .refl⟩
  · simp [pushSym, sy, pushWs, hs]
  · simp only [processActive, show (sy .ident t n).tok.kind = .ident from rfl, processIdent, hi, reduceCtorEq, if_false,
      show (sy .ident t n).tok.text = t.toList from rfl, hm]
    simp [pushSym, pushWs, sy, Sym.tok, hi]

theorem Segment.append {env : Env} {a b : List Sym} {s s₁ s' : PSt} (h : Segment env a s s₁) (h' : Segment env b s₁ s') :
    Segment env (a ++ b) s s' := by
  refine ⟨h'.1, fun rest conds sk hc => ?_⟩
  have h1 := h.2 (b ++ rest) conds sk hc
  rw [← List.append_assoc] at h1
  exact h1.trans (h'.2 rest conds sk hc)

theorem condition_of {env : Env} {s : PSt} {cond : List Sym} {b : Bool} (f : Nat) (h : evaluate env.profile s.macros s.disabled cond f = some (.ok b))
    (he : (eEffects env.profile s.macros f ⟨cond, [], [], [], true, false, s.disabled⟩).1 = s.disabled) : Condition env s cond b := by
  refine ⟨.ok b, f, fun g hg => ?_, by simp, by cases b <;> simp⟩
  obtain ⟨k, rfl⟩ := Nat.le.dest hg
  obtain ⟨h1, h2⟩ := evaluate_mono _ _ _ _ f k _ h
  rw [h1, h2]
  exact ⟨rfl, he⟩

/-- The hypotheses of the theorems hold of the sample: `x` is selected, lines 3, 5 and 6 are not. -/
theorem sample_sel : ∃ s', Sel plainEnv (start oneMacro) sample [sy .ident "x" 1, nl 1, nl 4, nl 7] [3, 5, 6] s' := by
  have hA : Condition plainEnv (start oneMacro) [sy .ident "A" 0 true, nl 0 true] true := condition_of 20 (by rfl) (by rfl)
  have h1 : Segment plainEnv [sy .ident "x" 1, nl 1] (start oneMacro) _ :=
    Segment.append (segment_word (start oneMacro) rfl rfl rfl "x" 1 rfl) (segment_nl (pushSym (sy .ident "x" 1) (start oneMacro)) rfl rfl 1)
  have h0 : Condition plainEnv (resetLine (pushLine (pushWs (nl 1) (pushSym (sy .ident "x" 1) (start oneMacro)))))
    [sy .intLit "0" 2 true (some 0), nl 2 true] false := condition_of 20 (by rfl) (by rfl)
  exact ⟨_, Sel.chain (sel₁ := [sy .ident "x" 1, nl 1, nl 4]) (g₁ := [3, 5, 6]) (g₂ := [])
    (Choose.take (g := [3]) hA
      (Sel.text h1 (Sel.chain (sel₁ := []) (g₁ := [3]) (g₂ := []) (Choose.skip (g := []) h0 Choose.none) (Sel.text (segment_nl _ rfl rfl 4) Sel.nil))))
    (Sel.text (segment_nl _ rfl rfl 7) Sel.nil)⟩

example : ∃ r₁ r₂, Gives plainEnv oneMacro (sample.tokens ++ [sy .eof "" 8]) (.result r₁) ∧
    Gives plainEnv oneMacro ([sy .ident "x" 1, nl 1, nl 4, nl 7] ++ [sy .eof "" 8]) (.result r₂) ∧
      visible (['\n'].intercalate r₁.out) = visible (['\n'].intercalate r₂.out) ∧ r₁.macros = r₂.macros :=
  let ⟨s', h⟩ := sample_sel
  conditional_compilation plainEnv oneMacro sample _ _ s' _ sample_wf rfl rfl h

example : ∃ r, Gives plainEnv oneMacro (sample.tokens ++ [sy .eof "" 8]) (.result r) ∧ (∀ n, Covers (inactiveRanges r.skipped) n ↔ n ∈ [3, 5, 6]) ∧
    Gaps (inactiveRanges r.skipped) := by
  obtain ⟨s', h⟩ := sample_sel
  obtain ⟨r, h1, h2, h3⟩ := inactive_lines_partial plainEnv oneMacro sample _ _ s' (sy .eof "" 8) sample_wf rfl rfl h
  exact ⟨r, h1, h2, h3 (by decide)⟩

theorem gives_of {env : Env} {macros : Macros} {tokens : List Sym} {r : Final} (f : Nat) (h : preprocess env f macros tokens = some r) :
    Gives env macros tokens r :=
  ⟨f, fun g hg => by obtain ⟨k, rfl⟩ := Nat.le.dest hg; exact pLoop_mono env f _ r h k⟩

/-- `#if 0`, a comment on lines 1 and 2, `#endif`. -/
def commented : List Sym :=
  [sy (.dir .if_) "#if" 0, sy .intLit "0" 0 true (some 0), nl 0 true, ⟨.blockComment, "/* a\nb */".toList, ⟨⟨1, 0⟩, ⟨2, 4⟩⟩, ⟨0, 0⟩, none, false⟩,
   nl 2, sy (.dir .endif) "#endif" 3, nl 3, sy .eof "" 4]

/-- **C28 is violated**: line 1, the first line of a skipped comment, is not reported as inactive. -/
theorem inactive_comment_refuted : ∃ r, Gives plainEnv oneMacro commented (.result r) ∧ ¬ Covers (inactiveRanges r.skipped) 1 := by
  refine ⟨_, gives_of 20 rfl, ?_⟩
  show ¬ Covers [⟨⟨2, 0⟩, ⟨2, 5⟩⟩] 1
  simp [Covers]

/-- `#if 0`, `#if 0`, `#endif`, `y`, `#endif`, on lines 0 to 4. -/
def nested : List Sym :=
  [sy (.dir .if_) "#if" 0, sy .intLit "0" 0 true (some 0), nl 0 true, sy (.dir .if_) "#if" 1, sy .intLit "0" 1 true (some 0), nl 1 true,
   sy (.dir .endif) "#endif" 2, nl 2, sy .ident "y" 3, nl 3, sy (.dir .endif) "#endif" 4, nl 4, sy .eof "" 5]

/-- **C28 is violated**: the skipped lines 1, 2 and 3 are reported as two ranges, 1 to 2 and 2 to 3. -/
theorem inactive_merge_refuted : ∃ r, Gives plainEnv oneMacro nested (.result r) ∧
    (inactiveRanges r.skipped).map (fun r => (r.s.line, r.e.line)) = [(1, 2), (2, 3)] :=
  ⟨_, gives_of 20 rfl, by decide⟩

end Verif.Props.Conditional
