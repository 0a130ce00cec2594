import Verif.Props.OffsetsLine
import Verif.Props.Define
import Verif.Props.Lines
/-!
# C29, from the source to the answer: files with directives
-/

namespace Verif.Props.Offsets
open Verif.Pre Verif.Pre.Spec Verif.Props.Position Verif.Props.Define
open Verif.Props.Lines (breaks_append breaks_blanks)

/-! ### Conditions -/

theorem expand_cond {ms : Macros} {s : Sym} (hk : s.kind = .ident) (hm : Simple CondBody ms s.text) (hd : 0 ≤ s.delta.col) (lexer : List Sym)
    {f : Nat} {o : XOut} {d : Nat} (h : expandIdentifier ms false f s.tok lexer [] [] = some o) (hv : o.value = .ok d) :
    o.lexer = lexer ∧ o.disabled = [] ∧ ∀ t ∈ o.stack, CondBody t.kind ∧ t.kind ≠ .ident := by
  have hinit := start_xi (K := CondBody) (ms := ms) (O := Own) (fun _ => rfl) ⟨trivial, by simp⟩ hk hd false lexer []
  unfold expandIdentifier at h
  cases hx : xLoop ms false s.tok f ⟨[[⟨s.tok, s.tok.sym.delta⟩]], [], lexer, [], [], 0⟩ with
  | none => rw [hx] at h; simp at h
  | some r =>
    rw [hx] at h
    rcases xLoop_xi (fun _ => rfl) (closed_needs hm) hd _ _ _ hinit hx with ⟨st, rfl, hi, -⟩ | ⟨-, e, st, rfl, -⟩
    · simp only [Option.some.injEq] at h
      subst h
      refine ⟨hi.lexer, hi.disabled, fun t ht => ?_⟩
      simp only [hi.popped, List.reverse_nil, List.append_nil] at ht
      exact ⟨(hi.left t ht).1.1, (hi.left t ht).2 rfl⟩
    · simp only [Option.some.injEq] at h
      subst h
      cases hv

/-- Tokens other than names change neither what is left to read nor the disabled macros. -/
theorem eStep_static {p : Profile} {ms : Macros} {f : Nat} {s : Sym} {st st' : ESt} (hk : CondKind s.kind ∨ s.kind = .newline) (hi : s.kind ≠ .ident)
    (h : eStep p ms f s st = some (.ok st')) : st'.iter = st.iter ∧ st'.stack = st.stack ∧ st'.disabled = st.disabled ∧
      st'.lfd = (if s.kind = .defined then true else st.lfd) ∧ eOffset ms f s st = [] := by
  have key : ∀ k, s.kind = k → (CondKind k ∨ k = .newline) → k ≠ .ident → st'.iter = st.iter ∧ st'.stack = st.stack ∧ st'.disabled = st.disabled ∧
      st'.lfd = (if k = .defined then true else st.lfd) ∧ eOffset ms f s st = [] := by
    intro k e hk hi
    unfold eStep at h
    unfold eOffset
    rw [e] at h
    rw [e]
    cases k with
    | rparen =>
      simp only [Option.some.injEq] at h
      split at h <;> simp only [Res.ok.injEq, reduceCtorEq] at h
      subst h; exact ⟨rfl, rfl, rfl, rfl, rfl⟩
    | op o =>
      simp only [Option.some.injEq] at h
      split at h
      · simp at h
      · split at h <;> simp only [Res.ok.injEq, reduceCtorEq] at h
        subst h; exact ⟨rfl, rfl, rfl, rfl, rfl⟩
    | ident => exact absurd rfl hi
    | strLit => simp at h
    | otherLit => simp at h
    | lparen | defined | true_ | false_ | intLit | numLit | charLit | blockComment | lineComment | newline =>
      simp only [Option.some.injEq, Res.ok.injEq] at h
      subst h; exact ⟨rfl, rfl, rfl, rfl, rfl⟩
    | _ => rcases hk with hk | hk <;> first | exact hk.elim | cases hk
  exact key _ rfl hk hi

theorem conditional_cons {ms : Macros} {d : Bool} {s : Sym} {ss : List Sym} (h : Conditional ms d (s :: ss)) : CondKind s.kind ∧
    (s.kind = .ident → d = false → ms s.text ≠ none → Simple CondBody ms s.text) ∧
      Conditional ms (if s.kind = .defined then true else if s.kind = .ident then false else d) ss := h

/-- The names of macros in a condition are recorded. -/
theorem cond_effects {p : Profile} {ms : Macros} : ∀ (f : Nat) (st st' : ESt) (c tail : List Sym), eLoop p ms f st = some (.ok st') → st.iter = c ++ tail →
    Conditional ms st.lfd c → (∀ t ∈ tail, t.kind = .newline) → (∀ s ∈ c, 0 ≤ s.delta.col) → st.disabled = [] →
    (∀ t ∈ st.stack, CondBody t.kind ∧ t.kind ≠ .ident) → (eEffects p ms f st).1 = [] ∧
      (eEffects p ms f st).2.map (fun e => (e.1, mark e.2)) = (usesOf ms c).map (fun u => (u.name.range.s.line, useMark ms u.name)) := by
  intro f
  induction f with
  | zero => intro st st' c tail h; simp [eLoop] at h
  | succ f ih =>
    intro st st' c tail h hit hc htail hcol hdis hstk
    unfold eLoop at h
    unfold eEffects
    cases hst : st.stack with
    | cons t ts =>
      have hn : eNext st = some (t.sym, { st with stack := ts }) := by simp only [eNext, hst]
      simp only [hn] at h ⊢
      cases hs : eStep p ms f t.sym { st with stack := ts } with
      | none => simp only [hs] at h; cases h
      | some res =>
        cases res with
        | err => simp only [hs] at h; cases h
        | panic => simp only [hs] at h; cases h
        | ok st2 =>
          simp only [hs] at h ⊢
          have ht := hstk t (by rw [hst]; simp)
          obtain ⟨e1, e2, e3, e4, e5⟩ := eStep_static (Or.inl ht.1.1) ht.2 hs
          have hl : st2.lfd = st.lfd := by rw [e4]; exact if_neg ht.1.2
          obtain ⟨r1, r2⟩ := ih st2 st' c tail h (by rw [e1]; exact hit) (by rw [hl]; exact hc) htail hcol (by rw [e3]; exact hdis)
            (fun x hx => hstk x (by rw [hst]; rw [e2] at hx; exact List.mem_cons_of_mem _ hx))
          exact ⟨r1, by rw [e5]; exact r2⟩
    | nil =>
      cases c with
      | nil =>
        cases tail with
        | nil =>
          have hn : eNext st = none := by simp only [eNext, hst, hit, List.append_nil]
          simp only [hn] at h ⊢
          exact ⟨hdis, by simp [usesOf]⟩
        | cons t tail =>
          have hn : eNext st = some (t, { st with iter := tail }) := by simp only [eNext, hst, hit, List.nil_append]
          simp only [hn] at h ⊢
          cases hs : eStep p ms f t { st with iter := tail } with
          | none => simp only [hs] at h; cases h
          | some res =>
            cases res with
            | err => simp only [hs] at h; cases h
            | panic => simp only [hs] at h; cases h
            | ok st2 =>
              simp only [hs] at h ⊢
              have ht := htail t (by simp)
              obtain ⟨e1, e2, e3, e4, e5⟩ := eStep_static (Or.inr ht) (by rw [ht]; simp) hs
              obtain ⟨r1, r2⟩ := ih st2 st' [] tail h (by rw [e1]; rfl) trivial (fun x hx => htail x (by simp [hx])) (by simp) (by rw [e3]; exact hdis)
                (fun x hx => hstk x (by rw [e2] at hx; exact hx))
              exact ⟨r1, by rw [e5]; exact r2⟩
      | cons s c =>
        have hn : eNext st = some (s, { st with iter := c ++ tail }) := by simp only [eNext, hst, hit, List.cons_append]
        obtain ⟨h1, h2, h3⟩ := conditional_cons hc
        have hcons : usesOf ms (s :: c) = usesOf ms [s] ++ usesOf ms c := by unfold usesOf; rw [← List.map_append, ← List.filter_append]; rfl
        simp only [hn] at h ⊢
        cases hs : eStep p ms f s { st with iter := c ++ tail } with
        | none => simp only [hs] at h; cases h
        | some res =>
          cases res with
          | err => simp only [hs] at h; cases h
          | panic => simp only [hs] at h; cases h
          | ok st2 =>
            simp only [hs] at h ⊢
            by_cases hk : s.kind = .ident
            · -- a name
              suffices hsuff : st2.iter = c ++ tail ∧ st2.lfd = false ∧ st2.disabled = [] ∧ (∀ t ∈ st2.stack, CondBody t.kind ∧ t.kind ≠ .ident) ∧
                  (eOffset ms f s { st with iter := c ++ tail }).map (fun e => (e.1, mark e.2)) =
                    (usesOf ms [s]).map (fun u => (u.name.range.s.line, useMark ms u.name)) by
                obtain ⟨e1, e2, e3, e4, e5⟩ := hsuff
                rw [if_neg (by rw [hk]; simp), if_pos hk] at h3
                obtain ⟨r1, r2⟩ := ih st2 st' c tail h e1 (by rw [e2]; exact h3) htail (fun x hx => hcol x (by simp [hx])) e3 e4
                exact ⟨r1, by rw [hcons, List.map_append, List.map_append, e5]; exact congrArg _ r2⟩
              have hx : ∀ (o : XOut) (d : Nat), expandIdentifier ms false f s.tok (c ++ tail) [] [] = some o → o.value = .ok d → st.lfd = false →
                  o.lexer = c ++ tail ∧ o.disabled = [] ∧ ∀ t ∈ o.stack, CondBody t.kind ∧ t.kind ≠ .ident := by
                intro o d ho hv hl
                refine expand_cond hk ?_ (hcol s (by simp)) _ ho hv
                by_cases hmac : ms s.text = none
                · exact simple_none hmac
                · exact h2 hk hl hmac
              unfold eStep at hs
              unfold eOffset
              simp only [hk] at hs ⊢
              cases hl : st.lfd with
              | true =>
                simp only [hl, if_true, Option.some.injEq, Res.ok.injEq] at hs ⊢
                subst hs
                refine ⟨rfl, rfl, hdis, by simp [hst], ?_⟩
                cases hmac : ms s.text with
                | none => simp [usesOf, IsUse, hmac]
                | some m => simp [usesOf, IsUse, hmac, hk, mark, useMark]
              | false =>
                simp only [hl, Bool.false_eq_true, if_false, hdis, List.not_mem_nil, hst] at hs ⊢
                have hexp : eStep.expandHere ms f s { st with iter := c ++ tail } = some (.ok st2) := by
                  cases hmac : ms s.text with
                  | none => rw [hmac] at hs; simpa [hdis, hst, hl] using hs
                  | some m => rw [hmac] at hs; simpa [hdis, hst, hl] using hs
                unfold eStep.expandHere at hexp
                simp only [hdis, hst] at hexp
                cases ho : expandIdentifier ms false f s.tok (c ++ tail) [] [] with
                | none => rw [ho] at hexp; cases hexp
                | some o =>
                  rw [ho] at hexp
                  cases hv : o.value with
                  | error e => simp only [hv] at hexp; cases hexp
                  | ok d =>
                    simp only [hv, Option.some.injEq, Res.ok.injEq] at hexp
                    obtain ⟨g1, g2, g3⟩ := hx o d ho hv hl
                    subst hexp
                    refine ⟨g1, hl, g2, g3, ?_⟩
                    cases hmac : ms s.text with
                    | none => simp [usesOf, IsUse, hmac]
                    | some m => simp [usesOf, IsUse, hmac, hk, mark, useMark, hv]
            · obtain ⟨e1, e2, e3, e4, e5⟩ := eStep_static (Or.inl h1) hk hs
              rw [if_neg hk] at h3
              obtain ⟨r1, r2⟩ := ih st2 st' c tail h e1 (by rw [e4]; exact h3) htail (fun x hx => hcol x (by simp [hx]))
                (by rw [e3]; exact hdis) (fun x hx => hstk x (by rw [e2] at hx; exact hx))
              have hu : usesOf ms [s] = [] := by simp [usesOf, IsUse, hk]
              exact ⟨r1, by rw [e5, hcons, hu]; exact r2⟩

theorem takeDirective_split : ∀ (a rest : List Sym), InDirective a → NewLine rest → takeDirective (a ++ rest) = (a, rest)
  | [], rest, _, h => by
    cases rest with
    | nil => rfl
    | cons s ss =>
      have : s.inPre = false := h s (by simp)
      simp [takeDirective, this]
  | s :: a, rest, hin, h => by
    have h1 : s.inPre = true := hin s (by simp)
    have := takeDirective_split a rest (fun x hx => hin x (by simp [hx])) h
    simp [takeDirective, h1, this]

/-! ### Definitions -/

/-- The tokens of a definition one after the other. -/
def dRun : List Sym → DSt → Option DSt
  | [], d => some d
  | s :: ss, d => (dStep s d).bind (dRun ss)

/-- What is copied of the tokens of a directive. -/
def copied : List Sym → Str
  | [] => []
  | s :: ss => blanks s.delta.col ++ ((if s.kind = .newline then [] else s.text) ++ copied ss)

theorem copied_append : ∀ (a b : List Sym), copied (a ++ b) = copied a ++ copied b
  | [], _ => rfl
  | s :: a, b => by simp [copied, copied_append a b]

theorem defineLoop_run : ∀ (toks rest : List Sym) (d d' : DSt) (st : PSt), InDirective toks → (∀ s ∈ toks, s.kind ≠ .eof) → NewLine rest →
    dRun toks d = some d' → ∃ pos, pos.line = st.pos.line ∧ defineLoop (toks ++ rest) d st = (some d', { st with lexer := rest, line := st.line ++ copied toks, pos := pos })
  | [], rest, d, d', st, _, _, hr, h => by
    simp only [dRun, Option.some.injEq] at h
    subst h
    refine ⟨st.pos, rfl, ?_⟩
    cases rest with
    | nil => simp [defineLoop, copied]
    | cons s ss =>
      have : s.inPre = false := hr s (by simp)
      simp [defineLoop, this, copied]
  | s :: toks, rest, d, d', st, hin, he, hr, h => by
    have h1 : s.inPre = true := hin s (by simp)
    have h2 := he s (by simp)
    simp only [dRun] at h
    cases hd : dStep s d with
    | none => rw [hd] at h; cases h
    | some d1 =>
      rw [hd] at h
      simp only [List.cons_append, defineLoop, h1, h2, if_true, if_false, hd]
      obtain ⟨pos, hpl, e⟩ := defineLoop_run toks rest d1 d'
        (if s.kind = .newline then pushWs s { st with lexer := toks ++ rest }
          else { pushWs s { st with lexer := toks ++ rest } with line := (pushWs s { st with lexer := toks ++ rest }).line ++ s.text })
        (fun x hx => hin x (by simp [hx])) (fun x hx => he x (by simp [hx])) hr h
      refine ⟨pos, ?_, ?_⟩
      · rw [hpl]; by_cases hn : s.kind = .newline <;> simp [hn, pushWs]
      rw [e]
      by_cases hn : s.kind = .newline <;> simp [hn, copied, pushWs]

theorem dRun_body : ∀ (body : List Sym) (d : DSt), d.phase = .body → dRun body d = some { d with body := d.body ++ body.map Sym.rangeLess }
  | [], d, _ => by simp [dRun]
  | s :: body, d, h => by
    have hb := dRun_body body { d with body := d.body ++ [s.rangeLess] } h
    have e : dStep s d = some { d with body := d.body ++ [s.rangeLess] } := by simp [dStep, h]
    simp only [dRun, e, Option.bind_some, hb, List.append_assoc, List.singleton_append, List.map_cons]

theorem dRun_append : ∀ (a b : List Sym) (d : DSt), dRun (a ++ b) d = (dRun a d).bind (dRun b)
  | [], _, _ => rfl
  | s :: a, b, d => by
    simp only [List.cons_append, dRun]
    cases dStep s d with
    | none => rfl
    | some d' => exact dRun_append a b d'

theorem dRun_params {ds : List Nat} {ps : List Sym} (h : ParamToks ds ps) : ∀ (d : DSt), d.phase = .params → (∀ x ∈ ds, x < 10) →
    ∃ i, dRun ps d = some { d with found := true, args := setAll d.args d.idx ds, idx := i } := by
  induction h with
  | @one x p l hp hpd hl hld hv =>
    intro d hd hx
    have hx' := hx x (by simp)
    have e1 : dStep p d = some d := by simp [dStep, hd, hpd, hp]
    have e2 : dStep l d = some { d with found := true, args := d.args.set x d.idx } := by
      simp only [dStep, hd, hld, hl, hv]
      simp only [gt_iff_lt, Int.lt_irrefl, if_false, Int.toNat_natCast]
      rw [if_neg (by omega)]
    exact ⟨d.idx, by simp [dRun, e1, e2, setAll]⟩
  | @cons x ds p l c ts hp hpd hl hld hv hc hcd hts ih =>
    intro d hd hx
    have hx' := hx x (by simp)
    have e1 : dStep p d = some d := by simp [dStep, hd, hpd, hp]
    have e2 : dStep l d = some { d with found := true, args := d.args.set x d.idx } := by
      simp only [dStep, hd, hld, hl, hv]
      simp only [gt_iff_lt, Int.lt_irrefl, if_false, Int.toNat_natCast]
      rw [if_neg (by omega)]
    have e3 : dStep c { d with found := true, args := d.args.set x d.idx } = some { d with found := true, args := d.args.set x d.idx, idx := d.idx + 1 } := by
      simp [dStep, hd, hcd, hc]
    obtain ⟨i, e4⟩ := ih { d with found := true, args := d.args.set x d.idx, idx := d.idx + 1 } hd (fun y hy => hx y (by simp [hy]))
    exact ⟨i, by simp [dRun, e1, e2, e3, e4, setAll]⟩

/-- The loop records what is defined. -/
theorem defines_run {fileId idx : Nat} {toks : List Sym} {name : Str} {m : Macro} (h : Defines fileId idx toks name m) :
    ∃ d, dRun toks {} = some d ∧ d.name = name ∧ d.macro fileId idx = m := by
  cases h with
  | @object n body hk ht hb =>
    have e1 : dStep n {} = some { ({} : DSt) with name := n.text } := by simp [dStep, hk]
    cases body with
    | nil => exact ⟨{ ({} : DSt) with name := n.text }, by simp only [dRun, e1, Option.bind_some], rfl, rfl⟩
    | cons p ps =>
      have hp : ¬ (p.delta.col = 0 ∧ p.kind = .lparen) := fun hx => hb p (by simp) ⟨hx.2, hx.1⟩
      have e2 : dStep p { ({} : DSt) with name := n.text } = some { ({} : DSt) with name := n.text, body := [p.rangeLess], phase := .body } := by
        unfold dStep
        simp only
        rw [if_neg (fun hx => ht hx.1), if_neg hp]
        rfl
      have e3 := dRun_body ps { ({} : DSt) with name := n.text, body := [p.rangeLess], phase := .body } rfl
      exact ⟨_, by simp only [dRun, e1, Option.bind_some, e2]; exact e3, rfl, rfl⟩
  | @function _ ds body _ params ht hnd hlt hlen hpar =>
    cases ht with
    | @mk n l r ps hn hname hne hlp hld hps hr hrd =>
      have e1 : dStep n {} = some { ({} : DSt) with name := name } := by simp [dStep, hn, hname]
      have e2 : dStep l { ({} : DSt) with name := name } = some { ({} : DSt) with name := name, phase := .params } := by simp [dStep, hlp, hld]
      obtain ⟨i, e3⟩ := dRun_params hps { ({} : DSt) with name := name, phase := .params } rfl hlt
      have e4 : dStep r { ({} : DSt) with name := name, phase := .params, found := true, args := setAll (List.replicate 10 (-1)) 0 ds, idx := i } =
          some { ({} : DSt) with name := name, phase := .body, found := true, args := setAll (List.replicate 10 (-1)) 0 ds, idx := i } := by
        simp [dStep, hr, hrd]
      have e5 := dRun_body body { ({} : DSt) with name := name, phase := .body, found := true, args := setAll (List.replicate 10 (-1)) 0 ds, idx := i } rfl
      have hcount : ((setAll (List.replicate 10 (-1)) 0 ds).filter (· ≠ -1)).length = ds.length := by
        rw [setAll_count _ _ _ (by omega) hnd]
        · simp
        · intro x hx
          rw [List.getElem?_replicate, if_pos (hlt x hx)]
      have hargs : setAll (List.replicate 10 (-1)) 0 ds = params := by
        refine List.ext_getElem? fun x => ?_
        by_cases hx : x < 10
        · rw [hpar x hx]
          by_cases hm : x ∈ ds
          · rw [if_pos hm, setAll_mem ds _ 0 x hnd hm (by simpa using hx)]; simp
          · rw [if_neg hm, setAll_other ds _ 0 x hm, List.getElem?_replicate, if_pos hx]
        · rw [List.getElem?_eq_none (by rw [setAll_length]; simp; omega), List.getElem?_eq_none (by omega)]
      have hrun : dRun (ps ++ r :: body) { ({} : DSt) with name := name, phase := .params } =
          some { ({} : DSt) with name := name, phase := .body, found := true, args := setAll (List.replicate 10 (-1)) 0 ds, idx := i, body := body.map Sym.rangeLess } := by
        rw [dRun_append, e3]
        simp only [Option.bind_some, dRun]
        exact (congrArg (fun o => Option.bind o (dRun body)) e4).trans e5
      refine ⟨_, by simp only [dRun, e1, e2, Option.bind_some]; exact hrun, rfl, ?_⟩
      rw [hargs] at hcount
      simp only [DSt.macro, if_true, hargs, hcount]

/-! ### Lines that are directives -/

/-- The tokens of a line are copied. -/
theorem copied_placed {n c : Nat} {toks : List Sym} {src : Str} (h : Placed n c toks src) : (∀ s ∈ toks, s.kind ≠ .newline) →
    src.map shown = (copied toks).map shown := by
  induction h with
  | nil => intro _; rfl
  | @cons c ws s ss r h1 h2 h3 h4 h5 ih =>
    intro hn
    have := ih (fun x hx => hn x (by simp [hx]))
    simp only [copied, if_neg (hn s (by simp)), List.map_append, this, h3, shown_blanks h1]

/-- A line that is copied as it is. -/
theorem lineOk_copy {ms : Macros} {uses : List Use} {n L : Nat} {src txt : Str} (h : src.map shown = txt.map shown) :
    LineOk ms uses n L src txt [.text src.length] [] [] := by
  have := lineOk_text (lineOk_nil (ms := ms) (uses := uses) (n := n) (L := L)) h
  simpa using this

/-- Nothing but comments that are among the tokens `T`. -/
def Bare (T : List Sym) (txt : Str) : Prop :=
  breaks txt = 0 ∧ ∃ cs : List Sym, (∀ c ∈ cs, c ∈ T ∧ IsComment c) ∧ visible txt = visible (cs.flatMap (·.text))

theorem bare_nil {T : List Sym} : Bare T [] := ⟨rfl, [], by simp, rfl⟩

theorem visible_blanks (d : Int) : visible (blanks d) = [] := by
  simp [visible, blanks, isWs]

theorem bare_blanks {T : List Sym} {txt : Str} (h : Bare T txt) (d : Int) : Bare T (txt ++ blanks d) := by
  obtain ⟨h1, cs, h2, h3⟩ := h
  exact ⟨by rw [breaks_append, h1, breaks_blanks], cs, h2, by rw [Verif.Props.Conditional.visible_append, visible_blanks, List.append_nil, h3]⟩

theorem bare_comment {T : List Sym} {txt : Str} (h : Bare T txt) {c : Sym} (hc : c ∈ T) (hk : IsComment c) : Bare T (txt ++ c.text) := by
  obtain ⟨h1, cs, h2, h3⟩ := h
  refine ⟨by rw [breaks_append, h1, hk.2], cs ++ [c], ?_, ?_⟩
  · intro x hx
    rcases List.mem_append.1 hx with hx | hx
    · exact h2 x hx
    · rw [List.mem_singleton.1 hx]; exact ⟨hc, hk⟩
  · rw [Verif.Props.Conditional.visible_append, h3, List.flatMap_append, Verif.Props.Conditional.visible_append]; simp

/-- What follows from the start of a line on; `T` are the tokens of the file. -/
def Follows (env : Env) (T : List Sym) (n : Nat) (lines : List Line) (past : Past) (base : List (Nat × Offset)) (st : PSt) : Prop :=
  ∃ f r pushed outs ofs am, pLoop env f st = some (.result r) ∧ r.argsMap = past.args ++ am ∧ r.out = past.out ++ pushed ∧ r.offsets = base ++ ofs ∧
    (∀ e ∈ ofs, n ≤ e.1) ∧ (∀ e ∈ am, n ≤ e.1) ∧ (pushed ≠ [] ∧ outs ≠ [] ∧ joinLines pushed = joinLines outs) ∧ outs.length = lines.length ∧
    (∀ (i : Nat) (line : Line), lines[i]? = some line → ∃ txt, outs[i]? = some txt ∧ (¬ line.kept → Bare T txt) ∧
      (line.kept → ∃ segs, LineOk line.macros line.uses (n + i) (past.line + counted (lines.take i)) line.src txt segs (onLine ofs (n + i)) (onLine am (n + i)) ∧
        ∀ u ∈ line.uses, ∀ x, Copied line.macros u x → ∃ e ∈ onLine am (n + i), e.1 = x.range)) ∧
    ofs.map (fun e => (e.1, mark e.2)) = lines.flatMap (fun l => l.uses.map fun u => (u.name.range.s.line, useMark l.macros u.name))

theorem onLine_map {α : Type} (n m : Nat) (os : List α) : onLine (os.map (fun o => (n, o))) m = if n = m then os else [] := by
  induction os with
  | nil => simp [onLine]
  | cons o os ih =>
    unfold onLine at ih ⊢
    by_cases h : n = m
    · subst h; simpa using ih
    · simp only [h, if_false] at ih ⊢
      simp [h]

theorem onLine_append {α : Type} (a b : List (Nat × α)) (m : Nat) : onLine (a ++ b) m = onLine a m ++ onLine b m := by simp [onLine]

theorem onLine_none {α : Type} {l : List (Nat × α)} {m : Nat} (h : ∀ e ∈ l, e.1 ≠ m) : onLine l m = [] := by
  simp only [onLine, List.map_eq_nil_iff, List.filter_eq_nil_iff, decide_eq_true_eq]
  exact h

theorem reaches_run {env : Env} {st st' : PSt} (h : Reaches env st st') : ∀ {f : Nat} {r : Final}, pLoop env f st' = some r → ∃ g, pLoop env g st = some r := by
  induction h with
  | refl => intro f r h; exact ⟨f, h⟩
  | @step a b c d t k h1 h2 _ ih =>
    intro f r h
    obtain ⟨g, hg⟩ := ih h
    refine ⟨k + g + 1, ?_⟩
    have hs : pStep env (k + g) t b = .next c := by
      have := Verif.Props.PreFuel.pStep_mono env k g t b (by rw [h2]; simp)
      rw [this, h2]
    simp only [pLoop, h1, hs]
    rw [Nat.add_comm k g]
    exact Verif.Props.PreFuel.pLoop_mono env g c r hg k

theorem joinLines_append (a : List Str) {b : List Str} (hb : b ≠ []) (x : Str) : joinLines ((x :: a) ++ b) = joinLines (x :: a) ++ '\n' :: joinLines b := by
  induction a generalizing x with
  | nil =>
    cases b with
    | nil => exact absurd rfl hb
    | cons y b => simp [joinLines]
  | cons y a ih =>
    show x ++ '\n' :: joinLines (y :: a ++ b) = _
    rw [ih]
    simp [joinLines]

theorem counted_append (a b : List Line) : counted (a ++ b) = counted a + counted b := by simp [counted]

theorem counted_more {ms : List Line} (h : ∀ l ∈ ms, l.kind = .more) : counted ms = 0 := by
  simp only [counted, List.length_eq_zero_iff, List.filter_eq_nil_iff]
  intro l hl
  simp [h l hl]

/-- One line, those that start inside of a token that begins on it, and what follows. -/
theorem follows_block {env : Env} {T : List Sym} {n : Nat} {line : Line} {ls mores : List Line} {past past' : Past} {base new : List (Nat × Offset)} {am0 : List (Rng × Rng)} {txt : Str}
    {txts : List Str} {st st' : PSt} (hr : Reaches env st st') (hf : Follows env T (n + 1 + mores.length) ls past' (base ++ new) st')
    (hout : past'.out = past.out ++ [joinLines (txt :: txts)]) (hargs : past'.args = past.args ++ am0.map fun e => (n, e))
    (hline : past'.line = past.line + counted [line]) (hnew : ∀ e ∈ new, e.1 = n)
    (hok : line.kept → (∃ segs, LineOk line.macros line.uses n past.line line.src txt segs (onLine new n) am0) ∧
      ∀ u ∈ line.uses, ∀ x, Copied line.macros u x → ∃ e ∈ am0, e.1 = x.range) (hnot : ¬ line.kept → Bare T txt)
    (hmarks : new.map (fun e => (e.1, mark e.2)) = line.uses.map fun u => (u.name.range.s.line, useMark line.macros u.name))
    (hmores : ∀ l ∈ mores, l.kind = .more ∧ l.uses = []) (hshown : mores.map (fun l => l.src.map shown) = txts.map (fun t => t.map shown)) :
    Follows env T n (line :: (mores ++ ls)) past base st := by
  obtain ⟨f, r, pushed, outs, ofs, am, g1, g2, g3, g4, g5, g5', ⟨gp, go, gj⟩, g6, g7, g8⟩ := hf
  obtain ⟨g, hg⟩ := reaches_run hr g1
  have hlines : ∀ e ∈ am0.map (fun e => (n, e)), e.1 = n := by
    intro e he
    obtain ⟨e', -, rfl⟩ := List.mem_map.1 he
    rfl
  have hlen : mores.length = txts.length := by simpa using congrArg List.length hshown
  refine ⟨g, r, joinLines (txt :: txts) :: pushed, txt :: (txts ++ outs), new ++ ofs, am0.map (fun e => (n, e)) ++ am, hg, by rw [g2, hargs, List.append_assoc],
    by rw [g3, hout]; simp, by rw [g4]; simp, ?_, ?_, ⟨by simp, by simp, ?_⟩, by simp [g6, hlen], ?_, ?_⟩
  · intro x hx
    rcases List.mem_append.1 hx with hx | hx
    · exact Nat.le_of_eq (hnew x hx).symm
    · have := g5 x hx; omega
  · intro x hx
    rcases List.mem_append.1 hx with hx | hx
    · exact Nat.le_of_eq (hlines x hx).symm
    · have := g5' x hx; omega
  · have h1 := joinLines_append [] gp (joinLines (txt :: txts))
    have h2 := joinLines_append txts go txt
    rw [List.singleton_append] at h1
    rw [List.cons_append] at h2
    rw [h1, h2, gj]
    simp [joinLines]
  · intro i l hl
    cases i with
    | zero =>
      simp only [List.getElem?_cons_zero, Option.some.injEq] at hl
      subst hl
      refine ⟨txt, rfl, hnot, fun hk => ?_⟩
      obtain ⟨⟨segs, h⟩, h'⟩ := hok hk
      refine ⟨segs, ?_⟩
      rw [Nat.add_zero, onLine_append, onLine_none (l := ofs) (fun x hx => by have := g5 x hx; omega), List.append_nil, onLine_append,
        onLine_none (l := am) (fun x hx => by have := g5' x hx; omega), List.append_nil, onLine_map, if_pos rfl]
      exact ⟨h, h'⟩
    | succ i =>
      simp only [List.getElem?_cons_succ] at hl ⊢
      have hnone : onLine (new ++ ofs) (n + (i + 1)) = onLine ofs (n + (i + 1)) := by
        rw [onLine_append, onLine_none (l := new) (fun x hx => by have := hnew x hx; omega), List.nil_append]
      have hnone' : onLine (am0.map (fun e => (n, e)) ++ am) (n + (i + 1)) = onLine am (n + (i + 1)) := by
        rw [onLine_append, onLine_none (l := am0.map fun e => (n, e)) (fun x hx => by have := hlines x hx; omega), List.nil_append]
      rw [hnone, hnone']
      by_cases hi : i < mores.length
      · rw [List.getElem?_append_left hi] at hl
        obtain ⟨hkind, huses⟩ := hmores l (List.mem_of_getElem? hl)
        have hm : (txts[i]?).map (fun t => t.map shown) = some (l.src.map shown) := by
          rw [← List.getElem?_map, ← hshown, List.getElem?_map, hl]; rfl
        obtain ⟨t, ht, hts⟩ := Option.map_eq_some_iff.1 hm
        refine ⟨t, by rw [List.getElem?_append_left (by omega)]; exact ht, fun h => absurd (.inr hkind) h, fun _ => ⟨[.text l.src.length], ?_, by simp [huses]⟩⟩
        rw [onLine_none (l := ofs) (fun x hx => by have := g5 x hx; omega), onLine_none (l := am) (fun x hx => by have := g5' x hx; omega)]
        exact lineOk_copy hts.symm
      · rw [List.getElem?_append_right (by omega)] at hl
        obtain ⟨t, a, b, c⟩ := g7 _ l hl
        refine ⟨t, by rw [List.getElem?_append_right (by omega), ← hlen]; exact a, b, fun hk => ?_⟩
        obtain ⟨segs, h⟩ := c hk
        refine ⟨segs, ?_⟩
        have hcount : past.line + counted ((line :: (mores ++ ls)).take (i + 1)) = past'.line + counted (ls.take (i - mores.length)) := by
          rw [hline, List.take_succ_cons, ← List.singleton_append, counted_append, List.take_append, List.take_of_length_le (by omega), counted_append,
            counted_more fun l hl => (hmores l hl).1]
          omega
        rw [show n + (i + 1) = n + 1 + mores.length + (i - mores.length) by omega, hcount]
        exact h
  · have hm : mores.flatMap (fun l => l.uses.map fun u => (u.name.range.s.line, useMark l.macros u.name)) = [] := by
      rw [List.flatMap_eq_nil_iff]
      intro l hl
      rw [(hmores l hl).2]; rfl
    rw [List.map_append, hmarks, g8, List.flatMap_cons, List.flatMap_append, hm, List.nil_append]

/-- One line and what follows. -/
theorem follows_cons {env : Env} {T : List Sym} {n : Nat} {line : Line} {ls : List Line} {past past' : Past} {base new : List (Nat × Offset)} {am0 : List (Rng × Rng)} {txt : Str}
    {st st' : PSt} (hr : Reaches env st st') (hf : Follows env T (n + 1) ls past' (base ++ new) st') (hout : past'.out = past.out ++ [txt])
    (hargs : past'.args = past.args ++ am0.map fun e => (n, e)) (hline : past'.line = past.line + counted [line]) (hnew : ∀ e ∈ new, e.1 = n)
    (hok : line.kept → (∃ segs, LineOk line.macros line.uses n past.line line.src txt segs (onLine new n) am0) ∧
      ∀ u ∈ line.uses, ∀ x, Copied line.macros u x → ∃ e ∈ am0, e.1 = x.range) (hnot : ¬ line.kept → Bare T txt)
    (hmarks : new.map (fun e => (e.1, mark e.2)) = line.uses.map fun u => (u.name.range.s.line, useMark line.macros u.name)) :
    Follows env T n (line :: ls) past base st :=
  follows_block (mores := []) (txts := []) hr hf (by simpa [joinLines] using hout) hargs hline hnew hok hnot hmarks (by simp) rfl

/-- A line whose text does not matter, without macro uses. -/
theorem follows_skip {env : Env} {T : List Sym} {n : Nat} {line : Line} {ls : List Line} {past : Past} {base : List (Nat × Offset)} {txt : Str} {st st' : PSt}
    (hr : Reaches env st st') (hf : Follows env T (n + 1) ls (past.push txt) base st') (hk : line.kind = .hidden) (hu : line.uses = []) (ht : Bare T txt) :
    Follows env T n (line :: ls) past base st :=
  follows_cons (new := []) (am0 := []) hr (by simpa using hf) rfl (by simp [Past.push]) (by simp [Past.push, counted, hk]) (by simp)
    (by intro h; rw [Line.kept, hk] at h; simp at h) (fun _ => ht) (by simp [hu])

/-- A line that is copied, without macro uses. -/
theorem follows_copy {env : Env} {T : List Sym} {n : Nat} {line : Line} {ls : List Line} {past : Past} {base : List (Nat × Offset)} {txt : Str} {st st' : PSt}
    (hr : Reaches env st st') (hf : Follows env T (n + 1) ls (past.push txt) base st') (ht : line.src.map shown = txt.map shown) (hk : line.kind = .shown)
    (hu : line.uses = []) : Follows env T n (line :: ls) past base st :=
  follows_cons (new := []) (am0 := []) hr (by simpa using hf) rfl (by simp [Past.push]) (by simp [Past.push, counted, hk]) (by simp)
    (fun _ => ⟨⟨_, by simpa [onLine] using lineOk_copy ht⟩, by simp [hu]⟩) (fun h => absurd (.inl hk) h) (by simp [hu])

/-! #### Lines of a text -/

theorem splitLines_ne (t : Str) : splitLines t ≠ [] := by
  cases t with
  | nil => simp [splitLines]
  | cons c t =>
    rw [splitLines]
    split
    · simp
    · split <;> simp

theorem splitLines_other {c : Char} (hc : c ≠ '\n') (t : Str) : ∃ l ls, splitLines t = l :: ls ∧ splitLines (c :: t) = (c :: l) :: ls := by
  obtain ⟨l, ls, h⟩ := List.exists_cons_of_ne_nil (splitLines_ne t)
  exact ⟨l, ls, h, by simp [splitLines, hc, h]⟩

theorem joinLines_splitLines : ∀ t : Str, joinLines (splitLines t) = t
  | [] => rfl
  | c :: t => by
    by_cases hc : c = '\n'
    · obtain ⟨l, ls, h⟩ := List.exists_cons_of_ne_nil (splitLines_ne t)
      have ih := joinLines_splitLines t
      simp only [splitLines, hc, if_true]
      rw [h] at ih ⊢
      simp [joinLines, ih]
    · obtain ⟨l, ls, h, h'⟩ := splitLines_other hc t
      have ih := joinLines_splitLines t
      rw [h'] 
      rw [h] at ih
      rw [← ih]
      cases ls <;> simp [joinLines]

theorem splitLines_length : ∀ t : Str, (splitLines t).length = breaks t + 1
  | [] => rfl
  | c :: t => by
    have ih := splitLines_length t
    by_cases hc : c = '\n'
    · simp [splitLines, hc, ih, breaks]
    · obtain ⟨l, ls, h, h'⟩ := splitLines_other hc t
      rw [h] at ih
      rw [h']
      simpa [breaks, hc] using ih

theorem splitLines_append : ∀ {a : Str}, breaks a = 0 → ∀ (b : Str) {l : Str} {ls : List Str}, splitLines b = l :: ls → splitLines (a ++ b) = (a ++ l) :: ls
  | [], _, b, l, ls, h => h
  | c :: a, ha, b, l, ls, h => by
    have hc : c ≠ '\n' := by rintro rfl; simp [breaks] at ha
    have ha' : breaks a = 0 := by simpa [breaks, hc] using ha
    obtain ⟨l', ls', h1, h2⟩ := splitLines_other hc (a ++ b)
    rw [splitLines_append ha' b h, List.cons.injEq] at h1
    rw [List.cons_append, h2, ← h1.1, ← h1.2]; rfl

theorem shown_break {c : Char} : shown c = '\n' ↔ c = '\n' := by
  unfold shown
  split
  · rename_i h; subst h; decide
  · rfl

theorem splitLines_map : ∀ t : Str, splitLines (t.map shown) = (splitLines t).map (fun l => l.map shown)
  | [] => rfl
  | c :: t => by
    have ih := splitLines_map t
    by_cases hc : c = '\n'
    · subst hc
      simp [splitLines, show shown '\n' = '\n' from rfl, ih]
    · obtain ⟨l, ls, h, h'⟩ := splitLines_other hc t
      obtain ⟨l', ls', h1, h2⟩ := splitLines_other (fun h => hc (shown_break.1 h)) (t.map shown)
      rw [ih, h, List.map_cons, List.cons.injEq] at h1
      rw [List.map_cons, h2, h', List.map_cons, ← h1.1, ← h1.2]; rfl

theorem splitLines_shown {a b : Str} (h : a.map shown = b.map shown) :
    (splitLines a).map (fun l => l.map shown) = (splitLines b).map (fun l => l.map shown) := by
  rw [← splitLines_map, h, splitLines_map]

theorem splitLines_join : ∀ {ls : List Str}, ls ≠ [] → (∀ l ∈ ls, breaks l = 0) → splitLines (joinLines ls) = ls
  | [], h, _ => absurd rfl h
  | [l], _, h => by
    have := splitLines_append (h l (by simp)) [] (l := []) (ls := []) rfl
    simpa [joinLines] using this
  | l :: l' :: ls, _, h => by
    have ih := splitLines_join (ls := l' :: ls) (by simp) (fun x hx => h x (by simp [hx]))
    have := splitLines_append (h l (by simp)) ('\n' :: joinLines (l' :: ls)) (l := []) (ls := l' :: ls) (by simp [splitLines, ih])
    simpa [joinLines] using this

theorem breaks_blank {ws : Str} (h : Blanks ws) : breaks ws = 0 := by
  rw [breaks, List.count_eq_zero]
  intro hm
  exact absurd (h _ hm) (by decide)

theorem breaks_shown {a b : Str} (h : a.map shown = b.map shown) : breaks a = breaks b := by
  have h1 := congrArg List.length (splitLines_shown h)
  rw [List.length_map, List.length_map, splitLines_length, splitLines_length] at h1
  omega

/-- The tokens of the uses of a line. -/
theorem code_mem {ms : Macros} {toks : List Sym} {us : List Use} (h : Code ms toks us) : ∀ u ∈ us, u.name ∈ toks ∧ ∀ x ∈ u.args, x ∈ toks := by
  induction h with
  | nil => simp
  | plain _ _ _ ih => intro u hu; exact ⟨by simp [(ih u hu).1], fun x hx => by simp [(ih u hu).2 x hx]⟩
  | use _ _ _ _ ih | deepUse _ _ _ _ _ _ _ _ ih =>
    intro u hu
    rcases List.mem_cons.1 hu with rfl | hu
    · simp
    · exact ⟨by simp [(ih u hu).1], fun x hx => by simp [(ih u hu).2 x hx]⟩
  | call _ _ ih | deepCall _ _ ih =>
    intro u hu
    rcases List.mem_cons.1 hu with rfl | hu
    · exact ⟨by simp, fun x (hx : x ∈ _) => by simp [hx]⟩
    · exact ⟨by simp [(ih u hu).1], fun x hx => by simp [(ih u hu).2 x hx]⟩

theorem marks_line {ms : Macros} {n c : Nat} {toks : List Sym} {us : List Use} {src : Str} (hp : Placed n c toks src) (hc : Code ms toks us) {os : List Offset}
    (h : os.map mark = us.map (fun u => useMark ms u.name)) :
    (os.map (fun o => (n, o))).map (fun e => (e.1, mark e.2)) = us.map (fun u => (u.name.range.s.line, useMark ms u.name)) := by
  have h1 : (os.map (fun o => (n, o))).map (fun e => (e.1, mark e.2)) = (os.map mark).map (fun r => (n, r)) := by simp
  rw [h1, h, List.map_map]
  refine List.map_congr_left fun u hu => ?_
  simp only [Function.comp]
  rw [(line_of_placed hp _ (code_mem hc u hu).1).1]

theorem pStep_sym {env : Env} {f : Nat} {s : Sym} {st : PSt} :
    pStep env f s.tok st = if skipping st.conds then processNegative env f s st else processActive env f s.tok st := rfl

/-- A quiet state in which some of what is not looked at is different. -/
theorem quiet_of {fr fr' : Front} {past past' : Past} {base base' : List (Nat × Offset)} {st st' : PSt} (h : Quiet fr past base st)
    (h1 : st'.stack = st.stack) (h2 : st'.intr = st.intr) (h3 : st'.disabled = st.disabled) (h4 : st'.macros = fr'.macros) (h5 : st'.idx = fr'.count)
    (h6 : st'.conds = fr'.conds) (h7 : st'.argsMap = past'.args) (h8 : st'.out = past'.out) (h9 : st'.colOffset = st.colOffset) (h10 : st'.expanded = st.expanded)
    (h11 : st'.offsets = base') (h12 : st'.pos.line = past'.line) : Quiet fr' past' base' st' :=
  ⟨⟨h1.trans h.calm.stack, h2.trans h.calm.intr, h3.trans h.calm.disabled, h4, h5, h6, h7, h8,
    fun _ => h9.trans (h.calm.pending h.expanded), h12⟩, h10.trans h.expanded, h11⟩

/-- One more line. -/
theorem quiet_push {fr fr' : Front} {past : Past} {base : List (Nat × Offset)} {st st' : PSt} {txt : Str} (h : Quiet fr past base st)
    (h1 : st'.stack = st.stack) (h2 : st'.intr = st.intr) (h3 : st'.disabled = st.disabled) (h4 : st'.macros = fr'.macros) (h5 : st'.idx = fr'.count)
    (h6 : st'.conds = fr'.conds) (h7 : st'.argsMap = st.argsMap) (h8 : st'.out = st.out ++ [txt]) (h9 : st'.colOffset = st.colOffset)
    (h10 : st'.expanded = st.expanded) (h11 : st'.offsets = st.offsets) (h12 : st'.pos.line = st.pos.line + 1) : Quiet fr' (past.push txt) base st' :=
  quiet_of h h1 h2 h3 h4 h5 h6 (h7.trans h.calm.args) (by rw [h8, h.calm.out]; rfl) h9 h10 (h11.trans h.offsets) (by rw [h12, h.calm.line]; rfl)

/-- The line break, in code or where code is skipped. -/
theorem break_step {env : Env} {fr : Front} {past : Past} {base : List (Nat × Offset)} {st : PSt} (h : Quiet fr past base st) {e : Sym} {rest : List Sym}
    (hl : st.lexer = e :: rest) (hk : e.kind = .newline) : ∃ st', Reaches env st st' ∧ st'.lexer = rest ∧ Fresh st' ∧
      Quiet fr (past.push (if skipping fr.conds then st.line else st.line ++ blanks e.delta.col)) base st' := by
  obtain ⟨hn, hq⟩ := read_quiet h hl
  have hk' : e.tok.kind = .newline := hk
  cases hs : skipping fr.conds with
  | true =>
    have hp : pStep env 0 e.tok { st with lexer := rest } = .next (resetLine { pushLine { st with lexer := rest } with
        skipped := st.skipped ++ [⟨⟨e.range.s.line, st.skipCol⟩, e.range.s⟩] }) := by
      rw [pStep_sym, if_pos (by rw [hq.calm.conds]; exact hs)]
      simp only [processNegative, hk]; rfl
    refine ⟨_, .step hn hp (.refl _), rfl, ⟨rfl, rfl⟩, ?_⟩
    exact quiet_push hq rfl rfl rfl hq.calm.macros hq.calm.idx hq.calm.conds rfl rfl rfl rfl rfl rfl
  | false =>
    have hp : pStep env 0 e.tok { st with lexer := rest } = .next (resetLine (pushLine (pushWs e { st with lexer := rest }))) := by
      rw [pStep_sym, if_neg (by rw [hq.calm.conds, hs]; simp)]
      simp only [processActive, hk']; rfl
    refine ⟨_, .step hn hp (.refl _), rfl, ⟨rfl, rfl⟩, ?_⟩
    exact quiet_push hq rfl rfl rfl hq.calm.macros hq.calm.idx hq.calm.conds rfl rfl rfl rfl rfl rfl

/-- Comments, and tokens that are skipped, up to the end of the line. -/
theorem rest_of_line {env : Env} {T : List Sym} {fr : Front} {past : Past} {base : List (Nat × Offset)} {e : Sym} {rest : List Sym} (hk : e.kind = .newline) :
    ∀ (toks : List Sym) (st : PSt), Quiet fr past base st → st.lexer = toks ++ e :: rest →
      (∀ s ∈ toks, s ∈ T) → (∀ s ∈ toks, IsComment s ∨ (skipping fr.conds = true ∧ SkippedKind s.kind)) →
      Bare T st.line → ∃ st' txt, Reaches env st st' ∧ st'.lexer = rest ∧ Fresh st' ∧ Quiet fr (past.push txt) base st' ∧ Bare T txt
  | [], st, h, hl, _, _, hb => by
    obtain ⟨st', h1, h2, h3, h4⟩ := break_step (env := env) h hl hk
    refine ⟨st', _, h1, h2, h3, h4, ?_⟩
    split
    · exact hb
    · exact bare_blanks hb _
  | s :: toks, st, h, hl, hT, ht, hb => by
    obtain ⟨hn, hq⟩ := read_quiet h hl
    have hone : ∃ st1, pStep env 0 s.tok { st with lexer := toks ++ e :: rest } = .next st1 ∧ st1.lexer = toks ++ e :: rest ∧ Quiet fr past base st1 ∧
        Bare T st1.line := by
      cases hs : skipping fr.conds with
      | true =>
        have hsk : SkippedKind s.kind := by
          rcases ht s (by simp) with h | h
          · rcases h.1 with h | h <;> rw [h] <;> trivial
          · exact h.2
        refine ⟨_, ?_, rfl, hq, hb⟩
        rw [pStep_sym, if_pos (by rw [hq.calm.conds]; exact hs)]
        unfold processNegative
        split <;> first | rfl | (rename_i h; rw [h] at hsk; exact hsk.elim)
      | false =>
        have hc : IsComment s := by
          rcases ht s (by simp) with h | h
          · exact h
          · rw [hs] at h; cases h.1
        have hne : s.kind ≠ .eof := by rcases hc.1 with h | h <;> rw [h] <;> simp
        obtain ⟨q1, q2, q3, -⟩ := pushSym_quiet hq hne
        refine ⟨_, ?_, q3, q1, by rw [q2, ← List.append_assoc]; exact bare_comment (bare_blanks hb _) (hT s (by simp)) hc⟩
        rw [pStep_sym, if_neg (by rw [hq.calm.conds, hs]; simp)]
        refine active_plain (t := s.tok) ?_ ?_ hq.calm.intr
        · show PlainKind s.kind
          rcases hc.1 with h | h <;> rw [h] <;> trivial
        · intro h'
          have h' : s.kind = .ident := h'
          rcases hc.1 with h | h <;> rw [h] at h' <;> cases h'
    obtain ⟨st1, hp, l1, q1, b1⟩ := hone
    obtain ⟨st', txt, r1, r2, r3, r4⟩ := rest_of_line hk toks st1 q1 l1 (fun x hx => hT x (by simp [hx])) (fun x hx => ht x (by simp [hx])) b1
    exact ⟨st', txt, .step hn hp r1, r2, r3, r4⟩

/-- The condition of `#if` and `#elseif`. -/
theorem if_step {env : Env} {fr : Front} {cs : List Cond} {past : Past} {base : List (Nat × Offset)} {st : PSt} (h : Quiet fr past base st)
    {n : Nat} {d e : Sym} {cond rest : List Sym} {src ws : Str} {b : Bool} (hl : st.lexer = cond ++ e :: rest) (hp : Placed n 0 (d :: cond) src)
    (he : LineEnd n ws e) (hin : InDirective (cond ++ [e])) (hv : Value env fr.macros cond e b) (hr : NewLine rest) :
    ∃ f st' new, processIf env f d { st with conds := cs } = .next st' ∧ st'.lexer = rest ∧ (Fresh st → Fresh st') ∧
      Quiet ⟨fr.macros, fr.count, (if b then .active else .notActivated) :: cs⟩ past.jump (base ++ new) st' ∧ (∀ x ∈ new, x.1 = n) ∧
      new.map (fun e => (e.1, mark e.2)) = (usesOf fr.macros cond).map (fun u => (u.name.range.s.line, useMark fr.macros u.name)) := by
  obtain ⟨f, hf⟩ := hv.value
  have htake : takeDirective ({ st with conds := cs } : PSt).lexer = (cond ++ [e], rest) := by
    show takeDirective st.lexer = _
    rw [hl, show cond ++ e :: rest = (cond ++ [e]) ++ rest by simp]
    exact takeDirective_split _ _ hin hr
  have hplaced := line_of_placed hp
  have heff : (eEffects env.profile fr.macros f ⟨cond ++ [e], [], [], [], true, false, []⟩).1 = [] ∧
      (eEffects env.profile fr.macros f ⟨cond ++ [e], [], [], [], true, false, []⟩).2.map (fun e => (e.1, mark e.2)) =
        (usesOf fr.macros cond).map (fun u => (u.name.range.s.line, useMark fr.macros u.name)) := by
    have hf' := hf
    unfold evaluate evaluateValue at hf'
    cases hloop : eLoop env.profile fr.macros f ⟨cond ++ [e], [], [], [], true, false, []⟩ with
    | none => rw [hloop] at hf'; simp at hf'
    | some r =>
      cases r with
      | err => rw [hloop] at hf'; simp [Res.map] at hf'
      | panic => rw [hloop] at hf'; simp [Res.map] at hf'
      | ok st' =>
        exact cond_effects f _ st' cond [e] hloop rfl hv.shape (by intro t ht; simp at ht; rw [ht]; exact he.kind)
          (fun s hs => (hplaced s (by simp [hs])).2) rfl (by simp)
  obtain ⟨hd1, hd2⟩ := heff
  have hline : e.range.e.line - d.range.s.line = 1 := by
    have := (hplaced d (by simp)).1
    rw [he.next, this]; omega
  generalize hE : eEffects env.profile fr.macros f ⟨cond ++ [e], [], [], [], true, false, []⟩ = E at hd1 hd2
  refine ⟨f, { st with
      lexer := rest
      disabled := []
      offsets := st.offsets ++ E.2
      skipCol := if b then st.skipCol else d.range.e.char
      conds := (if b then .active else .notActivated) :: cs
      out := st.out ++ [[]] }, E.2, ?_, rfl, id, ?_, ?_, hd2⟩
  · unfold processIf
    rw [htake]
    simp only [h.calm.macros, h.calm.disabled, hf, hE, hd1, List.getLast?_append, List.getLast?_singleton, Option.some_or, hline]
    cases b <;> simp
  · exact quiet_of h rfl rfl h.calm.disabled.symm h.calm.macros h.calm.idx rfl h.calm.args (by show st.out ++ [[]] = past.out ++ [[]]; rw [h.calm.out]) rfl rfl (by rw [← h.offsets]) h.calm.line
  · intro x hx
    have : (x.1, mark x.2) ∈ E.2.map (fun e => (e.1, mark e.2)) := List.mem_map.2 ⟨x, hx, rfl⟩
    rw [hd2] at this
    obtain ⟨s, hs, hx⟩ := List.mem_map.1 this
    rw [Prod.mk.injEq] at hx
    rw [← hx.1]
    obtain ⟨y, hy, rfl⟩ := List.mem_map.1 hs
    exact (hplaced y (by simp [(List.mem_filter.1 hy).1])).1

/-- The tokens of several lines are copied. -/
theorem copied_laid {toks : List Sym} {text : Str} (h : Laid toks text) : (∀ s ∈ toks, s.kind ≠ .newline) → (copied toks).map shown = text.map shown := by
  induction h with
  | nil => intro _; rfl
  | @cons ws s ss r h1 h2 h3 ih =>
    intro hn
    have := ih (fun x hx => hn x (by simp [hx]))
    simp only [copied, if_neg (hn s (by simp)), List.map_append, this, h2, shown_blanks h1, List.append_assoc]

/-- Plain tokens, the first of which was read. -/
theorem laid_run {env : Env} {fr : Front} {past : Past} {base : List (Nat × Offset)} {rest : List Sym} (hact : skipping fr.conds = false) :
    ∀ (more : List Sym) (x : Sym) {st : PSt} (st1 : PSt), pNext st = some (x.tok, st1) → Quiet fr past base st1 → st1.lexer = more ++ rest →
      (∀ s ∈ x :: more, PlainKind s.kind ∧ ¬ IsUse fr.macros s) →
      ∃ st', Reaches env st st' ∧ st'.lexer = rest ∧ Quiet fr past base st' ∧ st'.line = st1.line ++ copied (x :: more) := by
  have one : ∀ (x : Sym) (st1 : PSt), Quiet fr past base st1 → PlainKind x.kind → ¬ IsUse fr.macros x → pStep env 0 x.tok st1 = .next (pushSym x st1) := by
    intro x st1 hq hk hu
    rw [pStep_sym, if_neg (by rw [hq.calm.conds, hact]; simp)]
    refine active_plain hk (fun e => ?_) hq.calm.intr
    rw [hq.calm.macros]
    exact Classical.byContradiction fun hx => hu ⟨e, hx⟩
  intro more
  induction more with
  | nil =>
    intro x st st1 hn hq hl hp
    obtain ⟨hk, hu⟩ := hp x (by simp)
    obtain ⟨q1, q2, q3, -⟩ := pushSym_quiet hq (plain_not_eof hk)
    refine ⟨_, .step hn (one x st1 hq hk hu) (.refl _), by rw [q3]; exact hl, q1, ?_⟩
    have hnl : x.kind ≠ .newline := by intro h; rw [h] at hk; exact hk
    rw [q2]; simp [copied, hnl]
  | cons y more ih =>
    intro x st st1 hn hq hl hp
    obtain ⟨hk, hu⟩ := hp x (by simp)
    obtain ⟨q1, q2, q3, -⟩ := pushSym_quiet hq (plain_not_eof hk)
    obtain ⟨hn', hq'⟩ := read_quiet (s := y) (ss := more ++ rest) q1 (by rw [q3]; exact hl)
    obtain ⟨st', r, g1, g2, g3⟩ := ih y _ hn' hq' rfl (fun s hs => hp s (by simp [hs]))
    refine ⟨st', .step hn (one x st1 hq hk hu) r, g1, g2, ?_⟩
    have hnl : x.kind ≠ .newline := by intro h; rw [h] at hk; exact hk
    rw [g3]
    show (pushSym x st1).line ++ _ = _
    rw [q2]
    simp [copied, hnl]

/-- `#define` is read up to the end of its line. -/
theorem define_step {env : Env} {n : Nat} {fr : Front} {d : Sym} {toks rest : List Sym} {ws : Str} {e : Sym} {name : Str} {m : Macro} (hact : skipping fr.conds = false)
    (hk : d.kind = .dir .define) (htoks : ∀ s ∈ toks, s.kind ≠ .newline ∧ s.kind ≠ .eof) (he : LineEnd n ws e) (hin : InDirective (toks ++ [e]))
    (hdef : Defines env.fileId fr.count (toks ++ [e]) name m) (hnl : NewLine rest) {past : Past} {base : List (Nat × Offset)} {st : PSt} (h : Quiet fr past base st)
    (hline : Fresh st) (hlex : st.lexer = d :: (toks ++ e :: rest)) :
    ∃ st', Reaches env st st' ∧ st'.lexer = rest ∧ Fresh st' ∧
      Quiet ⟨updateMacros fr.macros name (some m), fr.count + 1, fr.conds⟩ (past.push (copied (d :: toks) ++ blanks e.delta.col)) base st' := by
  obtain ⟨hn, hq⟩ := read_quiet h hlex
  have hne : d.kind ≠ .eof := by rw [hk]; simp
  obtain ⟨hq1, e1, e2, -⟩ := pushSym_quiet hq hne
  obtain ⟨d', hrun, hname, hmac⟩ := defines_run hdef
  have heof : ∀ s ∈ toks ++ [e], s.kind ≠ .eof := by
    intro s hs
    rcases List.mem_append.1 hs with hs | hs
    · exact (htoks s hs).2
    · simp at hs; rw [hs, he.kind]; simp
  obtain ⟨pos, hpl, hloop⟩ := defineLoop_run (toks ++ [e]) rest {} d' (pushSym d { st with lexer := toks ++ e :: rest }) hin heof hnl hrun
  generalize hst1 : pushSym d { st with lexer := toks ++ e :: rest } = st1 at hq1 e1 e2 hloop hpl
  have hp' : pStep env 0 d.tok { st with lexer := toks ++ e :: rest } = .next { st1 with
      lexer := rest
      line := []
      pos := ⟨pos.line + 1, 0⟩
      out := st1.out ++ [st1.line ++ copied (toks ++ [e])]
      macros := updateMacros st1.macros name (some m)
      idx := st1.idx + 1 } := by
    have hk' : d.tok.kind = .dir .define := hk
    have hcd : st.conds = fr.conds := h.calm.conds
    rw [pStep_sym, if_neg (by show ¬ skipping st.conds = true; rw [hcd, hact]; simp)]
    simp only [processActive, hk', processDirective, processDefine]
    have hlx : (({ st with lexer := toks ++ e :: rest } : PSt)).lexer = (toks ++ [e]) ++ rest := by simp
    show (match defineLoop ({ st with lexer := toks ++ e :: rest } : PSt).lexer {} (pushSym d { st with lexer := toks ++ e :: rest }) with
      | (none, st) => Step.fail st
      | (some d, st) => _) = _
    rw [hlx, hst1, hloop]
    have hidx : st1.idx = fr.count := hq1.calm.idx
    simp only [pushLine, resetLine, hname, hidx, hmac]
  have htxt : st1.line ++ copied (toks ++ [e]) = copied (d :: toks) ++ blanks e.delta.col := by
    have hls : ({ st with lexer := toks ++ e :: rest } : PSt).line = [] := hline.1
    have hce : copied [e] = blanks e.delta.col := by simp [copied, he.kind]
    have hcd : copied (d :: toks) = blanks d.delta.col ++ d.text ++ copied toks := by simp [copied, hk]
    rw [e1, copied_append, hls, List.nil_append, hce, ← List.append_assoc, ← hcd]
  refine ⟨_, .step hn hp' (.refl _), rfl, ⟨rfl, rfl⟩, ?_⟩
  rw [← htxt]
  exact quiet_push hq1 rfl rfl rfl (by show updateMacros st1.macros _ _ = _; rw [hq1.calm.macros]) (by show st1.idx + 1 = _; rw [hq1.calm.idx])
        hq1.calm.conds rfl rfl rfl rfl rfl (by show pos.line + 1 = _; rw [hpl])


/-! ### The file -/

theorem file_run {env : Env} {T : List Sym} {n : Nat} {fr : Front} {toks : List Sym} {lines : List Line} (hf : File env n fr toks lines) :
    ∀ {past : Past} {base : List (Nat × Offset)} {st : PSt}, Quiet fr past base st → Fresh st → st.lexer = toks → (∀ s ∈ toks, s ∈ T) →
      Follows env T n lines past base st := by
  induction hf with
  | @last n fr toks us src ws e hact hp hc he hl hws hd =>
    intro past base st h hline hlex hT
    obtain ⟨st1, segs, os, am, r1, l1, hall, -, hcop, h1⟩ := line_tokens (env := env) hact hc hp (lineAt_quiet h hline (n := n) (uses := us)) rfl hlex
      (fun s hs => hs)
    simp only [List.nil_append, List.map_nil] at h1 hall
    obtain ⟨st2, hn, hq, f1, f2, f3⟩ := read h1 l1 hl
    have hk : e.tok.kind = .eof := he
    have hrun : pLoop env 1 st1 = some (.result (pushLine (pushWs e st2))) := by
      simp only [pLoop, hn, pStep_sym, hq.calm.conds, hact, Bool.false_eq_true, if_false, processActive, hk]
      rfl
    obtain ⟨g, hg⟩ := reaches_run r1 hrun
    have hok := lineOk_text h1.ok (a := ws) (b := blanks e.delta.col) (by rw [hd]; exact shown_blanks hws)
    refine ⟨g, _, [st1.line ++ blanks e.delta.col], [st1.line ++ blanks e.delta.col], os.map (fun o => (n, o)), am.map (fun e => (n, e)), hg, hq.calm.args, ?_,
      hq.offsets, ?_, ?_, ⟨by simp, by simp, rfl⟩, rfl, ?_, ?_⟩
    · show st2.out ++ [st2.line ++ blanks e.delta.col] = _
      rw [f2, hq.calm.out]; rfl
    · intro x hx
      obtain ⟨o, -, rfl⟩ := List.mem_map.1 hx
      exact Nat.le_refl _
    · intro x hx
      obtain ⟨o, -, rfl⟩ := List.mem_map.1 hx
      exact Nat.le_refl _
    · intro i line hi
      cases i with
      | zero =>
        simp only [List.getElem?_cons_zero, Option.some.injEq] at hi
        subst hi
        refine ⟨_, rfl, fun h => absurd (.inl rfl) h, fun _ => ⟨segs ++ [.text ws.length], ?_⟩⟩
        rw [Nat.add_zero, onLine_map, if_pos rfl, onLine_map, if_pos rfl]
        exact ⟨hok, hcop⟩
      | succ i => simp at hi
    · simpa using marks_line hp hc hall
  | @code n fr toks rest us src ws e ls hact hp hc he hrest ih =>
    intro past base st h hline hlex hT
    obtain ⟨st1, segs, os, am, r1, l1, hall, -, hcop, h1⟩ := line_tokens (env := env) hact hc hp (lineAt_quiet h hline (n := n) (uses := us)) rfl hlex
      (fun s hs => hs)
    simp only [List.nil_append, List.map_nil] at h1 hall
    obtain ⟨st2, hn, hq, f1, f2, f3⟩ := read h1 l1 he.line
    have hk : e.tok.kind = .newline := he.kind
    have hstep : pStep env 0 e.tok st2 = .next (resetLine (pushLine (pushWs e st2))) := by
      rw [pStep_sym, if_neg (by rw [hq.calm.conds, hact]; simp)]
      simp only [processActive, hk]; rfl
    have hok := lineOk_text h1.ok (a := ws) (b := blanks e.delta.col) (by rw [he.delta]; exact shown_blanks he.blanks)
    have hq' : Quiet fr ((past.add n am).push (st1.line ++ blanks e.delta.col)) (base ++ os.map (fun o => (n, o))) (resetLine (pushLine (pushWs e st2))) :=
      quiet_push hq rfl rfl rfl hq.calm.macros hq.calm.idx hq.calm.conds rfl
        (by show st2.out ++ [st2.line ++ blanks e.delta.col] = _; rw [f2]) rfl rfl rfl rfl
    refine follows_cons (reaches_trans r1 (.step hn hstep (.refl _))) (ih hq' ⟨rfl, rfl⟩ f1 (fun s hs => hT s (by simp [hs]))) rfl rfl (by simp [Past.push, Past.add, counted]) ?_ ?_
      (fun h => absurd (.inl rfl) h) (marks_line hp hc hall)
    · intro x hx
      obtain ⟨o, -, rfl⟩ := List.mem_map.1 hx
      rfl
    · intro _
      refine ⟨⟨segs ++ [.text ws.length], ?_⟩, hcop⟩
      rw [onLine_map, if_pos rfl]
      exact hok
  | @comment n fr toks more rest x us src text ws e ls hact hp hc hb hx hlaid hplain he hrest ih =>
    intro past base st h hline hlex hT
    obtain ⟨st1, segs, os, am, r1, l1, hall, -, hcop, h1⟩ := line_tokens (env := env) hact hc hp (lineAt_quiet h hline (n := n) (uses := us)) rfl hlex
      (fun s hs => hs)
    simp only [List.nil_append, List.map_nil] at h1 hall
    obtain ⟨st2, hn, hq, f1, f2, f3⟩ := read h1 l1 hx
    obtain ⟨st3, r3, l3, q3, t3⟩ := laid_run (env := env) hact more x st2 hn hq f1 hplain
    obtain ⟨st', r4, l4, h4, q4⟩ := break_step (env := env) q3 l3 he.kind
    rw [if_neg (by rw [hact]; simp), t3, f2] at q4
    have hsame : (text ++ ws).map shown = (copied (x :: more) ++ blanks e.delta.col).map shown := by
      rw [List.map_append, List.map_append, he.delta, ← shown_blanks he.blanks,
        copied_laid hlaid fun s hs => fun hk => (by have := (hplain s hs).1; rw [hk] at this; exact this)]
    have hlen : (splitLines (text ++ ws)).length = breaks text + 1 := by rw [splitLines_length, breaks_append, breaks_blank he.blanks]
    have hsp := splitLines_shown hsame
    obtain ⟨a, as, ha⟩ := List.exists_cons_of_ne_nil (splitLines_ne (text ++ ws))
    obtain ⟨b, bs, hbs⟩ := List.exists_cons_of_ne_nil (splitLines_ne (copied (x :: more) ++ blanks e.delta.col))
    rw [ha, hbs, List.map_cons, List.map_cons, List.cons.injEq] at hsp
    rw [ha, List.length_cons, Nat.add_right_cancel_iff] at hlen
    have hpush : st1.line ++ copied (x :: more) ++ blanks e.delta.col = joinLines ((st1.line ++ b) :: bs) := by
      have := joinLines_splitLines (copied (x :: more) ++ blanks e.delta.col)
      rw [hbs] at this
      rw [List.append_assoc, ← this]
      cases bs <;> simp [joinLines]
    rw [splitLines_append hb _ ha]
    have hok := lineOk_text h1.ok hsp.1
    refine follows_block (mores := as.map fun t => ⟨t, fr.macros, [], .more⟩) (txts := bs) (past' := (past.add n am).push (joinLines ((st1.line ++ b) :: bs)))
      (reaches_trans r1 (reaches_trans r3 r4)) ?_ rfl rfl (by simp [Past.push, Past.add, counted]) ?_ ?_ (fun h => absurd (.inl rfl) h) (marks_line hp hc hall) ?_ ?_
    · rw [List.length_map, hlen, show n + 1 + breaks text = n + breaks text + 1 by omega]
      rw [hpush] at q4
      exact ih q4 h4 l4 (fun s hs => hT s (by simp [hs]))
    · intro y hy
      obtain ⟨o, -, rfl⟩ := List.mem_map.1 hy
      rfl
    · intro _
      refine ⟨⟨segs ++ [.text a.length], ?_⟩, hcop⟩
      rw [onLine_map, if_pos rfl]
      exact hok
    · intro l hl
      obtain ⟨t, -, rfl⟩ := List.mem_map.1 hl
      exact ⟨rfl, rfl⟩
    · rw [List.map_map]; exact hsp.2
  | @skipped n fr toks rest src ws e ls hact hk he hrest ih =>
    intro past base st h hline hlex hT
    obtain ⟨st', txt, r, h1, h2, h3, h4⟩ := rest_of_line (env := env) he.kind toks st h hlex (fun s hs => hT s (by simp [hs])) (fun s hs => .inr ⟨hact, hk s hs⟩) (by rw [hline.1]; exact bare_nil)
    exact follows_skip r (ih h3 h2 h1 (fun s hs => hT s (by simp [hs]))) rfl rfl h4
  | @define n fr d toks rest src ws e ls name m hact hk hp htoks he hin hdef hnl hrest ih =>
    intro past base st h hline hlex hT
    obtain ⟨st', r, h1, h2, h3⟩ := define_step hact hk htoks he hin hdef hnl h hline hlex
    refine follows_copy r (ih h3 h2 h1 (fun s hs => hT s (by simp [hs]))) ?_ rfl rfl
    have hcp := copied_placed hp (by
      intro s hs
      rcases List.mem_cons.1 hs with rfl | hs
      · rw [hk]; simp
      · exact (htoks s hs).1)
    show (src ++ ws).map shown = _
    rw [List.map_append, List.map_append, hcp, he.delta, shown_blanks he.blanks]
  | @defineLong n fr d toks rest text ws e ls name m hact hk hlaid htoks he hin hdef hnl hrest ih =>
    intro past base st h hline hlex hT
    obtain ⟨st', r, h1, h2, h3⟩ := define_step hact hk htoks he hin hdef hnl h hline hlex
    have hsame : (text ++ ws).map shown = (copied (d :: toks) ++ blanks e.delta.col).map shown := by
      rw [List.map_append, List.map_append, he.delta, ← shown_blanks he.blanks, copied_laid hlaid (by
        intro s hs
        rcases List.mem_cons.1 hs with rfl | hs
        · rw [hk]; simp
        · exact (htoks s hs).1)]
    have hlen : (splitLines (text ++ ws)).length = breaks text + 1 := by rw [splitLines_length, breaks_append, breaks_blank he.blanks]
    have hsp := splitLines_shown hsame
    obtain ⟨a, as, ha⟩ := List.exists_cons_of_ne_nil (splitLines_ne (text ++ ws))
    obtain ⟨b, bs, hbs⟩ := List.exists_cons_of_ne_nil (splitLines_ne (copied (d :: toks) ++ blanks e.delta.col))
    rw [ha, hbs, List.map_cons, List.map_cons, List.cons.injEq] at hsp
    rw [ha, List.length_cons, Nat.add_right_cancel_iff] at hlen
    have hpush : copied (d :: toks) ++ blanks e.delta.col = joinLines (b :: bs) := by rw [← hbs, joinLines_splitLines]
    rw [ha]
    refine follows_block (mores := as.map fun t => ⟨t, fr.macros, [], .more⟩) (txts := bs) (past' := past.push (joinLines (b :: bs))) (new := []) (am0 := [])
      r ?_ rfl (by simp [Past.push]) (by simp [Past.push, counted]) (by simp) ?_ (fun h => absurd (.inl rfl) h) (by simp) ?_ ?_
    · rw [List.length_map, hlen, show n + 1 + breaks text = n + breaks text + 1 by omega, List.append_nil]
      rw [hpush] at h3
      exact ih h3 h2 h1 (fun s hs => hT s (by simp [hs]))
    · intro _
      exact ⟨⟨_, by simpa [onLine] using lineOk_copy hsp.1⟩, by simp⟩
    · intro l hl
      obtain ⟨t, -, rfl⟩ := List.mem_map.1 hl
      exact ⟨rfl, rfl⟩
    · rw [List.map_map]; exact hsp.2
  | @undef n fr d x rest src ws e ls hact hk hx hin hp he hrest ih =>
    intro past base st h hline hlex hT
    obtain ⟨hn, hq⟩ := read_quiet h hlex
    have hne : d.kind ≠ .eof := by rw [hk]; simp
    obtain ⟨hq1, e1, e2, -⟩ := pushSym_quiet hq hne
    generalize hst1 : pushSym d { st with lexer := x :: e :: rest } = st1 at hq1 e1 e2
    have hp' : pStep env 0 d.tok { st with lexer := x :: e :: rest } = .next { st1 with
        lexer := e :: rest
        line := st1.line ++ blanks x.delta.col ++ x.text
        pos := ⟨st1.pos.line, st1.pos.char + x.delta.col.natAbs⟩
        macros := updateMacros st1.macros x.text none } := by
      have hk' : d.tok.kind = .dir .undef := hk
      have hcd : st.conds = fr.conds := h.calm.conds
      rw [pStep_sym, if_neg (by show ¬ skipping st.conds = true; rw [hcd, hact]; simp)]
      simp only [processActive, hk', processDirective]
      show Step.next (undefLoop (x :: e :: rest) (pushSym d { st with lexer := x :: e :: rest })) = _
      rw [hst1]
      simp [undefLoop, hin, hx, pushWs]
    have hq2 : Quiet ⟨updateMacros fr.macros x.text none, fr.count, fr.conds⟩ past base { st1 with
        lexer := e :: rest
        line := st1.line ++ blanks x.delta.col ++ x.text
        pos := ⟨st1.pos.line, st1.pos.char + x.delta.col.natAbs⟩
        macros := updateMacros st1.macros x.text none } :=
      quiet_of hq1 rfl rfl rfl (by show updateMacros st1.macros _ _ = _; rw [hq1.calm.macros]) hq1.calm.idx hq1.calm.conds hq1.calm.args hq1.calm.out rfl rfl hq1.offsets hq1.calm.line
    obtain ⟨st', r, h1, h2, h3⟩ := break_step (env := env) hq2 rfl he.kind
    rw [if_neg (by rw [hact]; simp)] at h3
    refine follows_copy (.step hn hp' r) (ih h3 h2 h1 (fun s hs => hT s (by simp [hs]))) ?_ rfl rfl
    have hcp := copied_placed hp (by
      intro s hs
      simp at hs
      rcases hs with rfl | rfl
      · rw [hk]; simp
      · rw [hx]; simp)
    show (src ++ ws).map shown = (st1.line ++ blanks x.delta.col ++ x.text ++ blanks e.delta.col).map shown
    have hls : ({ st with lexer := x :: e :: rest } : PSt).line = [] := hline.1
    rw [List.map_append, hcp, e1, hls, he.delta, shown_blanks he.blanks]
    simp [copied, hk, hx]
  | @«include» n fr d rest text ws ls hact hk htext hl hl' hws hd hrest ih =>
    intro past base st h hline hlex hT
    obtain ⟨hn, hq⟩ := read_quiet h hlex
    have hne : ({ d with text := trim d.text } : Sym).kind ≠ .eof := by rcases hk with hk | hk <;> (show d.kind ≠ _; rw [hk]; simp)
    have hp' : pStep env 0 d.tok { st with lexer := rest } = .next (processInclude env d { st with lexer := rest }) := by
      have hcd : st.conds = fr.conds := h.calm.conds
      rw [pStep_sym, if_neg (by show ¬ skipping st.conds = true; rw [hcd, hact]; simp)]
      rcases hk with hk | hk
      · have hk' : d.tok.kind = .dir .include_ := hk
        simp only [processActive, hk', processDirective]; rfl
      · have hk' : d.tok.kind = .dir .tryinclude := hk
        simp only [processActive, hk', processDirective]; rfl
    have hdelta : d.range.e.line - d.range.s.line = 1 := by omega
    have hinc : processInclude env d { st with lexer := rest } = { st with
        lexer := rest
        macros := env.inc text st.macros
        pos := ⟨st.pos.line + 1, 0⟩
        line := []
        out := st.out ++ [st.line ++ blanks d.delta.col ++ text] } := by
      unfold processInclude
      simp [pushSym, hne, pushWs, pushLine, resetLine, htext, hdelta]
    rw [hinc] at hp'
    refine follows_copy (txt := st.line ++ blanks d.delta.col ++ text) (.step hn hp' (.refl _)) (ih ?_ ⟨rfl, rfl⟩ rfl (fun s hs => hT s (by simp [hs]))) ?_ rfl rfl
    · exact quiet_push h rfl rfl rfl (by show env.inc text st.macros = _; rw [h.calm.macros]) h.calm.idx h.calm.conds rfl rfl rfl rfl rfl rfl
    · show (ws ++ text).map shown = (st.line ++ blanks d.delta.col ++ text).map shown
      rw [hline.1, List.nil_append, List.map_append, List.map_append, hd, shown_blanks hws]
  | @«if» n fr d cond rest src ws e ls b hact hk hp he hin hv hnl hrest ih =>
    intro past base st h hline hlex hT
    obtain ⟨hn, hq⟩ := read_quiet h hlex
    obtain ⟨f, st', new, hs, h1, h2, h3, h4, h5⟩ := if_step (env := env) (cs := fr.conds) hq rfl hp he hin hv hnl
    have hp' : pStep env f d.tok { st with lexer := cond ++ e :: rest } = .next st' := by
      have hk' : d.tok.kind = .dir .if_ := hk
      have hcd : st.conds = fr.conds := h.calm.conds
      rw [pStep_sym, if_neg (by show ¬ skipping st.conds = true; rw [hcd, hact]; simp)]
      simp only [processActive, hk', processDirective]
      rw [← hs, ← hcd]; rfl
    exact follows_cons (am0 := []) (.step hn hp' (.refl _)) (ih h3 (h2 hline) h1 (fun s hs => hT s (by simp [hs]))) rfl (by simp [Past.jump]) (by simp [Past.jump, counted]) h4
      (by intro h; rcases h with h | h <;> cases h) (fun _ => bare_nil) h5
  | @ifSkipped n fr d toks rest src ws e ls hact hk htoks he hrest ih =>
    intro past base st h hline hlex hT
    obtain ⟨hn, hq⟩ := read_quiet h hlex
    have hp' : pStep env 0 d.tok { st with lexer := toks ++ e :: rest } = .next { st with lexer := toks ++ e :: rest, conds := .activated :: st.conds } := by
      rw [pStep_sym, if_pos (by show skipping st.conds = true; rw [h.calm.conds, hact])]
      simp only [processNegative, hk]
    have hq1 : Quiet ⟨fr.macros, fr.count, .activated :: fr.conds⟩ past base { st with lexer := toks ++ e :: rest, conds := .activated :: st.conds } :=
      quiet_of h rfl rfl rfl h.calm.macros h.calm.idx (by show _ :: st.conds = _; rw [h.calm.conds]) h.calm.args h.calm.out rfl rfl h.offsets h.calm.line
    obtain ⟨st', txt, r, h1, h2, h3, h4⟩ := rest_of_line (env := env) he.kind toks _ hq1 rfl (fun s hs => hT s (by simp [hs])) (fun s hs => .inr ⟨rfl, htoks s hs⟩) (by show Bare T st.line; rw [hline.1]; exact bare_nil)
    exact follows_skip (.step hn hp' r) (ih h3 h2 h1 (fun s hs => hT s (by simp [hs]))) rfl rfl h4
  | @elseif n fr cs d cond rest src ws e ls b hcs hk hp he hin hv hnl hrest ih =>
    intro past base st h hline hlex hT
    obtain ⟨hn, hq⟩ := read_quiet h hlex
    obtain ⟨f, st', new, hs, h1, h2, h3, h4, h5⟩ := if_step (env := env) (cs := cs) hq rfl hp he hin hv hnl
    have hp' : pStep env f d.tok { st with lexer := cond ++ e :: rest } = .next st' := by
      have hcd : st.conds = .notActivated :: cs := by rw [h.calm.conds, hcs]
      rw [pStep_sym, if_pos (by show skipping st.conds = true; rw [hcd]; rfl)]
      simp only [processNegative, hk, processElseif, hcd]
      exact hs
    exact follows_cons (am0 := []) (.step hn hp' (.refl _)) (ih h3 (h2 hline) h1 (fun s hs => hT s (by simp [hs]))) rfl (by simp [Past.jump]) (by simp [Past.jump, counted]) h4
      (by intro h; rcases h with h | h <;> cases h) (fun _ => bare_nil) h5
  | @elseifSkipped n fr c cs d toks rest src ws e ls hcs hc hk htoks he hrest ih =>
    intro past base st h hline hlex hT
    obtain ⟨hn, hq⟩ := read_quiet h hlex
    have hcd : st.conds = c :: cs := by rw [h.calm.conds, hcs]
    have hp' : pStep env 0 d.tok { st with lexer := toks ++ e :: rest } = .next { st with lexer := toks ++ e :: rest, conds := .activated :: cs } := by
      have hk' : d.tok.kind = .dir .elseif := hk
      rw [pStep_sym]
      cases c with
      | notActivated => exact absurd rfl hc
      | activated =>
        rw [if_pos (by show skipping st.conds = true; rw [hcd]; rfl)]
        simp only [processNegative, hk, processElseif, hcd]
      | active =>
        rw [if_neg (by show ¬ skipping st.conds = true; rw [hcd]; simp [skipping])]
        simp only [processActive, hk', processDirective, processElseif, hcd]
    have hq1 : Quiet ⟨fr.macros, fr.count, .activated :: cs⟩ past base { st with lexer := toks ++ e :: rest, conds := .activated :: cs } :=
      quiet_of h rfl rfl rfl h.calm.macros h.calm.idx rfl h.calm.args h.calm.out rfl rfl h.offsets h.calm.line
    obtain ⟨st', txt, r, h1, h2, h3, h4⟩ := rest_of_line (env := env) he.kind toks _ hq1 rfl (fun s hs => hT s (by simp [hs])) (fun s hs => .inr ⟨rfl, htoks s hs⟩) (by show Bare T st.line; rw [hline.1]; exact bare_nil)
    exact follows_skip (.step hn hp' r) (ih h3 h2 h1 (fun s hs => hT s (by simp [hs]))) rfl rfl h4
  | @«else» n fr c cs d toks rest src ws e ls hcs hk htoks he hrest ih =>
    intro past base st h hline hlex hT
    obtain ⟨hn, hq⟩ := read_quiet h hlex
    have hcd : st.conds = c :: cs := by rw [h.calm.conds, hcs]
    have hp' : ∃ st1, pStep env 0 d.tok { st with lexer := toks ++ e :: rest } = .next st1 ∧ st1.lexer = toks ++ e :: rest ∧
        Quiet ⟨fr.macros, fr.count, afterElse c :: cs⟩ past base st1 ∧ st1.line = st.line := by
      have hk' : d.tok.kind = .dir .else_ := hk
      rw [pStep_sym]
      cases c with
      | notActivated =>
        rw [if_pos (by show skipping st.conds = true; rw [hcd]; rfl)]
        simp only [processNegative, hk, processElse, hcd]
        exact ⟨_, rfl, rfl, quiet_of h rfl rfl rfl h.calm.macros h.calm.idx rfl h.calm.args h.calm.out rfl rfl h.offsets h.calm.line, rfl⟩
      | activated =>
        rw [if_pos (by show skipping st.conds = true; rw [hcd]; rfl)]
        simp only [processNegative, hk, processElse, hcd]
        exact ⟨_, rfl, rfl, quiet_of h rfl rfl rfl h.calm.macros h.calm.idx rfl h.calm.args h.calm.out rfl rfl h.offsets h.calm.line, rfl⟩
      | active =>
        rw [if_neg (by show ¬ skipping st.conds = true; rw [hcd]; simp [skipping])]
        simp only [processActive, hk', processDirective, processElse, hcd]
        exact ⟨_, rfl, rfl, quiet_of h rfl rfl rfl h.calm.macros h.calm.idx rfl h.calm.args h.calm.out rfl rfl h.offsets h.calm.line, rfl⟩
    obtain ⟨st1, hp', hl1, hq1, hb1⟩ := hp'
    obtain ⟨st', txt, r, h1, h2, h3, h4⟩ := rest_of_line (env := env) he.kind toks st1 hq1 hl1 (fun s hs => hT s (by simp [hs])) (fun s hs => .inl (htoks s hs)) (by rw [hb1, hline.1]; exact bare_nil)
    exact follows_skip (.step hn hp' r) (ih h3 h2 h1 (fun s hs => hT s (by simp [hs]))) rfl rfl h4
  | @«endif» n fr c cs d toks rest src ws e ls hcs hk htoks he hrest ih =>
    intro past base st h hline hlex hT
    obtain ⟨hn, hq⟩ := read_quiet h hlex
    have hcd : st.conds = c :: cs := by rw [h.calm.conds, hcs]
    have hend : ∃ st1, processEndif d { st with lexer := toks ++ e :: rest } = .next st1 ∧ st1.lexer = toks ++ e :: rest ∧
        Quiet ⟨fr.macros, fr.count, cs⟩ past base st1 ∧ st1.line = st.line := by
      unfold processEndif
      simp only [hcd]
      split
      · split
        · exact ⟨_, rfl, rfl, quiet_of h rfl rfl rfl h.calm.macros h.calm.idx rfl h.calm.args h.calm.out rfl rfl h.offsets h.calm.line, rfl⟩
        · exact ⟨_, rfl, rfl, quiet_of h rfl rfl rfl h.calm.macros h.calm.idx rfl h.calm.args h.calm.out rfl rfl h.offsets h.calm.line, rfl⟩
      · exact ⟨_, rfl, rfl, quiet_of h rfl rfl rfl h.calm.macros h.calm.idx rfl h.calm.args h.calm.out rfl rfl h.offsets h.calm.line, rfl⟩
    obtain ⟨st1, hs, hl1, hq1, hb1⟩ := hend
    have hp' : pStep env 0 d.tok { st with lexer := toks ++ e :: rest } = .next st1 := by
      have hk' : d.tok.kind = .dir .endif := hk
      rw [pStep_sym]
      split
      · simp only [processNegative, hk]; exact hs
      · simp only [processActive, hk', processDirective]; exact hs
    obtain ⟨st', txt, r, h1, h2, h3, h4⟩ := rest_of_line (env := env) he.kind toks st1 hq1 hl1 (fun s hs => hT s (by simp [hs])) (fun s hs => .inl (htoks s hs)) (by rw [hb1, hline.1]; exact bare_nil)
    exact follows_skip (.step hn hp' r) (ih h3 h2 h1 (fun s hs => hT s (by simp [hs]))) rfl rfl h4

/-- The start of a file. -/
theorem file_result {env : Env} {ms : Macros} {tokens : List Sym} {lines : List Line} (hf : File env 0 ⟨ms, 0, []⟩ tokens lines) :
    Follows env tokens 0 lines ⟨[], [], 0⟩ [] { lexer := tokens, macros := ms } :=
  file_run hf ⟨⟨rfl, rfl, rfl, rfl, rfl, rfl, rfl, rfl, fun _ => rfl, rfl⟩, rfl, rfl⟩ ⟨rfl, rfl⟩ rfl (fun _ h => h)

/-! ### The uses of a line -/

/-- The tokens of a line are on this line, not empty, and one after the other. -/
theorem placed_sorted {n c : Nat} {toks : List Sym} {src : Str} (h : Placed n c toks src) :
    toks.Pairwise (fun a b => a.range.e.char ≤ b.range.s.char) ∧
      ∀ s ∈ toks, s.range.s.line = n ∧ s.range.e.line = n ∧ c ≤ s.range.s.char ∧ s.range.s.char < s.range.e.char ∧
        s.range.e.char = s.range.s.char + s.text.length := by
  induction h with
  | nil => simp
  | @cons c ws s0 ss r _ h2 _ h5 h6 ih =>
    have hp := List.length_pos_iff.2 h2
    refine ⟨List.pairwise_cons.2 ⟨fun s hs => ?_, ih.1⟩, fun s hs => ?_⟩
    · rw [h5]; exact (ih.2 s hs).2.2.1
    · rcases List.mem_cons.1 hs with h | h
      · rw [h, h5]; exact ⟨rfl, rfl, by dsimp only; omega, by dsimp only; omega, rfl⟩
      · have := ih.2 s h
        exact ⟨this.1, this.2.1, by omega, this.2.2.2⟩

/-- A use on line `n` from column `c` on, and the tokens of its arguments within it. -/
structure Arranged1 (ms : Macros) (n c : Nat) (u : Use) : Prop where
  use : IsUse ms u.name
  line : u.name.range.s.line = n ∧ u.name.range.e.line = n
  args : ∀ x ∈ u.args, x.range.s.line = n ∧ x.range.e.line = n
  delta : 0 ≤ u.name.delta.col ∧ ∀ x ∈ u.args, 0 ≤ x.delta.col
  name : c ≤ u.name.range.s.char ∧ u.name.range.s.char < u.name.range.e.char ∧ u.name.range.e.char ≤ u.stop
  order : u.inner.Pairwise (fun a b => a.range.e.char ≤ b.range.s.char)
  inner : ∀ x ∈ u.inner, x.range.s.line = n ∧ x.range.e.line = n ∧ u.name.range.e.char < x.range.s.char ∧ x.range.s.char < x.range.e.char ∧ x.range.e.char < u.stop ∧
    x.range.e.char = x.range.s.char + x.text.length

/-- The uses of a line, one after the other. -/
structure Arranged (ms : Macros) (n c : Nat) (us : List Use) : Prop where
  order : us.Pairwise (fun a b => a.stop ≤ b.name.range.s.char)
  each : ∀ u ∈ us, Arranged1 ms n c u

theorem arranged_nil {ms : Macros} {n c : Nat} : Arranged ms n c [] := ⟨.nil, by simp⟩

theorem Arranged1.from {ms : Macros} {n c c' : Nat} {u : Use} (h : Arranged1 ms n c u) (hc : c' ≤ c) : Arranged1 ms n c' u :=
  ⟨h.use, h.line, h.args, h.delta, ⟨by have := h.name.1; omega, h.name.2⟩, h.order, h.inner⟩

theorem arranged_cons {ms : Macros} {n c c' : Nat} {u : Use} {us : List Use} (h : Arranged1 ms n c u) (hc : u.stop ≤ c') (hus : Arranged ms n c' us) :
    Arranged ms n c (u :: us) := by
  refine ⟨List.pairwise_cons.2 ⟨fun x hx => ?_, hus.order⟩, fun x hx => ?_⟩
  · have := (hus.each x hx).name.1; omega
  · rcases List.mem_cons.1 hx with rfl | hx
    · exact h
    · exact (hus.each x hx).from (by have := h.name; omega)

theorem arranged_from {ms : Macros} {n c c' : Nat} {us : List Use} (h : Arranged ms n c us) (hc : c' ≤ c) : Arranged ms n c' us :=
  ⟨h.order, fun u hu => (h.each u hu).from hc⟩

theorem arranged_name {ms : Macros} {n c : Nat} {s : Sym} {ws : Str} (hu : IsUse ms s) (ht : s.text ≠ []) (hd : s.delta.col = Int.ofNat ws.length)
    (hr : s.range = ⟨⟨n, c + ws.length⟩, ⟨n, c + ws.length + s.text.length⟩⟩) : Arranged1 ms n c ⟨s, []⟩ ∧ Use.stop ⟨s, []⟩ = c + ws.length + s.text.length := by
  have hp := List.length_pos_iff.2 ht
  have hstop : Use.stop ⟨s, []⟩ = c + ws.length + s.text.length := by simp [Use.stop, hr]
  refine ⟨⟨hu, by rw [hr]; exact ⟨rfl, rfl⟩, by simp, ⟨by rw [hd]; simp, by simp⟩, ?_, by simp [Use.inner], by simp [Use.inner]⟩, hstop⟩
  rw [hstop, hr]
  dsimp only; omega

theorem arranged_code {ms : Macros} {n : Nat} {toks : List Sym} {us : List Use} (h : Code ms toks us) : ∀ {c : Nat} {src : Str}, Placed n c toks src →
    Arranged ms n c us := by
  induction h with
  | nil => intro c src _; exact arranged_nil
  | plain _ _ _ ih =>
    intro c src hp
    cases hp with
    | cons h1 h2 h3 h4 h5 => exact arranged_from (ih h5) (by omega)
  | @use s ss us hu _ _ _ ih =>
    intro c src hp
    cases hp with
    | cons h1 h2 h3 h4 h5 =>
      obtain ⟨g1, g2⟩ := arranged_name hu h2 h3 h4
      exact arranged_cons g1 (Nat.le_of_eq g2) (ih h5)
  | @call s args ss us m params as pieces hcall _ ih =>
    intro c src hp
    cases hp with
    | @cons _ ws _ _ _ h1 h2 h3 h4 h5 =>
      obtain ⟨s1, s2, rfl, p1, p2⟩ := placed_append args _ _ h5
      obtain ⟨l, mid, r, e, -⟩ := hcall.tokens
      have hlen := List.length_pos_iff.2 h2
      have hstop : Use.stop ⟨s, args⟩ = c + ws.length + s.text.length + s1.length := by
        rw [e, ← List.cons_append] at p1 ⊢
        rw [Use.stop, List.getLast?_concat]
        exact placed_last _ _ _ _ p1
      have hinner : Use.inner ⟨s, args⟩ = mid := by rw [e]; simp [Use.inner]
      obtain ⟨q1, q2⟩ := placed_sorted p1
      rw [e] at q1 q2
      have ql := q2 l (by simp)
      obtain ⟨q3, q4⟩ := List.pairwise_cons.1 q1
      obtain ⟨q5, -, q6⟩ := List.pairwise_append.1 q4
      have hr := placed_last (l :: mid) r _ _ (by rw [List.cons_append, ← e]; exact p1)
      have qr := q2 r (by simp)
      refine arranged_cons (c' := c + ws.length + s.text.length + s1.length) ⟨⟨hcall.kind, by rw [hcall.isMacro]; simp⟩, by rw [h4]; exact ⟨rfl, rfl⟩,
          fun x hx => ⟨(q2 x (by rw [← e]; exact hx)).1, (q2 x (by rw [← e]; exact hx)).2.1⟩,
          ⟨by rw [h3]; simp, fun x hx => (line_of_placed p1 x hx).2⟩, ?_, ?_, ?_⟩
        (Nat.le_of_eq hstop) (ih p2)
      · rw [hstop, h4]; dsimp only; omega
      · rw [hinner]; exact q5
      · rw [hinner, hstop]
        intro x hx
        have a1 := q2 x (by simp [hx])
        have a2 := q3 x (by simp [hx])
        have a3 := q6 x hx r (by simp)
        rw [h4]
        dsimp only
        omega
  | @deepUse s ss us m d r hk hm _ _ _ _ _ _ ih =>
    intro c src hp
    cases hp with
    | cons h1 h2 h3 h4 h5 =>
      obtain ⟨g1, g2⟩ := arranged_name (ms := ms) ⟨hk, by rw [hm]; simp⟩ h2 h3 h4
      exact arranged_cons g1 (Nat.le_of_eq g2) (ih h5)
  | @deepCall s args ss us m params as pieces hcall _ ih =>
    intro c src hp
    cases hp with
    | @cons _ ws _ _ _ h1 h2 h3 h4 h5 =>
      obtain ⟨s1, s2, rfl, p1, p2⟩ := placed_append args _ _ h5
      obtain ⟨l, mid, r, e, -⟩ := hcall.tokens
      have hlen := List.length_pos_iff.2 h2
      have hstop : Use.stop ⟨s, args⟩ = c + ws.length + s.text.length + s1.length := by
        rw [e, ← List.cons_append] at p1 ⊢
        rw [Use.stop, List.getLast?_concat]
        exact placed_last _ _ _ _ p1
      have hinner : Use.inner ⟨s, args⟩ = mid := by rw [e]; simp [Use.inner]
      obtain ⟨q1, q2⟩ := placed_sorted p1
      rw [e] at q1 q2
      have ql := q2 l (by simp)
      obtain ⟨q3, q4⟩ := List.pairwise_cons.1 q1
      obtain ⟨q5, -, q6⟩ := List.pairwise_append.1 q4
      have hr := placed_last (l :: mid) r _ _ (by rw [List.cons_append, ← e]; exact p1)
      have qr := q2 r (by simp)
      refine arranged_cons (c' := c + ws.length + s.text.length + s1.length) ⟨⟨hcall.kind, by rw [hcall.isMacro]; simp⟩, by rw [h4]; exact ⟨rfl, rfl⟩,
          fun x hx => ⟨(q2 x (by rw [← e]; exact hx)).1, (q2 x (by rw [← e]; exact hx)).2.1⟩,
          ⟨by rw [h3]; simp, fun x hx => (line_of_placed p1 x hx).2⟩, ?_, ?_, ?_⟩
        (Nat.le_of_eq hstop) (ih p2)
      · rw [hstop, h4]; dsimp only; omega
      · rw [hinner]; exact q5
      · rw [hinner, hstop]
        intro x hx
        have a1 := q2 x (by simp [hx])
        have a2 := q3 x (by simp [hx])
        have a3 := q6 x hx r (by simp)
        rw [h4]
        dsimp only
        omega

theorem arranged_cond {ms : Macros} {n c : Nat} {toks : List Sym} {src : Str} (hp : Placed n c toks src) : Arranged ms n c (usesOf ms toks) := by
  induction hp with
  | nil => exact arranged_nil
  | @cons c ws s ss r h1 h2 h3 h4 h5 ih =>
    by_cases hu : IsUse ms s
    · have e : usesOf ms (s :: ss) = ⟨s, []⟩ :: usesOf ms ss := by simp [usesOf, hu]
      rw [e]
      obtain ⟨g1, g2⟩ := arranged_name hu h2 h3 h4
      exact arranged_cons g1 (Nat.le_of_eq g2) ih
    · have e : usesOf ms (s :: ss) = usesOf ms ss := by simp [usesOf, hu]
      rw [e]
      exact arranged_from ih (by omega)

/-- The uses of the lines of a file. -/
theorem file_lines {env : Env} {n : Nat} {fr : Front} {toks : List Sym} {lines : List Line} (h : File env n fr toks lines) :
    ∀ i line, lines[i]? = some line → Arranged line.macros (n + i) 0 line.uses := by
  have step : ∀ {n : Nat} {l : Line} {ls : List Line}, Arranged l.macros n 0 l.uses →
      (∀ i line, ls[i]? = some line → Arranged line.macros (n + 1 + i) 0 line.uses) →
      ∀ i line, (l :: ls)[i]? = some line → Arranged line.macros (n + i) 0 line.uses := by
    intro n l ls h1 h2 i line hl
    cases i with
    | zero => simp only [List.getElem?_cons_zero, Option.some.injEq] at hl; subst hl; exact h1
    | succ i =>
      rw [List.getElem?_cons_succ] at hl
      have := h2 i line hl
      rwa [show n + 1 + i = n + (i + 1) by omega] at this
  have many : ∀ {n : Nat} {ms : Macros} {us : List Use} {ls : List Line} (ts : List Str), Arranged ms n 0 us →
      (∀ i line, ls[i]? = some line → Arranged line.macros (n + ts.length + i) 0 line.uses) →
      ∀ i line, (spread ms us ts ++ ls)[i]? = some line → Arranged line.macros (n + i) 0 line.uses := by
    intro n ms us ls ts h1 h2 i line hl
    cases ts with
    | nil => exact h2 i line hl
    | cons t ts =>
      refine step (l := ⟨t, ms, us, .shown⟩) h1 (fun i line hl => ?_) i line hl
      replace hl : ((ts.map fun t => (⟨t, ms, [], .more⟩ : Line)) ++ ls)[i]? = some line := hl
      by_cases hi : i < ts.length
      · rw [List.getElem?_append_left (by simpa using hi), List.getElem?_map] at hl
        obtain ⟨t', -, rfl⟩ := Option.map_eq_some_iff.1 hl
        exact arranged_nil
      · rw [List.getElem?_append_right (by simpa using hi), List.length_map] at hl
        have := h2 _ line hl
        rwa [List.length_cons, show n + (ts.length + 1) + (i - ts.length) = n + 1 + i by omega] at this
  have cond : ∀ {ms : Macros} {d : Sym} {toks : List Sym}, d.kind ≠ .ident → usesOf ms (d :: toks) = usesOf ms toks := by
    intro ms d toks hd
    have hn : ¬ IsUse ms d := fun h => hd h.1
    rw [usesOf, usesOf, List.filter_cons_of_neg (by simpa using hn)]
  induction h with
  | @last n fr toks us src ws e _ hp hc => exact step (arranged_code hc hp) (by simp)
  | @code n fr toks rest us src ws e ls _ hp hc _ _ ih => exact step (arranged_code hc hp) ih
  | @comment n fr toks more rest x us src text ws e ls _ hp hc hb _ _ _ he _ ih =>
    refine many _ (arranged_code hc hp) ?_
    rw [splitLines_length, breaks_append, breaks_append, hb, breaks_blank he.blanks, Nat.zero_add, Nat.add_zero]
    exact ih
  | skipped _ _ _ _ ih => exact step arranged_nil ih
  | define _ _ _ _ _ _ _ _ _ ih => exact step arranged_nil ih
  | @defineLong n fr d toks rest text ws e ls name m _ _ _ _ he _ _ _ _ ih =>
    refine many _ arranged_nil ?_
    rw [splitLines_length, breaks_append, breaks_blank he.blanks, Nat.add_zero]
    exact ih
  | undef _ _ _ _ _ _ _ ih => exact step arranged_nil ih
  | @«include» _ _ _ _ _ _ _ _ _ _ _ _ _ _ _ ih => exact step arranged_nil ih
  | @«if» n fr d toks rest src ws e ls b _ hd hp _ _ _ _ _ ih =>
    refine step ?_ ih
    show Arranged fr.macros n 0 (usesOf fr.macros toks)
    rw [← cond (d := d) (by rw [hd]; simp)]
    exact arranged_cond hp
  | ifSkipped _ _ _ _ _ ih => exact step arranged_nil ih
  | @elseif n fr cs d toks rest src ws e ls b _ hd hp _ _ _ _ _ ih =>
    refine step ?_ ih
    show Arranged fr.macros n 0 (usesOf fr.macros toks)
    rw [← cond (d := d) (by rw [hd]; simp)]
    exact arranged_cond hp
  | elseifSkipped _ _ _ _ _ _ ih => exact step arranged_nil ih
  | «else» _ _ _ _ _ ih => exact step arranged_nil ih
  | «endif» _ _ _ _ _ ih => exact step arranged_nil ih

theorem pairwise_cases {α : Type} {R : α → α → Prop} {l : List α} (h : l.Pairwise R) : ∀ a ∈ l, ∀ b ∈ l, a = b ∨ R a b ∨ R b a := by
  induction h with
  | nil => simp
  | cons h1 _ ih =>
    intro a ha b hb
    rcases List.mem_cons.1 ha with e | ha <;> rcases List.mem_cons.1 hb with e' | hb
    · exact .inl (e.trans e'.symm)
    · exact .inr (.inl (e ▸ h1 b hb))
    · exact .inr (.inr (e' ▸ h1 a ha))
    · exact ih a ha b hb

/-- No two uses share a column. -/
theorem arranged_unique {ms : Macros} {n c : Nat} {us : List Use} (h : Arranged ms n c us) {u v : Use} (hu : u ∈ us) (hv : v ∈ us) {x : Nat}
    (h1 : u.name.range.s.char ≤ x ∧ x < u.stop) (h2 : v.name.range.s.char ≤ x ∧ x < v.stop) : u = v := by
  rcases pairwise_cases h.order u hu v hv with e | e | e
  · exact e
  · omega
  · omega

/-- No two uses start at the same place. -/
theorem arranged_start {ms : Macros} {n c : Nat} {us : List Use} (h : Arranged ms n c us) {u v : Use} (hu : u ∈ us) (hv : v ∈ us)
    (e : u.name.range.s = v.name.range.s) : u = v := by
  have h1 := (h.each u hu).name
  have h2 := (h.each v hv).name
  refine arranged_unique h hu hv (x := u.name.range.s.char) ⟨Nat.le_refl _, by omega⟩ ⟨by rw [e]; exact Nat.le_refl _, by rw [e]; omega⟩

/-- Code with uses of macros without arguments. -/
theorem code_of {ms : Macros} : ∀ (toks : List Sym), (∀ s ∈ toks, PlainKind s.kind ∧ (IsUse ms s → Simple PlainKind ms s.text ∧ Starts ms 4 s.text)) →
    Code ms toks (usesOf ms toks)
  | [], _ => .nil
  | s :: ss, h => by
    have ih := code_of ss (fun x hx => h x (by simp [hx]))
    by_cases hu : IsUse ms s
    · have e : usesOf ms (s :: ss) = ⟨s, []⟩ :: usesOf ms ss := by simp [usesOf, hu]
      rw [e]
      obtain ⟨-, h2⟩ := h s (by simp)
      exact .use hu (h2 hu).1 (h2 hu).2 ih
    · have e : usesOf ms (s :: ss) = usesOf ms ss := by simp [usesOf, hu]
      rw [e]
      exact .plain (h s (by simp)).1 hu ih

end Verif.Props.Offsets
