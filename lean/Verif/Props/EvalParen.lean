import Verif.Props.EvalTerm
import Verif.Pre.DepthSpec
/-!
# Conditions with definitions that bring parentheses of their own (C22)
-/

namespace Verif.Props.EvalParen

open Verif.Pre Verif.Pre.Spec Verif.Props.PreFuel Verif.Props.MacroTerm Verif.Props.EvalTerm

/-! ### Counting parentheses -/

theorem unclosed_append (a : List Kind) : ∀ n b, unclosed n (a ++ b) = unclosed (unclosed n a) b := by
  induction a with
  | nil => intro n b; rfl
  | cons k a ih =>
    intro n b
    by_cases h1 : k = .lparen
    · subst h1; exact ih _ _
    · by_cases h2 : k = .rparen
      · subst h2; exact ih _ _
      · rw [List.cons_append, unclosed_other _ _ _ h1 h2, unclosed_other _ _ _ h1 h2]; exact ih _ _

theorem unclosed_mono (a : List Kind) : ∀ n n', n ≤ n' → unclosed n a ≤ unclosed n' a := by
  induction a with
  | nil => intro n n' h; exact h
  | cons k a ih =>
    intro n n' h
    by_cases h1 : k = .lparen
    · subst h1; exact ih _ _ (by omega)
    · by_cases h2 : k = .rparen
      · subst h2; exact ih _ _ (by omega)
      · rw [unclosed_other _ _ _ h1 h2, unclosed_other _ _ _ h1 h2]; exact ih _ _ h

theorem unclosed_add (a : List Kind) : ∀ n k, unclosed (n + k) a ≤ n + unclosed k a := by
  induction a with
  | nil => intro n k; exact Nat.le_refl _
  | cons c a ih =>
    intro n k
    by_cases h1 : c = .lparen
    · subst h1; exact ih n (k + 1)
    · by_cases h2 : c = .rparen
      · subst h2
        exact Nat.le_trans (unclosed_mono a _ _ (by omega : n + k - 1 ≤ n + (k - 1))) (ih n (k - 1))
      · rw [unclosed_other _ _ _ h1 h2, unclosed_other _ _ _ h1 h2]; exact ih _ _

theorem unclosed_closed {a : List Kind} (h : unclosed 0 a = 0) (n : Nat) : unclosed n a ≤ n := by
  have := unclosed_add a n 0
  rw [h] at this; simpa using this

/-! ### Kinds of an expansion -/

def qk (l : List QTok) : List Kind := l.map (fun q => q.tok.kind)

theorem bodySyms_kinds (rs : List RSym) : ∀ prev, (bodySyms prev rs).map (·.kind) = rs.map (·.kind) := by
  induction rs with
  | nil => intro prev; rfl
  | cons r rs ih => intro prev; simp only [bodySyms, List.map_cons, ih]; rfl

theorem bodyQueue_kinds (d : Delta) (ss : List Sym) : qk (bodyQueue d ss) = ss.map (·.kind) := by
  cases ss with
  | nil => rfl
  | cons s ss =>
    simp only [qk, bodyQueue, List.map_cons, List.map_map, List.cons.injEq]
    exact ⟨rfl, List.map_congr_left fun _ _ => rfl⟩

theorem dropLastNewline_unclosed (q : List QTok) (n : Nat) : unclosed n (qk (dropLastNewline q)) = unclosed n (qk q) := by
  unfold dropLastNewline
  split
  · rename_i b hb
    split
    · rename_i hk
      obtain ⟨l, rfl⟩ : ∃ l, q = l ++ [b] := by
        rcases List.eq_nil_or_concat q with rfl | ⟨l, c, rfl⟩
        · simp at hb
        · rw [List.concat_eq_append] at hb ⊢
          simp only [List.getLast?_append, List.getLast?_singleton, Option.some_or, Option.some.injEq] at hb
          exact ⟨l, by rw [hb]⟩
      simp only [List.dropLast_concat, qk, List.map_append, List.map_cons, List.map_nil, hk]
      rw [unclosed_append]; rfl
    · rfl
  · rfl

theorem expandNonMacro_unclosed (m : Macro) (d : Delta) (prev : Rng) (n : Nat) :
    unclosed n (qk (expandNonMacro m d prev)) = unclosed n (m.body.map (·.kind)) := by
  unfold expandNonMacro
  rw [dropLastNewline_unclosed, bodyQueue_kinds, bodySyms_kinds]

/-! ### The expansion is carried to its end -/

/-- Neither a division nor a remainder; a name is one of `R` and no deeper than `d`. -/
def Fine (macros : Macros) (R : Str → Prop) (d : Nat) (k : Kind) (x : Str) : Prop :=
  k ≠ .op .slash ∧ k ≠ .op .percent ∧ (k = .ident → R x ∧ Nested macros d x)

def Levels (macros : Macros) (R : Str → Prop) : List (List QTok) → Prop
  | [] => True
  | top :: rest => (∀ q ∈ top, TP (Fine macros R (4 - rest.length)) q.tok) ∧ Levels macros R rest

structure XC (macros : Macros) (R : Str → Prop) (lexer : List Sym) (st : XSt) : Prop where
  levels : Levels macros R st.ctxs
  short : st.ctxs.length ≤ 5
  popped : st.popped = []
  lexer : st.lexer = lexer
  out : ∀ t ∈ st.out, t.kind ≠ .op .slash ∧ t.kind ≠ .op .percent ∧ t.kind ≠ .ident
  closed : ∀ n, unclosed n (st.out.map (·.kind) ++ (st.ctxs.map qk).flatten) ≤ n

/-- What is asked of the definitions: no parameters, parentheses closed, no division. -/
def Sound (macros : Macros) (R : Str → Prop) : Prop :=
  ∀ x m, R x → macros x = some m → m.params = none ∧ unclosed 0 (m.body.map (·.kind)) = 0 ∧
    ∀ r ∈ m.body, r.kind ≠ .op .slash ∧ r.kind ≠ .op .percent ∧ (r.kind = .ident → R r.text)

theorem expandNonMacro_fine {macros : Macros} {R : Str → Prop} (hR : Sound macros R) {d : Nat} {x : Str} {m : Macro} (hx : R x)
    (hd : Nested macros (d + 1) x) (hm : macros x = some m) (dl : Delta) (prev : Rng) :
    ∀ q ∈ expandNonMacro m dl prev, TP (Fine macros R d) q.tok :=
  expandNonMacro_P (Fine macros R d) (fun r hr =>
    have h := (hR x m hx hm).2.2 r hr
    ⟨h.1, h.2.1, fun hk => ⟨h.2.2 hk, hd m hm r hr hk⟩⟩) dl prev

theorem xLoop_closed (macros : Macros) (R : Str → Prop) (hR : Sound macros R) (token : Tok) (lexer : List Sym) (f : Nat) :
    ∀ st st', XC macros R lexer st → xLoop macros false token f st = some (.continue_ st') → XC macros R lexer st' ∧ st'.ctxs = [] := by
  induction f with
  | zero => intro st st' _ h; simp [xLoop] at h
  | succ f ih =>
    intro st st' hst h
    simp only [xLoop] at h
    split at h
    · rename_i he
      simp only [Option.some.injEq, XRes.continue_.injEq] at h; subst h; exact ⟨hst, he⟩
    · rename_i top rest he
      have hshort : rest.length + 1 ≤ 5 := by have := hst.short; rw [he] at this; simpa using this
      rw [if_pos (by omega)] at h
      obtain ⟨htop, hrest⟩ : (∀ q ∈ top, TP (Fine macros R (4 - rest.length)) q.tok) ∧ Levels macros R rest := by
        have := hst.levels; rw [he] at this; exact this
      have hcl : ∀ n, unclosed n (st.out.map (·.kind) ++ (qk top ++ (rest.map qk).flatten)) ≤ n := by
        have := hst.closed; rw [he] at this; simpa using this
      cases hs : xStep macros false token top rest st with
      | error e st₁ => rw [hs] at h; simp at h
      | continue_ st₁ =>
        rw [hs] at h
        refine ih st₁ st' ?_ h
        cases top with
        | nil =>
          simp only [xStep, XRes.continue_.injEq] at hs; subst hs
          exact ⟨hrest, by simp only; omega, hst.popped, hst.lexer, hst.out, by simpa [qk] using hcl⟩
        | cons q cur =>
          have hq := htop q (by simp)
          have hcur : Levels macros R (cur :: rest) := ⟨fun x hx => htop x (by simp [hx]), hrest⟩
          -- a token goes to the output
          have hmove : ∀ u : Tok, u.kind = q.tok.kind → q.tok.kind ≠ .ident →
              XC macros R lexer { st with ctxs := cur :: rest, out := st.out ++ [u] } := by
            intro u hu hi
            refine ⟨hcur, by simpa using hshort, hst.popped, hst.lexer, ?_, ?_⟩
            · intro t ht
              simp only [List.mem_append, List.mem_singleton] at ht
              rcases ht with ht | rfl
              · exact hst.out t ht
              · rw [hu]; exact ⟨hq.1, hq.2.1, hi⟩
            · intro n
              have := hcl n
              simpa [qk, hu] using this
          have hskip : q.tok.kind ≠ .lparen → q.tok.kind ≠ .rparen → XC macros R lexer { st with ctxs := cur :: rest } := by
            intro h1 h2
            refine ⟨hcur, by simpa using hshort, hst.popped, hst.lexer, hst.out, ?_⟩
            intro n
            have := hcl n
            simp only [qk, List.map_cons, List.cons_append] at this
            rw [unclosed_append, unclosed_other _ _ _ h1 h2, ← unclosed_append] at this
            simpa [qk] using this
          unfold xStep at hs
          dsimp only at hs
          split at hs
          · rename_i hk
            obtain ⟨hRx, hdx⟩ := hq.2.2 hk
            split at hs
            · simp at hs
            · rename_i m hm
              rw [(hR _ m hRx hm).1] at hs
              simp only [XRes.continue_.injEq] at hs; subst hs
              have hlen : rest.length < 4 := by
                by_contra hge
                have h0 : 4 - rest.length = 0 := by omega
                rw [h0] at hdx
                have hdx' : macros q.tok.text = none := hdx
                have hm' : macros q.tok.text = some m := hm
                rw [hm'] at hdx'; cases hdx'
              obtain ⟨d, hd⟩ : ∃ d, 4 - rest.length = d + 1 := ⟨3 - rest.length, by omega⟩
              refine ⟨⟨?_, hcur⟩, ?_, hst.popped, hst.lexer, hst.out, ?_⟩
              · have hd' : 4 - (cur :: rest).length = d := by simp only [List.length_cons]; omega
                rw [hd']
                rw [hd] at hdx
                exact expandNonMacro_fine hR hRx hdx hm _ _
              · simp only [List.length_cons]; omega
              · intro n
                have := hcl n
                simp only [qk, List.map_cons, List.cons_append, hk] at this
                rw [unclosed_append] at this
                rw [unclosed_other _ _ _ (by simp) (by simp)] at this
                simp only [List.map_cons, List.flatten_cons]
                rw [unclosed_append, unclosed_append]
                refine Nat.le_trans (unclosed_mono _ _ _ ?_) this
                rw [expandNonMacro_unclosed]
                exact unclosed_closed (hR _ m hRx hm).2.1 _
          all_goals
            rename_i hk
            simp only [XRes.continue_.injEq] at hs; subst hs
            first
              | exact hmove _ rfl (by rw [hk]; simp)
              | exact hskip (by rw [hk]; simp) (by rw [hk]; simp)
              | exact hmove _ rfl (by assumption)

/-! ### The evaluator -/

structure EC (macros : Macros) (R : Str → Prop) (st : ESt) : Prop where
  iter : ∀ s ∈ st.iter, Fine macros R 4 s.kind s.text
  stack : ∀ t ∈ st.stack, t.kind ≠ .op .slash ∧ t.kind ≠ .op .percent ∧ t.kind ≠ .ident
  ops : Harmless st.ops
  closed : unclosed (opens st.ops) (st.stack.map (·.kind) ++ st.iter.map (·.kind)) = 0

theorem eTurn_closed (macros : Macros) (R : Str → Prop) (hR : Sound macros R) (st : ESt) (hst : EC macros R st) (s : Sym) (st₁ : ESt)
    (hn : eNext st = some (s, st₁)) (f : Nat) :
    eStep .release macros f s st₁ ≠ some .panic ∧ ∀ st₂, eStep .release macros f s st₁ = some (.ok st₂) → EC macros R st₂ := by
  obtain ⟨hs, hclosed, hiter, hstack, hops⟩ : Fine macros R 4 s.kind s.text ∧
      unclosed (opens st₁.ops) (s.kind :: (st₁.stack.map (·.kind) ++ st₁.iter.map (·.kind))) = 0 ∧
      (∀ s ∈ st₁.iter, Fine macros R 4 s.kind s.text) ∧
      (∀ t ∈ st₁.stack, t.kind ≠ .op .slash ∧ t.kind ≠ .op .percent ∧ t.kind ≠ .ident) ∧ Harmless st₁.ops := by
    unfold eNext at hn
    split at hn
    · rename_i t ts he
      simp only [Option.some.injEq, Prod.mk.injEq] at hn
      obtain ⟨rfl, rfl⟩ := hn
      have ht := hst.stack t (by rw [he]; simp)
      have hc := hst.closed
      rw [he] at hc
      exact ⟨⟨ht.1, ht.2.1, fun h => absurd h ht.2.2⟩, hc, hst.iter, fun u hu => hst.stack u (by rw [he]; simp only at hu; simp [hu]), hst.ops⟩
    · rename_i he
      split at hn
      · rename_i x xs hx
        simp only [Option.some.injEq, Prod.mk.injEq] at hn
        obtain ⟨rfl, rfl⟩ := hn
        have hc := hst.closed
        rw [he, hx] at hc
        refine ⟨hst.iter x (by rw [hx]; simp), ?_, fun u hu => hst.iter u (by rw [hx]; simp only at hu; simp [hu]), hst.stack, hst.ops⟩
        simp only [he]; exact hc
      · cases hn
  have base : s.kind ≠ .lparen → s.kind ≠ .rparen → unclosed (opens st₁.ops) (st₁.stack.map (·.kind) ++ st₁.iter.map (·.kind)) = 0 := by
    intro h1 h2; rw [unclosed_other _ _ _ h1 h2] at hclosed; exact hclosed
  by_cases hnm : Names s.kind
  · rw [eStep_names _ _ _ _ _ hnm]
    have hk1 : s.kind ≠ .lparen := by intro h; rw [h] at hnm; exact hnm
    have hk2 : s.kind ≠ .rparen := by intro h; rw [h] at hnm; exact hnm
    have hexp : eStep.expandHere macros f s st₁ ≠ some .panic ∧ ∀ st₂, eStep.expandHere macros f s st₁ = some (.ok st₂) → EC macros R st₂ := by
      unfold eStep.expandHere
      rcases ho : expandIdentifier macros false f s.tok st₁.iter st₁.stack st₁.disabled with _ | o
      · simp
      · simp only
        rcases hv : o.value with e | d
        · simp
        · simp only [Option.some.injEq, Res.ok.injEq]
          refine ⟨by simp, ?_⟩
          rintro st₂ rfl
          unfold expandIdentifier at ho
          split at ho
          · cases ho
          · simp only [Option.some.injEq] at ho; subst ho; simp at hv
          · rename_i st' hx
            simp only [Option.some.injEq] at ho; subst ho
            have h0 : XC macros R st₁.iter ⟨[[⟨s.tok, s.tok.sym.delta⟩]], [], st₁.iter, [], st₁.disabled, 0⟩ := by
              refine ⟨⟨?_, trivial⟩, by simp, rfl, rfl, by simp, ?_⟩
              · intro q hq
                simp only [List.mem_singleton] at hq; subst hq
                exact hs
              · intro n
                show unclosed n [s.kind] ≤ n
                rw [unclosed_other _ _ _ hk1 hk2]; exact Nat.le_refl _
            obtain ⟨this, hnil⟩ := xLoop_closed macros R hR s.tok st₁.iter f _ st' h0 hx
            refine ⟨?_, ?_, hops, ?_⟩
            · simp only [this.lexer]; exact hiter
            · intro t ht
              simp only [this.popped, List.reverse_nil, List.append_nil, List.mem_append] at ht
              rcases ht with ht | ht
              · exact this.out t ht
              · exact hstack t ht
            · simp only [this.lexer, this.popped, List.reverse_nil, List.append_nil, List.map_append, List.append_assoc]
              rw [unclosed_append]
              have hle := this.closed (opens st₁.ops)
              rw [hnil] at hle
              simp only [List.map_nil, List.flatten_nil, List.append_nil] at hle
              have := unclosed_mono (st₁.stack.map (·.kind) ++ st₁.iter.map (·.kind)) _ _ hle
              rw [base hk1 hk2] at this
              omega
    by_cases hl : st₁.lfd = true
    · simp only [hl, if_true, Option.some.injEq, Res.ok.injEq]
      refine ⟨by simp, ?_⟩
      rintro st₂ rfl
      exact ⟨hiter, hstack, hops, base hk1 hk2⟩
    · simp only [hl, Bool.false_eq_true, if_false]
      rcases macros s.text with _ | m
      · exact hexp
      · simp only
        by_cases hd : m ∈ st₁.disabled
        · simp only [hd, if_true, Option.some.injEq, Res.ok.injEq]
          refine ⟨by simp, ?_⟩
          rintro st₂ rfl
          exact ⟨hiter, hstack, hops, base hk1 hk2⟩
        · simp only [hd, if_false]; exact hexp
  · unfold eStep
    generalize hk : s.kind = k at *
    cases k
    case lparen =>
      simp only [Option.some.injEq, Res.ok.injEq]
      refine ⟨by simp, ?_⟩
      rintro st₂ rfl
      refine ⟨hiter, hstack, ?_, ?_⟩
      · intro o ho
        rcases List.mem_cons.1 ho with rfl | ho
        · simp
        · exact hops o ho
      · simpa [opens, unclosed] using hclosed
    case rparen =>
      obtain ⟨h1, h2⟩ := closeParen_safe st₁.ops st₁.out hops
      rcases hc : closeParen .release st₁.ops st₁.out with ⟨ops, out, b⟩ | _ | _
      · simp only [Option.some.injEq, Res.ok.injEq]
        refine ⟨by simp, ?_⟩
        rintro st₂ rfl
        obtain ⟨h3, h4⟩ := h2 _ _ _ hc
        refine ⟨hiter, hstack, h3, ?_⟩
        simp only [h4]; exact hclosed
      · simp
      · exact absurd hc h1
    case op o =>
      have ho1 : o ≠ .slash := by rintro rfl; exact hs.1 rfl
      have ho2 : o ≠ .percent := by rintro rfl; exact hs.2.1 rfl
      simp only [Option.some.injEq]
      rcases hp : preOp st₁.mbu o with _ | c
      · simp
      · obtain ⟨c1, c2, c3⟩ := preOp_harmless _ _ _ hp ho1 ho2
        simp only
        obtain ⟨h1, h2⟩ := popOps_safe c st₁.ops st₁.out hops
        rcases hc : popOps .release c st₁.ops st₁.out with ⟨ops, out⟩ | _ | _
        · simp only [Res.ok.injEq]
          refine ⟨by simp, ?_⟩
          rintro st₂ rfl
          obtain ⟨h3, h4⟩ := h2 _ _ hc
          refine ⟨hiter, hstack, ?_, ?_⟩
          · intro o ho
            rcases List.mem_cons.1 ho with rfl | ho
            · exact ⟨c1, c2⟩
            · exact h3 o ho
          · have : opens (c :: ops) = opens ops := by simp [opens, List.filter_cons, c3]
            simp only [this, h4]
            exact base (by simp) (by simp)
        · simp
        · exact absurd hc h1
    all_goals first
      | exact absurd trivial hnm
      | (refine ⟨by simp, ?_⟩
         intro st₂ h
         simp only [Option.some.injEq, Res.ok.injEq] at h
         subst h
         exact ⟨hiter, hstack, hops, base (by simp) (by simp)⟩)
      | (refine ⟨by simp, ?_⟩
         intro st₂ h
         simp at h)

theorem eLoop_closed (macros : Macros) (R : Str → Prop) (hR : Sound macros R) (f : Nat) : ∀ st, EC macros R st →
    eLoop .release macros f st ≠ some .panic ∧ ∀ st', eLoop .release macros f st = some (.ok st') → EC macros R st' ∧ eNext st' = none := by
  induction f with
  | zero => intro st _; simp [eLoop]
  | succ f ih =>
    intro st hst
    simp only [eLoop]
    rcases hn : eNext st with _ | ⟨s, st₁⟩
    · simp only [Option.some.injEq, Res.ok.injEq]
      refine ⟨by simp, ?_⟩
      rintro st' rfl
      exact ⟨hst, hn⟩
    · obtain ⟨h1, h2⟩ := eTurn_closed macros R hR st hst s st₁ hn f
      simp only
      rcases hr : eStep .release macros f s st₁ with _ | (st₂ | _ | _)
      · simp
      · exact ih st₂ (h2 st₂ hr)
      · simp
      · exact absurd hr h1

/-- **C22** (part): without overflow checks (the profile the server is shipped with), a condition never aborts the program when every
opening parenthesis in it is closed, it does not divide, and the definitions it names take no parameters, close their own
parentheses, do not divide, and are nested at most four deep. It need not be well formed in any other way. Missing: definitions with
parameters (see `EvalUse.evaluation_never_panics_replaced_partial`); deeper ones do abort (`nested_refuted`). -/
theorem evaluation_never_panics_nested_partial (macros : Macros) (disabled : List Macro) (ts : List Sym) (R : Str → Prop)
    (hR : ∀ x m, R x → macros x = some m → m.params = none ∧ unclosed 0 (m.body.map (·.kind)) = 0 ∧
      ∀ r ∈ m.body, r.kind ≠ .op .slash ∧ r.kind ≠ .op .percent ∧ (r.kind = .ident → R r.text))
    (hts : ∀ t ∈ ts, t.kind ≠ .op .slash ∧ t.kind ≠ .op .percent ∧ (t.kind = .ident → R t.text ∧ Nested macros 4 t.text))
    (hclosed : unclosed 0 (ts.map (·.kind)) = 0) (fuel : Nat) :
    evaluate .release macros disabled ts fuel ≠ some .panic := by
  have h0 : EC macros R ⟨ts, [], [], [], true, false, disabled⟩ := ⟨hts, by simp, by intro o ho; simp at ho, hclosed⟩
  obtain ⟨h1, h2⟩ := eLoop_closed macros R hR fuel _ h0
  unfold evaluate evaluateValue
  rcases hr : eLoop .release macros fuel ⟨ts, [], [], [], true, false, disabled⟩ with _ | (st | _ | _)
  · simp
  · obtain ⟨h3, h4⟩ := h2 st hr
    have hi : st.stack = [] ∧ st.iter = [] := by
      unfold eNext at h4
      split at h4
      · cases h4
      · rename_i h
        split at h4
        · cases h4
        · rename_i h'; exact ⟨h, h'⟩
    have ho : opens st.ops = 0 := by have := h3.closed; rw [hi.1, hi.2] at this; exact this
    have hf := finish_safe st.ops st.out h3.ops ho
    simp only [Option.map_some]
    rcases hg : finish .release st.ops st.out with (_ | ⟨v, vs⟩) | _ | _
    · simp [Res.map]
    · simp [Res.map]
    · simp [Res.map]
    · exact absurd hg hf
  · simp [Res.map]
  · exact absurd hr h1

private def rs (k : Kind) (x : String) (v : Option Int := none) : RSym := ⟨k, x.toList, ⟨0, 1⟩, v⟩

private def define (body : List RSym) : Macro := ⟨0, 0, none, 0, body⟩

/-- `#define E (1)`, `#define D (1 + E)`, …, `#define A (1 + B)`. -/
private def chain : Macros := fun x =>
  if x = "A".toList then some (define [rs .lparen "(", rs .intLit "1" (some 1), rs (.op .plus) "+", rs .ident "B", rs .rparen ")"])
  else if x = "B".toList then some (define [rs .lparen "(", rs .intLit "1" (some 1), rs (.op .plus) "+", rs .ident "C", rs .rparen ")"])
  else if x = "C".toList then some (define [rs .lparen "(", rs .intLit "1" (some 1), rs (.op .plus) "+", rs .ident "D", rs .rparen ")"])
  else if x = "D".toList then some (define [rs .lparen "(", rs .intLit "1" (some 1), rs (.op .plus) "+", rs .ident "E", rs .rparen ")"])
  else if x = "E".toList then some (define [rs .lparen "(", rs .intLit "1" (some 1), rs .rparen ")"])
  else none

/-- C22, violated: `#if A` where `A` is `(1 + B)`, `B` is `(1 + C)`, `C` is `(1 + D)`, `D` is `(1 + E)` and `E` is `(1)`. The expansion is given up
half-way, with what it has produced so far kept, so that the parentheses it opened are never closed. -/
theorem nested_refuted (p : Profile) : evaluate p chain [] [Evaluator.tk .ident "A"] 100 = some .panic ∧
    unclosed 0 ([Evaluator.tk .ident "A"].map (·.kind)) = 0 ∧
    ∀ x m, chain x = some m → m.params = none ∧ unclosed 0 (m.body.map (·.kind)) = 0 := by
  refine ⟨by cases p <;> decide +kernel, rfl, ?_⟩
  intro x m hm
  unfold chain at hm
  repeat (split at hm; (simp only [Option.some.injEq] at hm; subst hm; exact ⟨rfl, rfl⟩))
  cases hm

/-- The hypotheses hold of `) - (B` `)` with the definitions above: four of them, one in the other. -/
example (fuel : Nat) : evaluate .release chain [] [Evaluator.tk .rparen, Evaluator.tk (.op .minus), Evaluator.tk .lparen, Evaluator.tk .ident "B",
    Evaluator.tk .rparen] fuel ≠ some .panic := by
  have hk : ∀ x m, chain x = some m → ∀ r ∈ m.body, r.kind = .lparen ∨ r.kind = .rparen ∨ r.kind = .ident ∨ r.kind = .intLit ∨ r.kind = .op .plus := by
    intro x m hm
    unfold chain at hm
    repeat (split at hm; (simp only [Option.some.injEq] at hm; subst hm; simp [define, rs]))
    cases hm
  refine evaluation_never_panics_nested_partial chain [] _ (fun _ => True) ?_ ?_ rfl fuel
  · intro x m _ hm
    obtain ⟨h1, h2⟩ := (nested_refuted .release).2.2 x m hm
    refine ⟨h1, h2, fun r hr => ?_⟩
    rcases hk x m hm r hr with h | h | h | h | h <;> simp [h]
  · have hb : Nested chain 4 "B".toList := by
      intro m hm
      obtain rfl : define [rs .lparen "(", rs .intLit "1" (some 1), rs (.op .plus) "+", rs .ident "C", rs .rparen ")"] = m := Option.some.inj hm
      intro r hr hk
      simp only [define, List.mem_cons, List.not_mem_nil, or_false] at hr
      rcases hr with rfl | rfl | rfl | rfl | rfl
      · cases hk
      · cases hk
      · cases hk
      · intro m hm
        obtain rfl : define [rs .lparen "(", rs .intLit "1" (some 1), rs (.op .plus) "+", rs .ident "D", rs .rparen ")"] = m := Option.some.inj hm
        intro r hr hk
        simp only [define, List.mem_cons, List.not_mem_nil, or_false] at hr
        rcases hr with rfl | rfl | rfl | rfl | rfl
        · cases hk
        · cases hk
        · cases hk
        · intro m hm
          obtain rfl : define [rs .lparen "(", rs .intLit "1" (some 1), rs (.op .plus) "+", rs .ident "E", rs .rparen ")"] = m := Option.some.inj hm
          intro r hr hk
          simp only [define, List.mem_cons, List.not_mem_nil, or_false] at hr
          rcases hr with rfl | rfl | rfl | rfl | rfl
          · cases hk
          · cases hk
          · cases hk
          · intro m hm
            obtain rfl : define [rs .lparen "(", rs .intLit "1" (some 1), rs .rparen ")"] = m := Option.some.inj hm
            intro r hr hk
            simp only [define, List.mem_cons, List.not_mem_nil, or_false] at hr
            rcases hr with rfl | rfl | rfl <;> cases hk
          · cases hk
        · cases hk
      · cases hk
    intro t ht
    simp only [List.mem_cons, List.not_mem_nil, or_false] at ht
    rcases ht with rfl | rfl | rfl | rfl | rfl
    · simp [Evaluator.tk]
    · simp [Evaluator.tk]
    · simp [Evaluator.tk]
    · exact ⟨by simp [Evaluator.tk], by simp [Evaluator.tk], fun _ => ⟨trivial, hb⟩⟩
    · simp [Evaluator.tk]

end Verif.Props.EvalParen
