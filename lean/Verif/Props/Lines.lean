import Verif.Pre.LinesSpec
import Verif.Props.Conditional
/-!
# C19: preprocessing keeps line numbers
-/

namespace Verif.Props.Lines
open Verif.Pre Verif.Pre.Spec
open Verif.Props.Conditional (gives_of)

theorem breaks_append (a b : Str) : breaks (a ++ b) = breaks a + breaks b := by simp [breaks]

theorem breaks_nil : breaks [] = 0 := rfl

theorem breaks_blanks (n : Int) : breaks (blanks n) = 0 := by simp [breaks, blanks, List.count_replicate]

/-- Line breaks written so far, if the current line is not ended. -/
def cnt (st : PSt) : Nat := st.out.length + (st.out.map breaks).sum + breaks st.line

theorem cnt_pushWs (s : Sym) (st : PSt) : cnt (pushWs s st) = cnt st := by
  simp [cnt, pushWs, breaks_append, breaks_blanks]

theorem cnt_pushLine (st : PSt) : cnt (resetLine (pushLine st)) = cnt st + 1 := by
  simp [cnt, resetLine, pushLine, breaks_nil]; omega

theorem cnt_pushSym (s : Sym) (st : PSt) (h : s.kind ≠ .eof) : cnt (pushSym s st) = cnt st + breaks s.text := by
  have := cnt_pushWs s st
  simp only [cnt, pushSym, h, if_false, breaks_append] at *
  omega

theorem breaks_join : ∀ l : List Str, l ≠ [] → breaks (joinLines l) + 1 = l.length + (l.map breaks).sum
  | [], h => absurd rfl h
  | [l], _ => by simp [joinLines]; omega
  | l :: m :: r, _ => by
    have := breaks_join (m :: r) (by simp)
    have hc : breaks ('\n' :: joinLines (m :: r)) = breaks (joinLines (m :: r)) + 1 := by simp [breaks]
    simp only [joinLines, breaks_append, hc, List.length_cons, List.map_cons, List.sum_cons] at *
    omega

/-! ### Expansion of macros without parameters -/

/-- Tokens an expansion leaves. -/
def TokOk (t : Tok) : Prop := breaks t.text = 0 ∧ t.kind ≠ .newline ∧ t.kind ≠ .eof ∧ ∀ d, t.kind ≠ .dir d

/-- Tokens inside of an expansion. -/
def QOk (t : Tok) : Prop := (breaks t.text = 0 ∨ Dropped t.kind) ∧ t.kind ≠ .eof ∧ ∀ d, t.kind ≠ .dir d

theorem bodySyms_ok (body : List RSym) (hb : ∀ r ∈ body, (breaks r.text = 0 ∨ Dropped r.kind) ∧ r.kind ≠ .eof ∧ ∀ d, r.kind ≠ .dir d) :
    ∀ prev, ∀ s ∈ bodySyms prev body, QOk s.tok := by
  induction body with
  | nil => intro prev s hs; simp [bodySyms] at hs
  | cons r rs ih =>
    intro prev s hs
    simp only [bodySyms, List.mem_cons] at hs
    rcases hs with rfl | hs
    · exact hb r (by simp)
    · exact ih (fun r hr => hb r (by simp [hr])) _ s hs

theorem bodyQueue_mem {delta : Delta} {ss : List Sym} {q : QTok} (h : q ∈ bodyQueue delta ss) : ∃ s ∈ ss, q.tok = s.tok := by
  cases ss with
  | nil => simp [bodyQueue] at h
  | cons s ss =>
    simp only [bodyQueue, List.mem_cons, List.mem_map] at h
    rcases h with rfl | ⟨x, hx, rfl⟩
    · exact ⟨s, by simp, rfl⟩
    · exact ⟨x, by simp [hx], rfl⟩

theorem expandNonMacro_ok {m : Macro} (hb : ∀ r ∈ m.body, (breaks r.text = 0 ∨ Dropped r.kind) ∧ r.kind ≠ .eof ∧ ∀ d, r.kind ≠ .dir d)
    (delta : Delta) (prev : Rng) : ∀ q ∈ expandNonMacro m delta prev, QOk q.tok := by
  intro q hq
  have hq' : q ∈ bodyQueue delta (bodySyms prev m.body) := by
    unfold expandNonMacro dropLastNewline at hq
    split at hq
    · split at hq
      · exact List.dropLast_subset _ hq
      · exact hq
    · exact hq
  obtain ⟨s, hs, e⟩ := bodyQueue_mem hq'
  rw [e]; exact bodySyms_ok _ hb _ _ hs

theorem tokOk_of {t : Tok} (h : QOk t) (hd : ¬ Dropped t.kind) : TokOk t := by
  refine ⟨h.1.resolve_right hd, ?_, h.2.1, h.2.2⟩
  intro e; rw [e] at hd; exact hd trivial

/-- What holds of the local variables of an expansion. -/
def XInv (lexer : List Sym) (st : XSt) : Prop :=
  st.lexer = lexer ∧ st.popped = [] ∧ (∀ c ∈ st.ctxs, ∀ q ∈ c, QOk q.tok) ∧ ∀ t ∈ st.out, TokOk t

theorem xStep_inv {ms : Macros} (hm : ObjectMacros ms) {allow : Bool} {token : Tok} {top : List QTok} {rest : List (List QTok)} {st st' : XSt}
    {lexer : List Sym} (hi : XInv lexer st) (hc : st.ctxs = top :: rest) (h : xStep ms allow token top rest st = .continue_ st') :
    XInv lexer st' := by
  obtain ⟨h1, h2, h3, h4⟩ := hi
  rw [hc] at h3
  have hrest : ∀ c ∈ rest, ∀ q ∈ c, QOk q.tok := fun c hc => h3 c (by simp [hc])
  cases top with
  | nil =>
    simp only [xStep, XRes.continue_.injEq] at h
    subst h
    exact ⟨h1, h2, hrest, h4⟩
  | cons q cur =>
    have hq : QOk q.tok := h3 (q :: cur) (by simp) q (by simp)
    have hcur : ∀ c ∈ cur :: rest, ∀ q ∈ c, QOk q.tok := by
      intro c hc
      rcases List.mem_cons.1 hc with rfl | hc
      · exact fun x hx => h3 (q :: c) (by simp) x (by simp [hx])
      · exact hrest c hc
    have keep : ∀ t : Tok, TokOk t → ∀ x ∈ st.out ++ [t], TokOk x := by
      intro t ht x hx
      rcases List.mem_append.1 hx with hx | hx
      · exact h4 x hx
      · simp at hx; subst hx; exact ht
    simp only [xStep] at h
    split at h
    · rename_i hk
      have hd : ¬ Dropped q.tok.kind := by rw [hk]; exact id
      split at h
      · split at h
        · simp only [XRes.continue_.injEq] at h
          subst h
          exact ⟨h1, h2, hcur, keep _ (tokOk_of hq hd)⟩
        · simp at h
      · rename_i m hmm
        obtain ⟨hp, hb⟩ := hm _ _ hmm
        rw [hp] at h
        simp only [XRes.continue_.injEq] at h
        subst h
        refine ⟨h1, h2, ?_, h4⟩
        intro c hc
        rcases List.mem_cons.1 hc with rfl | hc
        · exact expandNonMacro_ok hb _ _
        · exact hcur c hc
    · rename_i hk
      simp only [XRes.continue_.injEq] at h
      subst h
      exact ⟨h1, h2, hcur, keep _ (tokOk_of (t := Sym.tok _) ⟨hq.1, hq.2.1, hq.2.2⟩ (by show ¬ Dropped q.tok.kind; rw [hk]; exact id))⟩
    · rename_i hk
      simp only [XRes.continue_.injEq] at h
      subst h
      exact ⟨h1, h2, hcur, keep _ (tokOk_of (t := Sym.tok _) ⟨hq.1, hq.2.1, hq.2.2⟩ (by show ¬ Dropped q.tok.kind; rw [hk]; exact id))⟩
    · simp only [XRes.continue_.injEq] at h; subst h; exact ⟨h1, h2, hcur, h4⟩
    · simp only [XRes.continue_.injEq] at h; subst h; exact ⟨h1, h2, hcur, h4⟩
    · simp only [XRes.continue_.injEq] at h; subst h; exact ⟨h1, h2, hcur, h4⟩
    · simp only [XRes.continue_.injEq] at h; subst h; exact ⟨h1, h2, hcur, h4⟩
    · rename_i k1 k2 k3 k4 k5 k6 k7
      simp only [XRes.continue_.injEq] at h
      subst h
      refine ⟨h1, h2, hcur, keep _ (tokOk_of (t := q.tok.setDelta q.delta) hq ?_)⟩
      show ¬ Dropped q.tok.kind
      generalize q.tok.kind = k at *
      cases k <;> simp_all [Dropped]

theorem xLoop_inv {ms : Macros} (hm : ObjectMacros ms) {allow : Bool} {token : Tok} {lexer : List Sym} :
    ∀ (f : Nat) (st st' : XSt), XInv lexer st → xLoop ms allow token f st = some (.continue_ st') → XInv lexer st' := by
  intro f
  induction f with
  | zero => intro st st' _ h; simp [xLoop] at h
  | succ f ih =>
    intro st st' hi h
    unfold xLoop at h
    split at h
    · simp at h; subst h; exact hi
    · rename_i top rest hc
      split at h
      · split at h
        · rename_i st₁ hs
          exact ih _ _ (xStep_inv hm hi hc hs) h
        · simp at h
      · simp at h; subst h; exact hi

theorem expand_ok {ms : Macros} (hm : ObjectMacros ms) {allow : Bool} {f : Nat} {token : Tok} {lexer : List Sym} {stack : List Tok}
    {disabled : List Macro} {o : XOut} {n : Nat} (ht : TokOk token) (h : expandIdentifier ms allow f token lexer stack disabled = some o)
    (hv : o.value = .ok n) : o.lexer = lexer ∧ ∃ new, o.stack = new ++ stack ∧ ∀ t ∈ new, TokOk t := by
  unfold expandIdentifier at h
  split at h
  · simp at h
  · simp at h; subst h; simp at hv
  · rename_i st hl
    simp at h; subst h
    obtain ⟨h1, h2, h3, h4⟩ := xLoop_inv hm f _ st (lexer := lexer) (by
      refine ⟨rfl, rfl, ?_, by simp⟩
      intro c hc q hq
      simp at hc; subst hc; simp at hq; subst hq
      exact ⟨Or.inl ht.1, ht.2.2.1, ht.2.2.2⟩) hl
    refine ⟨h1, st.out, ?_, h4⟩
    simp [h2]

/-! ### Reading the tokens -/

/-- Everything required of the tokens that are still to be read. -/
structure Good (n : Nat) (text : Str) (d : Nat) (ss : List Sym) : Prop where
  lexes  : Lexes n text ss
  lines  : DirectiveLines ss
  simple : SimpleDirectives ss
  shape  : ∀ s ∈ ss, Shape s
  blocks : Blocks d ss

/-- Nesting depth after a token. -/
def depthAfter (d : Nat) (k : Kind) : Nat := if k = .dir .if_ then d + 1 else if k = .dir .endif then d - 1 else d

theorem Good.tail {n : Nat} {text : Str} {d : Nat} {s : Sym} {ss : List Sym} (h : Good n text d (s :: ss)) (he : s.kind ≠ .eof) :
    ∃ rest, Good (n + breaks s.text) rest (depthAfter d s.kind) ss ∧ n + breaks text = n + breaks s.text + breaks rest ∧ s.range.s.line = n ∧
      s.range.e.line = n + breaks s.text ∧ (s.kind = .newline → breaks s.text = 1) ∧ (0 < d → breaks s.text = 0 ∨ s.kind = .newline) ∧
      (s.kind = .dir .endif → 0 < d) := by
  obtain ⟨h1, h2, h3, h4, h5⟩ := h
  cases h1 with
  | @cons _ ws rest _ _ a b c dd e f =>
    unfold Blocks at h5
    simp only [he, if_false] at h5
    refine ⟨rest, ⟨f, h2.2.2, h3.2.2, fun x hx => h4 x (by simp [hx]), ?_⟩, ?_, b, c, dd, h5.1, ?_⟩
    · have := h5.2
      unfold depthAfter
      split
      · rename_i hk; simpa [hk] using this
      · rename_i hk
        rw [if_neg hk] at this
        split
        · rename_i hk'; rw [if_pos hk'] at this; exact this.2
        · rename_i hk'; rw [if_neg hk'] at this; exact this
    · simp only [breaks_append, a]; omega
    · intro hk
      have := h5.2
      rw [if_neg (by simp [hk]), if_pos hk] at this
      exact this.1

theorem Good.eof {n : Nat} {text : Str} {d : Nat} {s : Sym} {ss : List Sym} (h : Good n text d (s :: ss)) (he : s.kind = .eof) :
    breaks text = 0 ∧ d = 0 ∧ ss = [] := by
  obtain ⟨h1, h2, h3, h4, h5⟩ := h
  cases h1 with
  | @cons _ ws rest _ _ a b c dd e f =>
    obtain ⟨e1, e2, e3⟩ := e he
    unfold Blocks at h5
    rw [if_pos he] at h5
    refine ⟨?_, h5, e3⟩
    simp only [breaks_append, a, e1, e2, breaks_nil]

theorem Good.ne_nil {n : Nat} {text : Str} {d : Nat} {ss : List Sym} (h : Good n text d ss) : ss ≠ [] := by
  rintro rfl; exact h.blocks

/-- The rest of the line of a condition. -/
theorem takeDirective_good : ∀ (ss : List Sym) (n : Nat) (text : Str) (d : Nat), Good n text d ss → 0 < d → (∀ t ∈ ss.head?, t.inPre = true) →
    ∃ n' rest, Good n' rest d (takeDirective ss).2 ∧ n + breaks text = n' + breaks rest ∧ n ≤ n' ∧
      ∃ l, (takeDirective ss).1.getLast? = some l ∧ l.range.e.line = n' := by
  intro ss
  induction ss with
  | nil => intro n text d h; exact absurd rfl h.ne_nil
  | cons s ss ih =>
    intro n text d h hd hp
    have hpre : s.inPre = true := hp s (by simp)
    have hnd : ∀ x, s.kind ≠ .dir x := h.lines.2.1 hpre
    have hne : s.kind ≠ .eof := by
      intro he
      have := (h.eof he).2.1
      omega
    obtain ⟨rest, hg, hb, -, hend, -⟩ := h.tail hne
    have hdep : depthAfter d s.kind = d := by simp [depthAfter, hnd]
    rw [hdep] at hg
    simp only [takeDirective, hpre, if_true]
    by_cases hk : s.kind = .newline
    · have hstop : takeDirective ss = ([], ss) := by
        cases ss with
        | nil => exact absurd rfl hg.ne_nil
        | cons t ts =>
          have := (h.lines.1 t (by simp)).1 hk
          simp [takeDirective, this]
      rw [hstop]
      exact ⟨_, rest, hg, hb, by omega, s, by simp, hend⟩
    · obtain ⟨n', rest', h1, h2, h3, l, h4, h5⟩ := ih _ _ _ hg hd (fun t ht => (h.lines.1 t ht).2 hk (Or.inr hpre))
      refine ⟨n', rest', h1, by omega, by omega, l, ?_, h5⟩
      cases e : (takeDirective ss).1 with
      | nil => rw [e] at h4; simp at h4
      | cons a b => rw [e] at h4; simpa using h4

/-- What the main loop maintains. `N` is the number of line breaks of the source. -/
def Inv (N : Nat) (st : PSt) : Prop :=
  ∃ text, Good (cnt st) text st.conds.length st.lexer ∧ cnt st + breaks text = N ∧ ObjectMacros st.macros ∧ (∀ t ∈ st.stack, TokOk t) ∧
    (st.stack ≠ [] → skipping st.conds = false)

/-- All is read. -/
def Done (N : Nat) (st : PSt) : Prop := st.lexer = [] ∧ st.stack = [] ∧ st.out.length + (st.out.map breaks).sum = N + 1

/-- The body of a definition: the phase is `body`. -/
theorem defineLoop_body : ∀ (ss : List Sym) (n : Nat) (text : Str) (dep : Nat) (d : DSt) (st : PSt), Good n text dep ss →
    (∀ t ∈ ss.head?, t.inPre = true) → d.phase = .body → cnt st = n →
    ∃ d' st', defineLoop ss d st = (some d', st') ∧ d'.found = d.found ∧
      (∀ r ∈ d'.body, r ∈ d.body ∨ ((breaks r.text = 0 ∨ Dropped r.kind) ∧ r.kind ≠ .eof ∧ ∀ x, r.kind ≠ .dir x)) ∧
      st'.stack = st.stack ∧ st'.conds = st.conds ∧ st'.macros = st.macros ∧
      ((∃ rest, Good (cnt st' + 1) rest dep st'.lexer ∧ n + breaks text = cnt st' + 1 + breaks rest) ∨ (st'.lexer = [] ∧ cnt st' = n + breaks text)) := by
  intro ss
  induction ss with
  | nil => intro n text dep d st h; exact absurd rfl h.ne_nil
  | cons s ss ih =>
    intro n text dep d st h hp hph hc
    have hpre : s.inPre = true := hp s (by simp)
    have hnd : ∀ x, s.kind ≠ .dir x := h.lines.2.1 hpre
    by_cases he : s.kind = .eof
    · obtain ⟨e1, e2, e3⟩ := h.eof he
      subst e3
      refine ⟨d, { st with lexer := [] }, ?_, rfl, fun r hr => Or.inl hr, rfl, rfl, rfl, Or.inr ⟨rfl, ?_⟩⟩
      · simp [defineLoop, hpre, he]
      · show cnt st = _
        omega
    · obtain ⟨rest, hg, hb, -, hend, hnl, -⟩ := h.tail he
      have hdep : depthAfter dep s.kind = dep := by simp [depthAfter, hnd]
      rw [hdep] at hg
      have hshape := h.shape s (by simp)
      have hbody : (breaks s.text = 0 ∨ Dropped s.kind) := by
        rcases hshape with h | h | h | h
        · exact Or.inl h
        · exact Or.inr h
        · rw [hpre] at h; simp at h
        · rcases h.1 with h | h <;> exact absurd h (hnd _)
      have hstep : dStep s d = some { d with body := d.body ++ [s.rangeLess] } := by simp [dStep, hph]
      by_cases hk : s.kind = .newline
      · cases ss with
        | nil => exact absurd rfl hg.ne_nil
        | cons t ts =>
          have ht : t.inPre = false := (h.lines.1 t (by simp)).1 hk
          refine ⟨{ d with body := d.body ++ [s.rangeLess] }, { pushWs s { st with lexer := t :: ts } with lexer := t :: ts }, ?_, rfl, ?_, rfl, rfl, rfl, Or.inl ⟨rest, ?_, ?_⟩⟩
          · rw [defineLoop]
            simp only [hpre, if_true, he, if_false, hk, hstep]
            simp [defineLoop, ht]
          · intro r hr
            rcases List.mem_append.1 hr with hr | hr
            · exact Or.inl hr
            · simp at hr; subst hr; exact Or.inr ⟨hbody, he, hnd⟩
          · have : cnt (pushWs s { st with lexer := t :: ts }) = n := by rw [cnt_pushWs]; exact hc
            show Good (cnt (pushWs s { st with lexer := t :: ts }) + 1) rest dep (t :: ts)
            rw [this, ← hnl hk]; exact hg
          · have : cnt (pushWs s { st with lexer := t :: ts }) = n := by rw [cnt_pushWs]; exact hc
            show _ = cnt (pushWs s { st with lexer := t :: ts }) + 1 + _
            rw [this, ← hnl hk]; exact hb
      · have hc' : cnt { pushWs s { st with lexer := ss } with line := (pushWs s { st with lexer := ss }).line ++ s.text } = n + breaks s.text := by
          have := cnt_pushWs s { st with lexer := ss }
          have h0 : cnt { st with lexer := ss } = n := hc
          simp only [cnt, breaks_append] at *
          omega
        obtain ⟨d', st', h1, h2, h3, h4, h5, h6, h7⟩ := ih _ _ _ { d with body := d.body ++ [s.rangeLess] } _ hg
          (fun t ht => (h.lines.1 t ht).2 hk (Or.inr hpre)) hph hc'
        refine ⟨d', st', ?_, h2, ?_, h4, h5, h6, ?_⟩
        · rw [defineLoop]
          simp only [hpre, if_true, he, if_false, hk, hstep]
          exact h1
        · intro r hr
          rcases h3 r hr with h | h
          · rcases List.mem_append.1 h with h | h
            · exact Or.inl h
            · simp at h; subst h; exact Or.inr ⟨hbody, he, hnd⟩
          · exact Or.inr h
        · rcases h7 with ⟨r, g, e⟩ | ⟨a, b⟩
          · exact Or.inl ⟨r, g, by omega⟩
          · exact Or.inr ⟨a, by omega⟩

/-- A definition. -/
theorem processDefine_inv {N : Nat} {env : Env} {s : Sym} {st st' : PSt} {n : Nat} {text : Str}
    (hg : Good n text st.conds.length (s :: st.lexer)) (hk : s.kind = .dir .define) (hc : cnt st = n) (hN : n + breaks text = N)
    (hm : ObjectMacros st.macros) (hst : st.stack = []) (h : processDefine env s st = .next st') : Inv N st' ∨ Done N st' := by
  have hne : s.kind ≠ .eof := by simp [hk]
  obtain ⟨rest, hg', hb, -⟩ := hg.tail hne
  have hdep : depthAfter st.conds.length s.kind = st.conds.length := by simp [depthAfter, hk]
  rw [hdep] at hg'
  obtain ⟨nm, ss', hss, hid, htx, hpar⟩ := hg.simple.1 hk
  have hpre : nm.inPre = true := (hg.lines.1 nm (by simp [hss])).2 (by simp [hk]) (Or.inl (by simp [hk, readsLine]))
  rw [hss] at hg'
  have hne2 : nm.kind ≠ .eof := by simp [hid]
  obtain ⟨rest2, hg2, hb2, -⟩ := hg'.tail hne2
  have hdep2 : depthAfter st.conds.length nm.kind = st.conds.length := by simp [depthAfter, hid]
  rw [hdep2] at hg2
  have hc2 : cnt (pushSym s st) = n + breaks s.text := by rw [cnt_pushSym _ _ hne, hc]
  -- after the name
  let st1 : PSt := { pushWs nm { pushSym s st with lexer := ss' } with line := (pushWs nm { pushSym s st with lexer := ss' }).line ++ nm.text }
  have hps : (pushSym s st).stack = [] ∧ (pushSym s st).conds = st.conds ∧ (pushSym s st).macros = st.macros := by
    simp [pushSym, hne, pushWs, hst]
  have hc3 : cnt st1 = n + breaks s.text + breaks nm.text := by
    have := cnt_pushWs nm { pushSym s st with lexer := ss' }
    have h0 : cnt { pushSym s st with lexer := ss' } = cnt (pushSym s st) := rfl
    simp only [cnt, breaks_append, st1] at *
    omega
  have hfirst : defineLoop st.lexer {} (pushSym s st) = defineLoop ss' { name := nm.text } st1 := by
    rw [hss, defineLoop]
    simp only [hpre, if_true, hne2, if_false, hid, dStep]
    simp [st1]
  have hnl : nm.kind ≠ .newline := by simp [hid]
  have hloop : ∃ d' st2, defineLoop ss' { name := nm.text } st1 = (some d', st2) ∧ d'.found = false ∧
      (∀ r ∈ d'.body, (breaks r.text = 0 ∨ Dropped r.kind) ∧ r.kind ≠ .eof ∧ ∀ x, r.kind ≠ .dir x) ∧
      st2.stack = [] ∧ st2.conds = st.conds ∧ st2.macros = st.macros ∧
      ((∃ rest, Good (cnt st2 + 1) rest st.conds.length st2.lexer ∧ N = cnt st2 + 1 + breaks rest) ∨ (st2.lexer = [] ∧ cnt st2 = N)) := by
    cases ss' with
    | nil => exact absurd rfl hg2.ne_nil
    | cons p ps =>
      have hppre : p.inPre = true := (hg'.lines.1 p (by simp)).2 hnl (Or.inr hpre)
      have hnd : ∀ x, p.kind ≠ .dir x := hg2.lines.2.1 hppre
      by_cases he : p.kind = .eof
      · obtain ⟨e1, e2, e3⟩ := hg2.eof he
        subst e3
        refine ⟨{ name := nm.text }, { st1 with lexer := [] }, by simp [defineLoop, hppre, he], rfl, by simp, hps.1, hps.2.1, hps.2.2, Or.inr ⟨rfl, ?_⟩⟩
        show cnt st1 = N
        omega
      · have hstep : dStep p { name := nm.text } = some { name := nm.text, body := [p.rangeLess], phase := .body } := by
          have := hpar p (by simp)
          simp only [dStep, htx, false_and, if_false]
          rw [if_neg (fun e => this ⟨e.2, e.1⟩)]
          rfl
        have hstep2 : ∀ d, d.phase = .body → dStep p d = some { d with body := d.body ++ [p.rangeLess] } := by
          intro d hd; simp [dStep, hd]
        -- the same tokens, read as a body from the start
        have hsame : defineLoop (p :: ps) { name := nm.text } st1 = defineLoop (p :: ps) { name := nm.text, phase := .body } st1 := by
          rw [defineLoop, defineLoop, hstep, hstep2 _ rfl]
          simp only [hppre, if_true, he, if_false]
          rfl
        obtain ⟨d', st2, h1, h2, h3, h4, h5, h6, h7⟩ := defineLoop_body (p :: ps) _ _ _ { name := nm.text, phase := .body } st1 hg2
          (by simp [hppre]) rfl hc3
        refine ⟨d', st2, by rw [hsame, h1], h2, ?_, h4.trans hps.1, h5.trans hps.2.1, h6.trans hps.2.2, ?_⟩
        · intro r hr
          rcases h3 r hr with h | h
          · simp at h
          · exact h
        · rcases h7 with ⟨r, g, e⟩ | ⟨a, b⟩
          · exact Or.inl ⟨r, g, by omega⟩
          · exact Or.inr ⟨a, by omega⟩
  obtain ⟨d', st2, h1, h2, h3, h4, h5, h6, h7⟩ := hloop
  unfold processDefine at h
  rw [hfirst, h1] at h
  simp only [Step.next.injEq] at h
  have hmac : ObjectMacros (updateMacros st2.macros d'.name (some (d'.macro env.fileId st2.idx))) := by
    intro x m hx
    simp only [updateMacros] at hx
    split at hx
    · simp only [Option.some.injEq] at hx
      subst hx
      simp only [DSt.macro, h2, Bool.false_eq_true, if_false]
      exact ⟨trivial, h3⟩
    · exact hm x m (by rw [← h6]; exact hx)
  have hcl := cnt_pushLine st2
  subst h
  rcases h7 with ⟨r, g, e⟩ | ⟨a, b⟩
  · left
    refine ⟨r, ?_, ?_, hmac, ?_, ?_⟩
    · show Good (cnt (resetLine (pushLine st2))) r st2.conds.length st2.lexer
      rw [hcl, h5]; exact g
    · show cnt (resetLine (pushLine st2)) + _ = N
      omega
    · show ∀ t ∈ st2.stack, _
      rw [h4]; simp
    · show st2.stack ≠ [] → _
      rw [h4]; simp
  · right
    refine ⟨a, h4, ?_⟩
    have : (resetLine (pushLine st2)).line = [] := rfl
    simp only [cnt, this, breaks_nil] at hcl
    show (resetLine (pushLine st2)).out.length + ((resetLine (pushLine st2)).out.map breaks).sum = N + 1
    simp only [cnt] at b
    omega

/-- A condition. -/
theorem processIf_inv {N : Nat} {env : Env} {f : Nat} {s : Sym} {st st' : PSt} {n : Nat} {text : Str}
    (hg : Good n text (st.conds.length + 1) st.lexer) (hpre : ∀ t ∈ st.lexer.head?, t.inPre = true) (hc : cnt st = n) (hs : s.range.s.line = n)
    (hN : n + breaks text = N) (hm : ObjectMacros st.macros) (hst : st.stack = []) (h : processIf env f s st = .next st') : Inv N st' := by
  obtain ⟨n', rest, h1, h2, h3, l, h4, h5⟩ := takeDirective_good _ _ _ _ hg (by omega) hpre
  unfold processIf at h
  dsimp only at h
  split at h
  · simp at h
  · simp at h
  · rw [h4] at h
    simp only [Step.next.injEq, hs, h5] at h
    have hcnt : (st.out ++ List.replicate (n' - n) []).length + ((st.out ++ List.replicate (n' - n) []).map breaks).sum + breaks st.line = n' := by
      simp only [cnt] at hc
      simp [breaks_nil]
      omega
    have fields : ∃ c, st'.lexer = (takeDirective st.lexer).2 ∧ st'.conds = c :: st.conds ∧ st'.macros = st.macros ∧ st'.stack = st.stack ∧
        st'.line = st.line ∧ st'.out = st.out ++ List.replicate (n' - n) [] := by
      subst h
      repeat' split
      all_goals exact ⟨_, rfl, rfl, rfl, rfl, rfl, rfl⟩
    obtain ⟨c, f1, f2, f3, f4, f5, f6⟩ := fields
    have hcnt' : cnt st' = n' := by
      simp only [cnt, f5, f6]
      exact hcnt
    refine ⟨rest, ?_, by omega, by rw [f3]; exact hm, by simp [f4, hst], by simp [f4, hst]⟩
    rw [hcnt', f2, f1]
    exact h1

/-- A token read from the lexer and dealt with. -/
theorem advance {N n : Nat} {text : Str} {d : Nat} {s : Sym} {ss : List Sym} (hg : Good n text d (s :: ss)) (he : s.kind ≠ .eof)
    (hN : n + breaks text = N) {st : PSt} (hc : cnt st = n + breaks s.text) (hl : st.lexer = ss)
    (hd : st.conds.length = depthAfter d s.kind) (hm : ObjectMacros st.macros) (hs : st.stack = []) : Inv N st := by
  obtain ⟨rest, h1, h2, -⟩ := hg.tail he
  exact ⟨rest, by rw [hc, hd, hl]; exact h1, by omega, hm, by simp [hs], by simp [hs]⟩

theorem shape_dir {s : Sym} {d : Dir} (h : Shape s) (hk : s.kind = .dir d) (h1 : d ≠ .include_) (h2 : d ≠ .tryinclude) : breaks s.text = 0 := by
  rcases h with h | h | h | h
  · exact h
  · rw [hk] at h; exact h.elim
  · rw [hk] at h; simp at h
  · rw [hk] at h; simp [h1, h2] at h

theorem readsLine_pre {n : Nat} {text : Str} {d : Nat} {s : Sym} {ss : List Sym} (hg : Good n text d (s :: ss)) (hk : readsLine s.kind = true) :
    ∀ t ∈ ss.head?, t.inPre = true := by
  intro t ht
  refine (hg.lines.1 t ht).2 ?_ (Or.inl hk)
  intro e; rw [e] at hk; simp [readsLine] at hk

theorem processElse_inv {N n : Nat} {text : Str} {s : Sym} {st st' : PSt} (hg : Good n text st.conds.length (s :: st.lexer))
    (hk : s.kind = .dir .else_) (hc : cnt st = n) (hN : n + breaks text = N) (hm : ObjectMacros st.macros) (hst : st.stack = [])
    (h : processElse s st = .next st') : Inv N st' := by
  have hb := shape_dir (hg.shape s (by simp)) hk (by simp) (by simp)
  unfold processElse at h
  split at h
  · simp at h
  all_goals
    rename_i hcs
    simp only [Step.next.injEq] at h
    subst h
    refine advance hg (by simp [hk]) hN ?_ rfl ?_ hm hst
    · rw [hb]; exact hc
    · simp [depthAfter, hk, hcs]

theorem processEndif_inv {N n : Nat} {text : Str} {s : Sym} {st st' : PSt} (hg : Good n text st.conds.length (s :: st.lexer))
    (hk : s.kind = .dir .endif) (hc : cnt st = n) (hN : n + breaks text = N) (hm : ObjectMacros st.macros) (hst : st.stack = [])
    (h : processEndif s st = .next st') : Inv N st' := by
  have hb := shape_dir (hg.shape s (by simp)) hk (by simp) (by simp)
  unfold processEndif at h
  split at h
  · simp at h
  · rename_i c cs hcs
    have hd : depthAfter st.conds.length s.kind = cs.length := by simp [depthAfter, hk, hcs]
    have fields : st'.lexer = st.lexer ∧ st'.conds = cs ∧ st'.macros = st.macros ∧ st'.stack = st.stack ∧ cnt st' = cnt st := by
      dsimp only at h
      split at h
      · split at h <;> (simp only [Step.next.injEq] at h; subst h; exact ⟨rfl, rfl, rfl, rfl, rfl⟩)
      · simp only [Step.next.injEq] at h; subst h; exact ⟨rfl, rfl, rfl, rfl, rfl⟩
    obtain ⟨f1, f2, f3, f4, f5⟩ := fields
    exact advance hg (by simp [hk]) hN (by rw [f5, hb]; exact hc) f1 (by rw [f2, hd]) (by rw [f3]; exact hm) (by rw [f4]; exact hst)

theorem processElseif_inv {N n : Nat} {text : Str} {env : Env} {f : Nat} {s : Sym} {st st' : PSt} (hg : Good n text st.conds.length (s :: st.lexer))
    (hk : s.kind = .dir .elseif) (hc : cnt st = n) (hN : n + breaks text = N) (hm : ObjectMacros st.macros) (hst : st.stack = [])
    (h : processElseif env f s st = .next st') : Inv N st' := by
  have hb := shape_dir (hg.shape s (by simp)) hk (by simp) (by simp)
  unfold processElseif at h
  split at h
  · simp at h
  · rename_i cs hcs
    obtain ⟨rest, h1, h2, h3, -⟩ := hg.tail (by simp [hk])
    have hd : depthAfter st.conds.length s.kind = cs.length + 1 := by simp [depthAfter, hk, hcs]
    rw [hd] at h1
    rw [hb] at h1 h2
    exact processIf_inv (st := { st with conds := cs }) h1 (readsLine_pre hg (by simp [hk, readsLine])) hc h3 (by omega) hm hst h
  · rename_i hcs
    simp only [Step.next.injEq] at h
    subst h
    refine advance hg (by simp [hk]) hN ?_ rfl ?_ hm hst
    · rw [hb]; exact hc
    · simp [depthAfter, hk, hcs]

/-- A skipped token. -/
theorem processNegative_inv {N n : Nat} {text : Str} {env : Env} {f : Nat} {s : Sym} {st st' : PSt} (hg : Good n text st.conds.length (s :: st.lexer))
    (hsk : skipping st.conds = true) (hc : cnt st = n) (hN : n + breaks text = N) (hm : ObjectMacros st.macros) (hst : st.stack = [])
    (h : processNegative env f s st = .next st') : Inv N st' := by
  have hd : 0 < st.conds.length := by
    cases e : st.conds with
    | nil => rw [e] at hsk; simp [skipping] at hsk
    | cons a b => simp
  have hne : s.kind ≠ .eof := by
    intro he
    have := (hg.eof he).2.1
    omega
  obtain ⟨rest, -, -, -, -, hnl, hz, -⟩ := hg.tail hne
  have hz := hz hd
  unfold processNegative at h
  split at h
  · rename_i hk
    simp only [Step.next.injEq] at h
    subst h
    refine advance hg hne hN ?_ rfl ?_ hm hst
    · rw [shape_dir (hg.shape s (by simp)) hk (by simp) (by simp)]; exact hc
    · simp [depthAfter, hk]
  · rename_i hk; exact processEndif_inv hg hk hc hN hm hst h
  · rename_i hk; exact processElse_inv hg hk hc hN hm hst h
  · rename_i hk; exact processElseif_inv hg hk hc hN hm hst h
  · rename_i hk
    simp only [Step.next.injEq] at h
    subst h
    refine advance hg hne hN ?_ rfl ?_ hm hst
    · rw [hnl hk, ← hc]; exact cnt_pushLine st
    · simp [depthAfter, hk, resetLine, pushLine]
  · rename_i k1 k2 k3 k4 k5
    simp only [Step.next.injEq] at h
    subst h
    refine advance hg hne hN ?_ rfl ?_ hm hst
    · rw [hz.resolve_right k5]; exact hc
    · unfold depthAfter; rw [if_neg k1, if_neg k2]

theorem undef_inv {N n : Nat} {text : Str} {s : Sym} {st : PSt} (hg : Good n text st.conds.length (s :: st.lexer))
    (hk : s.kind = .dir .undef) (hc : cnt st = n) (hN : n + breaks text = N) (hm : ObjectMacros st.macros) (hst : st.stack = []) :
    Inv N (undefLoop st.lexer (pushSym s st)) := by
  have hne : s.kind ≠ .eof := by simp [hk]
  obtain ⟨rest, h1, h2, -⟩ := hg.tail hne
  obtain ⟨x, ss', e, hx⟩ := hg.simple.2.1 hk
  have hpre := readsLine_pre hg (by simp [hk, readsLine]) x (by simp [e])
  have hd : depthAfter st.conds.length s.kind = st.conds.length := by simp [depthAfter, hk]
  rw [hd, e] at h1
  have hps : (pushSym s st).stack = [] ∧ (pushSym s st).conds = st.conds ∧ (pushSym s st).macros = st.macros := by
    simp [pushSym, hne, pushWs, hst]
  have hc2 : cnt (pushSym s st) = n + breaks s.text := by rw [cnt_pushSym _ _ hne, hc]
  rw [e]
  simp only [undefLoop, hpre, hx, if_true, reduceCtorEq, or_self, if_false]
  refine advance h1 (by simp [hx]) (by omega) ?_ rfl ?_ ?_ ?_
  · have := cnt_pushWs x { pushSym s st with lexer := ss' }
    have h0 : cnt { pushSym s st with lexer := ss' } = cnt (pushSym s st) := rfl
    simp only [cnt, breaks_append] at *
    omega
  · simp [pushWs, hps.2.1, depthAfter, hx]
  · intro y m hy
    simp only [updateMacros, pushWs, hps.2.2] at hy
    split at hy
    · simp at hy
    · exact hm y m hy
  · simp [pushWs, hps.1]

theorem cnt_empty_lines (st : PSt) (k : Nat) : cnt { st with out := st.out ++ List.replicate k [] } = cnt st + k := by
  simp [cnt, breaks_nil]; omega

theorem include_inv {N n : Nat} {text : Str} {env : Env} {s : Sym} {st : PSt} (hg : Good n text st.conds.length (s :: st.lexer))
    (hk : s.kind = .dir .include_ ∨ s.kind = .dir .tryinclude) (hc : cnt st = n) (hN : n + breaks text = N) (hm : ObjectMacros st.macros)
    (hinc : ∀ t ms, ObjectMacros ms → ObjectMacros (env.inc t ms)) (hst : st.stack = []) : Inv N (processInclude env s st) := by
  have hne : s.kind ≠ .eof := by rcases hk with hk | hk <;> simp [hk]
  obtain ⟨rest, -, -, hs, hend, -⟩ := hg.tail hne
  have htrim : breaks (trim s.text) = 0 := by
    rcases hg.shape s (by simp) with h | h | h | h
    · have hsub : (trim s.text).Sublist s.text := by
        unfold trim
        refine List.Sublist.trans (l₂ := s.text.dropWhile Verif.Text.whiteSpace) (List.reverse_sublist.1 ?_) (List.dropWhile_sublist _)
        rw [List.reverse_reverse]; exact List.dropWhile_sublist _
      have := List.Sublist.count_le '\n' hsub
      simp only [breaks] at *
      omega
    · rcases hk with hk | hk <;> (rw [hk] at h; exact h.elim)
    · rcases hk with hk | hk <;> (rw [hk] at h; simp at h)
    · exact h.2
  have hd : depthAfter st.conds.length s.kind = st.conds.length := by rcases hk with hk | hk <;> simp [depthAfter, hk]
  have hdelta : s.range.e.line - s.range.s.line = breaks s.text := by omega
  let st1 := pushSym { s with text := trim s.text } { st with macros := env.inc (trim s.text) st.macros }
  have hc1 : cnt st1 = n := by
    show cnt (pushSym _ _) = n
    rw [cnt_pushSym { s with text := trim s.text } _ hne]
    show cnt st + breaks (trim s.text) = n
    omega
  have f : st1.lexer = st.lexer ∧ st1.conds = st.conds ∧ st1.macros = env.inc (trim s.text) st.macros ∧ st1.stack = st.stack := by
    simp [st1, pushSym, hne, pushWs]
  obtain ⟨f1, f2, f3, f4⟩ := f
  unfold processInclude
  dsimp only
  rw [hdelta]
  split
  · refine advance hg hne hN ?_ f1 ?_ ?_ ?_
    · have := cnt_empty_lines (resetLine (pushLine st1)) (breaks s.text - 1)
      have h2 := cnt_pushLine st1
      show cnt { resetLine (pushLine st1) with out := _ } = _
      rw [this, h2, hc1]; omega
    · rw [hd]; show st1.conds.length = _; rw [f2]
    · show ObjectMacros st1.macros; rw [f3]; exact hinc _ _ hm
    · show st1.stack = []; rw [f4]; exact hst
  · refine advance hg hne hN ?_ f1 ?_ ?_ ?_
    · show cnt st1 = _; omega
    · rw [hd]; show st1.conds.length = _; rw [f2]
    · show ObjectMacros st1.macros; rw [f3]; exact hinc _ _ hm
    · show st1.stack = []; rw [f4]; exact hst

/-- The output is complete. -/
def Full (N : Nat) (st : PSt) : Prop := st.out.length + (st.out.map breaks).sum = N + 1

theorem breaks_handle : breaks handleText = 0 := by decide

theorem processIdent_ok {f : Nat} {t : Tok} {st st' : PSt} (hm : ObjectMacros st.macros) (ht : TokOk t) (h : processIdent f t st = .next st') :
    cnt st' = cnt st ∧ st'.lexer = st.lexer ∧ st'.conds = st.conds ∧ st'.macros = st.macros ∧
      ∃ new, st'.stack = new ++ st.stack ∧ ∀ x ∈ new, TokOk x := by
  have hb : breaks t.sym.text = 0 := ht.1
  have hne : t.sym.kind ≠ .eof := ht.2.2.1
  unfold processIdent at h
  split at h
  · simp only [Step.next.injEq] at h
    subst h
    refine ⟨?_, rfl, rfl, rfl, [], rfl, by simp⟩
    simp only [cnt]
    split <;> simp [breaks_append, breaks_handle]
  · split at h
    · simp only [Step.next.injEq] at h
      subst h
      refine ⟨by rw [cnt_pushSym _ _ hne, hb]; rfl, ?_, ?_, ?_, [], ?_, by simp⟩ <;> simp [pushSym, hne, pushWs]
    · split at h
      · simp only [Step.next.injEq] at h
        subst h
        refine ⟨by rw [cnt_pushSym _ _ hne, hb]; rfl, ?_, ?_, ?_, [], ?_, by simp⟩ <;> simp [pushSym, hne, pushWs]
      · split at h
        · simp at h
        · rename_i o ho
          split at h
          · rename_i d hd
            simp only [Step.next.injEq] at h
            subst h
            obtain ⟨h1, new, h2, h3⟩ := expand_ok hm ht ho hd
            exact ⟨rfl, h1, rfl, rfl, new, h2, h3⟩
          · simp at h

/-- A token in active code that is neither a directive nor a line break. -/
theorem active_other {env : Env} {f : Nat} {t : Tok} {st st' : PSt} (hm : ObjectMacros st.macros) (h1 : ∀ d, t.kind ≠ .dir d)
    (h2 : t.kind ≠ .newline) (h3 : t.kind ≠ .eof) (h4 : breaks t.text = 0 ∨ Dropped t.kind ∨ t.kind = .strLit)
    (h : processActive env f t st = .next st') :
    cnt st' = cnt st + breaks t.text ∧ st'.lexer = st.lexer ∧ st'.conds = st.conds ∧ st'.macros = st.macros ∧
      ∃ new, st'.stack = new ++ st.stack ∧ ∀ x ∈ new, TokOk x := by
  have hne : t.sym.kind ≠ .eof := h3
  have push : ∀ (st₁ : PSt), cnt (pushSym t.sym st₁) = cnt st₁ + breaks t.text := fun st₁ => cnt_pushSym _ _ hne
  have zero : ¬ Dropped t.kind → t.kind ≠ .strLit → breaks t.text = 0 := fun a b => h4.resolve_right (by simp [a, b])
  unfold processActive at h
  split at h
  · simp at h
  · rename_i hk; exact absurd hk (h1 _)
  · rename_i hk; exact absurd hk h2
  · rename_i hk
    have hb := zero (by simp [hk, Dropped]) (by simp [hk])
    rw [hb]
    exact processIdent_ok hm ⟨hb, h2, h3, h1⟩ h
  · rename_i hk
    have hb := zero (by simp [hk, Dropped]) (by simp [hk])
    simp only [Step.next.injEq] at h; subst h
    exact ⟨by rw [hb]; rfl, rfl, rfl, rfl, [], rfl, by simp⟩
  · rename_i hk
    have hb := zero (by simp [hk, Dropped]) (by simp [hk])
    simp only [Step.next.injEq] at h; subst h
    exact ⟨by rw [hb]; rfl, rfl, rfl, rfl, [], rfl, by simp⟩
  · rename_i hk
    have hb := zero (by simp [hk, Dropped]) (by simp [hk])
    simp only [Step.next.injEq] at h; subst h
    split
    · exact ⟨by rw [hb]; rfl, rfl, rfl, rfl, [], rfl, by simp⟩
    · refine ⟨by rw [push]; rfl, ?_, ?_, ?_, [], ?_, by simp⟩ <;> simp [pushSym, hne, pushWs]
  · rename_i hk
    have hb := zero (by simp [hk, Dropped]) (by simp [hk])
    simp only [Step.next.injEq] at h; subst h
    split
    · exact ⟨by rw [hb]; rfl, rfl, rfl, rfl, [], rfl, by simp⟩
    · refine ⟨by rw [push], ?_, ?_, ?_, [], ?_, by simp⟩ <;> simp [pushSym, hne, pushWs]
  · simp at h
  · simp only [Step.next.injEq] at h; subst h
    refine ⟨by rw [push], ?_, ?_, ?_, [], ?_, by simp⟩ <;> simp [pushSym, hne, pushWs]

/-- A token read from the lexer in active code. -/
theorem processActive_inv {N n : Nat} {text : Str} {env : Env} {f : Nat} {s : Sym} {st st' : PSt}
    (hinc : ∀ t ms, ObjectMacros ms → ObjectMacros (env.inc t ms)) (hg : Good n text st.conds.length (s :: st.lexer))
    (hsk : skipping st.conds = false) (hc : cnt st = n) (hN : n + breaks text = N) (hm : ObjectMacros st.macros) (hst : st.stack = [])
    (h : processActive env f s.tok st = .next st') : Inv N st' ∨ Done N st' := by
  by_cases hdir : ∃ d, s.kind = .dir d
  · obtain ⟨d, hk⟩ := hdir
    have hne : s.kind ≠ .eof := by simp [hk]
    have hk' : s.tok.kind = .dir d := hk
    simp only [processActive, hk'] at h
    have hsym : s.tok.sym = s := rfl
    rw [hsym] at h
    cases d with
    | if_ =>
      left
      simp only [processDirective] at h
      obtain ⟨rest, h1, h2, h3, -⟩ := hg.tail hne
      have hb := shape_dir (hg.shape s (by simp)) hk (by simp) (by simp)
      have hd : depthAfter st.conds.length s.kind = st.conds.length + 1 := by simp [depthAfter, hk]
      rw [hd] at h1
      rw [hb] at h1 h2
      exact processIf_inv h1 (readsLine_pre hg (by simp [hk, readsLine])) hc h3 (by omega) hm hst h
    | elseif => exact Or.inl (processElseif_inv hg hk hc hN hm hst h)
    | define => exact processDefine_inv hg hk hc hN hm hst h
    | undef =>
      simp only [processDirective, Step.next.injEq] at h
      rw [← h]; exact Or.inl (undef_inv hg hk hc hN hm hst)
    | endif => exact Or.inl (processEndif_inv hg hk hc hN hm hst h)
    | else_ => exact Or.inl (processElse_inv hg hk hc hN hm hst h)
    | include_ =>
      simp only [processDirective, Step.next.injEq] at h
      rw [← h]; exact Or.inl (include_inv hg (Or.inl hk) hc hN hm hinc hst)
    | tryinclude =>
      simp only [processDirective, Step.next.injEq] at h
      rw [← h]; exact Or.inl (include_inv hg (Or.inr hk) hc hN hm hinc hst)
    | other x =>
      simp only [processDirective, Step.next.injEq] at h
      subst h
      left
      refine advance hg hne hN (by rw [cnt_pushSym _ _ hne, hc]) ?_ ?_ ?_ ?_ <;> simp [pushSym, hne, pushWs, depthAfter, hk, hst]
      exact hm
  · have hnd : ∀ d, s.kind ≠ .dir d := fun d hd => hdir ⟨d, hd⟩
    have hdep : depthAfter st.conds.length s.kind = st.conds.length := by simp [depthAfter, hnd]
    by_cases hnl : s.kind = .newline
    · have hk' : s.tok.kind = .newline := hnl
      simp only [processActive, hk', Step.next.injEq] at h
      subst h
      have hne : s.kind ≠ .eof := by simp [hnl]
      obtain ⟨rest, -, -, -, -, hb, -⟩ := hg.tail hne
      left
      refine advance hg hne hN ?_ rfl (by rw [hdep]; rfl) hm hst
      rw [cnt_pushLine, cnt_pushWs, hc, hb hnl]
    · by_cases hne : s.kind = .eof
      · have hk' : s.tok.kind = .eof := hne
        simp [processActive, hk'] at h
      · obtain ⟨g1, g2, g3, g4, new, g5, g6⟩ := active_other (t := s.tok) hm hnd hnl hne (by
          rcases hg.shape s (by simp) with h | h | h | h
          · exact Or.inl h
          · exact Or.inr (Or.inl h)
          · exact Or.inr (Or.inr h.1)
          · rcases h.1 with h | h <;> exact absurd h (hnd _)) h
        obtain ⟨rest, t1, t2, -⟩ := hg.tail hne
        rw [hdep] at t1
        left
        refine ⟨rest, ?_, ?_, by rw [g4]; exact hm, by simpa [g5, hst] using g6, fun _ => by rw [g3]; exact hsk⟩
        · rw [g1, g2, g3, hc]; exact t1
        · rw [g1, hc]; show n + breaks s.text + _ = N; omega

/-- One turn of the main loop. -/
theorem turn {N : Nat} {env : Env} {f : Nat} {t : Tok} {st st₁ : PSt} (hinc : ∀ t ms, ObjectMacros ms → ObjectMacros (env.inc t ms))
    (hi : Inv N st) (hn : pNext st = some (t, st₁)) :
    (∀ st', pStep env f t st₁ = .next st' → Inv N st' ∨ Done N st') ∧ (∀ st', pStep env f t st₁ = .stop st' → Full N st') := by
  obtain ⟨text, hg, hN, hm, hs, hsk⟩ := hi
  have note : ∀ (t : Tok) (st : PSt), (noteArg t st).lexer = st.lexer ∧ (noteArg t st).conds = st.conds ∧ (noteArg t st).macros = st.macros ∧
      (noteArg t st).stack = st.stack ∧ cnt (noteArg t st) = cnt st := by
    intro t st; unfold noteArg; split <;> exact ⟨rfl, rfl, rfl, rfl, rfl⟩
  obtain ⟨n1, n2, n3, n4, n5⟩ := note t st₁
  unfold pStep
  dsimp only
  generalize noteArg t st₁ = st₂ at *
  unfold pNext at hn
  split at hn
  · rename_i x xs hstk
    simp only [Option.some.injEq, Prod.mk.injEq] at hn
    obtain ⟨rfl, rfl⟩ := hn
    have hx : TokOk x := hs x (by simp [hstk])
    have hno : skipping st.conds = false := hsk (by simp [hstk])
    have hno2 : skipping st₂.conds = false := by rw [n2]; exact hno
    simp only [hno2, Bool.false_eq_true, if_false]
    constructor
    · intro st' h
      obtain ⟨g1, g2, g3, g4, new, g5, g6⟩ := active_other (by rw [n3]; exact hm) hx.2.2.2 hx.2.1 hx.2.2.1 (Or.inl hx.1) h
      left
      refine ⟨text, ?_, ?_, by rw [g4, n3]; exact hm, ?_, fun _ => by rw [g3]; exact hno2⟩
      · rw [g1, g2, g3, n5, n1, n2, hx.1]; exact hg
      · rw [g1, n5, hx.1]; exact hN
      · intro y hy
        rw [g5, n4] at hy
        rcases List.mem_append.1 hy with hy | hy
        · exact g6 y hy
        · exact hs y (by simp [hstk, show y ∈ xs from hy])
    · intro st' h
      exfalso
      have k1 := hx.2.2.1
      have k2 := hx.2.2.2
      unfold processActive at h
      split at h <;> try (simp at h; done)
      · rename_i d hk; exact k2 _ hk
      · unfold processIdent at h
        (repeat' split at h) <;> simp at h
      · rename_i hk; exact k1 hk
  · rename_i hstk
    split at hn
    · simp at hn
    · rename_i s ss hl
      have fields : t = s.tok ∧ st₁.lexer = ss ∧ st₁.conds = st.conds ∧ st₁.macros = st.macros ∧ st₁.stack = [] ∧ cnt st₁ = cnt st := by
        split at hn
        all_goals
          simp only [Option.some.injEq, Prod.mk.injEq] at hn
          obtain ⟨rfl, rfl⟩ := hn
          exact ⟨rfl, rfl, rfl, rfl, hstk, rfl⟩
      obtain ⟨rfl, f2, f3, f4, f5, f6⟩ := fields
      rw [hl] at hg
      have hg2 : Good (cnt st) text st₂.conds.length (s :: st₂.lexer) := by rw [n2, f3, n1, f2]; exact hg
      have hm2 : ObjectMacros st₂.macros := by rw [n3, f4]; exact hm
      have hs2 : st₂.stack = [] := by rw [n4, f5]
      have hc2 : cnt st₂ = cnt st := by rw [n5, f6]
      constructor
      · intro st' h
        split at h
        · rename_i hk; exact Or.inl (processNegative_inv hg2 hk hc2 hN hm2 hs2 h)
        · rename_i hk; exact processActive_inv hinc hg2 (by simpa using hk) hc2 hN hm2 hs2 h
      · intro st' h
        by_cases hne : s.kind = .eof
        · obtain ⟨e1, e2, e3⟩ := hg2.eof hne
          have hcs : st₂.conds = [] := List.eq_nil_of_length_eq_zero e2
          have hk' : s.tok.kind = .eof := hne
          simp only [hcs, skipping, Bool.false_eq_true, if_false, processActive, hk', Step.stop.injEq] at h
          subst h
          have := cnt_pushWs s st₂
          simp only [Full, pushLine, List.length_append, List.map_append, List.sum_append, List.length_cons, List.length_nil, List.map_cons,
            List.map_nil, List.sum_cons, List.sum_nil]
          simp only [cnt] at this hc2 hN ⊢
          show (pushWs s st₂).out.length + _ + (((pushWs s st₂).out.map breaks).sum + (breaks (pushWs s st₂).line + 0)) = _
          omega
        · exfalso
          split at h
          · unfold processNegative processElse processEndif processElseif processIf at h
            dsimp only at h
            (repeat' split at h) <;> simp at h
          · unfold processActive at h
            split at h <;> try (simp at h; done)
            · unfold processDirective at h
              split at h <;> try (simp at h; done)
              · unfold processIf at h; dsimp only at h; (repeat' split at h) <;> simp at h
              · unfold processElseif processIf at h; dsimp only at h; (repeat' split at h) <;> simp at h
              · unfold processDefine at h; dsimp only at h; (repeat' split at h) <;> simp at h
              · unfold processEndif at h; dsimp only at h; (repeat' split at h) <;> simp at h
              · unfold processElse at h; (repeat' split at h) <;> simp at h
            · unfold processIdent at h; (repeat' split at h) <;> simp at h
            · rename_i hk; exact hne hk

theorem loop {N : Nat} {env : Env} (hinc : ∀ t ms, ObjectMacros ms → ObjectMacros (env.inc t ms)) :
    ∀ (f : Nat) (st st' : PSt), Inv N st ∨ Done N st → pLoop env f st = some (.result st') → Full N st' := by
  intro f
  induction f with
  | zero => intro st st' _ h; simp [pLoop] at h
  | succ f ih =>
    intro st st' hi h
    rcases hi with hi | hd
    · unfold pLoop at h
      cases hn : pNext st with
      | none =>
        exfalso
        obtain ⟨text, hg, -⟩ := hi
        have := hg.ne_nil
        unfold pNext at hn
        split at hn
        · simp at hn
        · split at hn
          · rename_i hl; exact this hl
          · split at hn <;> simp at hn
      | some p =>
        obtain ⟨t, st₁⟩ := p
        obtain ⟨t1, t2⟩ := turn (f := f) hinc hi hn
        rw [hn] at h
        dsimp only at h
        split at h
        · rename_i st₂ e; exact ih _ _ (t1 _ e) h
        · rename_i st₂ e
          simp only [Option.some.injEq, Final.result.injEq] at h
          subst h; exact t2 _ e
        all_goals simp at h
    · obtain ⟨h1, h2, h3⟩ := hd
      have : pNext st = none := by simp [pNext, h1, h2]
      simp only [pLoop, this, Option.some.injEq, Final.result.injEq] at h
      subst h; exact h3

/-- **C19 (for files of a class)**: the text handed to the parser has as many lines as the file, provided that: the tokens are those
of the file, with the flag `in_preprocessor` set on the line of a directive that reads its line; macros have no parameters; only
line breaks, comments, continuations, strings outside of directives and includes span several lines; conditional blocks are well
nested and closed, and span no token of several lines other than line breaks. Each of the last three is needed (theorems below). -/
theorem line_count_partial (env : Env) (f : Nat) (macros : Macros) (source : Str) (tokens : List Sym) (r : Final) (t : Str)
    (hlex : Lexes 0 source tokens) (hlines : DirectiveLines tokens) (hsimple : SimpleDirectives tokens) (hshape : ∀ s ∈ tokens, Shape s)
    (hblocks : Blocks 0 tokens) (hm : ObjectMacros macros) (hinc : ∀ t ms, ObjectMacros ms → ObjectMacros (env.inc t ms))
    (h : preprocess env f macros tokens = some r) (ht : resultText source r = some t) : lineCount t = lineCount source := by
  cases r with
  | panic => simp [resultText] at ht
  | errorResult st => simp only [resultText, Option.some.injEq] at ht; rw [ht]
  | result st =>
    simp only [resultText, Option.some.injEq] at ht
    subst ht
    have hfull : Full (breaks source) st := by
      refine loop hinc f _ st (Or.inl ⟨source, ?_, ?_, hm, by simp, by simp⟩) h
      · exact ⟨hlex, hlines, hsimple, hshape, hblocks⟩
      · simp [cnt, breaks_nil]
    unfold Full at hfull
    have hne : st.out ≠ [] := by
      intro e; rw [e] at hfull; simp at hfull
    have := breaks_join st.out hne
    simp only [lineCount]
    omega

theorem reaches_inv {N : Nat} {env : Env} (hinc : ∀ t ms, ObjectMacros ms → ObjectMacros (env.inc t ms)) {st st' : PSt}
    (hr : Reaches env st st') (h : Inv N st ∨ Done N st) : Inv N st' ∨ Done N st' := by
  induction hr with
  | refl => exact h
  | step hn hs _ ih =>
    rcases h with h | ⟨h1, h2, -⟩
    · exact ih ((turn hinc h hn).1 _ hs)
    · simp [pNext, h1, h2] at hn

/-- **C19, token by token (for files of the same class)**: whenever a token of the file is read, the text written so far ends on
the line on which the token stands in the file. -/
theorem line_kept_partial (env : Env) (macros : Macros) (source : Str) (tokens : List Sym)
    (hlex : Lexes 0 source tokens) (hlines : DirectiveLines tokens) (hsimple : SimpleDirectives tokens) (hshape : ∀ s ∈ tokens, Shape s)
    (hblocks : Blocks 0 tokens) (hm : ObjectMacros macros) (hinc : ∀ t ms, ObjectMacros ms → ObjectMacros (env.inc t ms))
    (st : PSt) (hr : Reaches env { lexer := tokens, macros := macros } st) (s : Sym) (ss : List Sym) (hs : st.lexer = s :: ss) :
    breaks (written st) = s.range.s.line := by
  have h := reaches_inv (N := breaks source) hinc hr (Or.inl ⟨source, ⟨hlex, hlines, hsimple, hshape, hblocks⟩, by simp [cnt, breaks_nil], hm, by simp, by simp⟩)
  rcases h with ⟨text, hg, -⟩ | ⟨h1, -⟩
  · have hb := breaks_join (st.out ++ [st.line]) (by simp)
    have hline : s.range.s.line = cnt st := by
      have hl := hg.lexes
      rw [hs] at hl
      cases hl with
      | cons _ b _ _ _ _ => exact b
    rw [hline]
    simp only [written, cnt, List.length_append, List.map_append, List.sum_append, List.length_cons, List.length_nil, List.map_cons, List.map_nil,
      List.sum_cons, List.sum_nil] at *
    omega
  · rw [h1] at hs; simp at hs

/-! ### Files for examples -/

/-- A token for a file: blanks before it, kind, text, whether it is on a directive line, numeric value. -/
structure Word where
  kind : Kind
  text : String
  pre  : Bool := false
  val  : Option Int := none
  ws   : Nat := 0

def lexed : Nat → List Word → List Sym
  | _, [] => []
  | n, w :: ws => ⟨w.kind, w.text.toList, ⟨⟨n, 0⟩, ⟨n + breaks w.text.toList, 0⟩⟩, ⟨0, w.ws⟩, w.val, w.pre⟩ :: lexed (n + breaks w.text.toList) ws

def fileText : List Word → Str
  | [] => []
  | w :: ws => List.replicate w.ws ' ' ++ (w.text.toList ++ fileText ws)

def WordOk (w : Word) (rest : List Word) : Prop :=
  (w.kind = .newline → breaks w.text.toList = 1) ∧ (w.kind = .eof → w.text.toList = [] ∧ rest = [])

def WordsOk : List Word → Prop
  | [] => True
  | w :: ws => WordOk w ws ∧ WordsOk ws

theorem lexes_lexed : ∀ (ws : List Word) (n : Nat), WordsOk ws → Lexes n (fileText ws) (lexed n ws)
  | [], _, _ => .nil
  | w :: ws, n, h => by
    refine .cons (s := ⟨w.kind, w.text.toList, _, _, _, _⟩) ?_ rfl rfl h.1.1 ?_ (lexes_lexed ws _ h.2)
    · simp [breaks, List.count_replicate]
    · intro he
      obtain ⟨a, b⟩ := h.1.2 he
      subst b
      exact ⟨a, rfl, rfl⟩

def pres (w : Word) : Word := { w with pre := true }
def br : Word := { kind := .newline, text := "\n" }
def word (t : String) : Word := { kind := .ident, text := t }
def int (t : String) (v : Int) : Word := { kind := .intLit, text := t, val := some v, ws := 1 }
def dirw (d : Dir) (t : String) : Word := { kind := .dir d, text := t }
def eofw : Word := { kind := .eof, text := "" }

def noEnv : Env := ⟨.debug, 0, fun _ ms => ms⟩
def noMacros : Macros := fun _ => none

/-- `#define A x⏎#if 1⏎A⏎#else⏎#if 0⏎#endif⏎y⏎#endif⏎/* a⏎b */⏎#include <c>⏎⏎A⏎#undef A`: fourteen lines. -/
def file : List Word :=
  [dirw .define "#define", { pres (word "A") with ws := 1 }, { pres (word "x") with ws := 1 }, pres br,
   dirw .if_ "#if", pres (int "1" 1), pres br, word "A", br, dirw .else_ "#else", br,
   dirw .if_ "#if", pres (int "0" 0), pres br, dirw .endif "#endif", br, word "y", br, dirw .endif "#endif", br,
   { kind := .blockComment, text := "/* a\nb */" }, br, dirw .include_ "#include <c>\n\n", word "A", br,
   dirw .undef "#undef", { pres (word "A") with ws := 1 }, { eofw with pre := true }]

/-- The hypotheses of `line_count_partial` hold of a file with all of these constructs, and it is processed. -/
example : Lexes 0 (fileText file) (lexed 0 file) ∧ DirectiveLines (lexed 0 file) ∧ SimpleDirectives (lexed 0 file) ∧
    (∀ s ∈ lexed 0 file, Shape s) ∧ Blocks 0 (lexed 0 file) ∧ ObjectMacros noMacros ∧
    (∀ t ms, ObjectMacros ms → ObjectMacros (noEnv.inc t ms)) ∧
    ∃ r t, preprocess noEnv 60 noMacros (lexed 0 file) = some (.result r) ∧ resultText (fileText file) (.result r) = some t ∧ lineCount t = 14 ∧
      lineCount (fileText file) = 14 := by
  refine ⟨lexes_lexed _ _ ?_, ?_, ?_, ?_, ?_, ?_, fun _ _ h => h, _, _, rfl, rfl, by decide, by decide⟩
  · simp [file, WordsOk, WordOk, dirw, pres, word, br, int, eofw, breaks]
  · simp [file, lexed, DirectiveLines, dirw, pres, word, br, int, eofw, readsLine]
  · simp only [file, lexed, SimpleDirectives, dirw, pres, word, br, int, eofw, reduceCtorEq, false_imp_iff, Kind.dir.injEq, true_and, and_true,
      forall_const]
    exact ⟨⟨_, _, rfl, rfl, by decide, by simp⟩, _, _, rfl, rfl⟩
  · simp [file, lexed, Shape, Dropped, dirw, pres, word, br, int, eofw, breaks]
    decide
  · simp [file, lexed, Blocks, dirw, pres, word, br, int, eofw, breaks]
  · intro x m h; simp [noMacros] at h

/-- `#if 0⏎/* a⏎b */⏎#endif⏎x`. -/
def skippedComment : List Word :=
  [dirw .if_ "#if", pres (int "0" 0), pres br, { kind := .blockComment, text := "/* a\nb */" }, br, dirw .endif "#endif", br, word "x", eofw]

/-- **C19 is violated**: a comment of several lines in inactive code is left out with its line breaks. -/
theorem line_count_comment_refuted : Lexes 0 (fileText skippedComment) (lexed 0 skippedComment) ∧ ∃ r, Gives noEnv noMacros (lexed 0 skippedComment) (.result r) ∧
    lineCount (fileText skippedComment) = 5 ∧ lineCount (joinLines r.out) = 4 :=
  ⟨lexes_lexed _ _ (by simp [skippedComment, WordsOk, WordOk, dirw, pres, word, br, int, eofw, breaks]), _, gives_of 30 rfl, by decide, by decide⟩

/-- `#define F(%1,%2) %1⏎F(a,⏎b)⏎x`. -/
def splitCall : List Word :=
  [dirw .define "#define", { pres (word "F") with ws := 1 }, { kind := .lparen, text := "(", pre := true }, { kind := .op .percent, text := "%", pre := true },
   { pres (int "1" 1) with ws := 0 }, { kind := .comma, text := ",", pre := true }, { kind := .op .percent, text := "%", pre := true },
   { pres (int "2" 2) with ws := 0 }, { kind := .rparen, text := ")", pre := true }, { kind := .op .percent, text := "%", pre := true, ws := 1 },
   { pres (int "1" 1) with ws := 0 }, pres br,
   word "F", { kind := .lparen, text := "(" }, word "a", { kind := .comma, text := "," }, br, word "b", { kind := .rparen, text := ")" }, br, word "x", eofw]

/-- **C19 is violated**: the line breaks inside of the arguments of a macro are left out. -/
theorem line_count_call_refuted : Lexes 0 (fileText splitCall) (lexed 0 splitCall) ∧ ∃ r, Gives noEnv noMacros (lexed 0 splitCall) (.result r) ∧
    lineCount (fileText splitCall) = 4 ∧ lineCount (joinLines r.out) = 3 :=
  ⟨lexes_lexed _ _ (by simp [splitCall, WordsOk, WordOk, dirw, pres, word, br, int, eofw, breaks]), _, gives_of 60 rfl, by decide, by decide⟩

/-- `#if 0⏎x`. -/
def openBlock : List Word := [dirw .if_ "#if", pres (int "0" 0), pres br, word "x", eofw]

/-- **C19 is violated**: a block that is still open at the end of the file loses the last line. -/
theorem line_count_open_refuted : Lexes 0 (fileText openBlock) (lexed 0 openBlock) ∧ ∃ r, Gives noEnv noMacros (lexed 0 openBlock) (.result r) ∧
    lineCount (fileText openBlock) = 2 ∧ lineCount (joinLines r.out) = 1 :=
  ⟨lexes_lexed _ _ (by simp [openBlock, WordsOk, WordOk, dirw, pres, word, br, int, eofw, breaks]), _, gives_of 60 rfl, by decide, by decide⟩

/-- `#undef⏎x`. -/
def bareUndef : List Word := [dirw .undef "#undef", pres br, word "x", eofw]

/-- **C19 is violated**: the line break after an `#undef` without a name is left out. -/
theorem line_count_undef_refuted : Lexes 0 (fileText bareUndef) (lexed 0 bareUndef) ∧ ∃ r, Gives noEnv noMacros (lexed 0 bareUndef) (.result r) ∧
    lineCount (fileText bareUndef) = 2 ∧ lineCount (joinLines r.out) = 1 :=
  ⟨lexes_lexed _ _ (by simp [bareUndef, WordsOk, WordOk, dirw, pres, word, br, int, eofw, breaks]), _, gives_of 60 rfl, by decide, by decide⟩

end Verif.Props.Lines
