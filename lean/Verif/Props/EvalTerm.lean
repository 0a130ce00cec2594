import Verif.Props.PreFuel
import Verif.Pre.TermSpec
import Verif.Props.Evaluator
import Mathlib.Data.List.Forall2
/-!
# When conditions and whole files are processed in finite time (C21, C22, C23)
-/

namespace Verif.Props.EvalTerm

open Verif.Pre Verif.Pre.Spec Verif.Props.PreFuel Verif.Props.MacroTerm

/-! ### Where the tokens of an expansion come from -/

section Prov

variable (P : Kind → Str → Prop)

def TP (t : Tok) : Prop := P t.kind t.text
def SP (s : Sym) : Prop := P s.kind s.text

theorem scanOpen_prefix (line : Nat) (ts : List Tok) : ∀ temp,
    match scanOpen line temp ts with
    | .absent temp' => ∃ k, k ≤ ts.length ∧ 0 < k ∧ temp' = temp ++ ts.take k
    | .found k _ => temp.length < k ∧ k ≤ temp.length + ts.length
    | .exhausted k => k = temp.length + ts.length := by
  induction ts with
  | nil => intro temp; simp [scanOpen]
  | cons t ts ih =>
    intro temp
    simp only [scanOpen]
    by_cases h1 : t.kind = .lparen
    · simp only [h1, if_true]
      by_cases h2 : t.sym.range.s.line ≠ line
      · rw [if_pos h2]; exact ⟨1, by simp, by simp, by simp⟩
      · rw [if_neg h2]; simp
    · simp only [h1, if_false]
      by_cases h2 : t.kind = .blockComment
      · simp only [h2, if_true]
        have := ih (temp ++ [t])
        revert this
        cases scanOpen line (temp ++ [t]) ts with
        | absent temp' =>
          rintro ⟨k, h1, h2, rfl⟩
          exact ⟨k + 1, by simp; omega, by simp, by simp⟩
        | found k c => simp only [List.length_append, List.length_cons, List.length_nil]; omega
        | exhausted k => simp only [List.length_append, List.length_cons, List.length_nil]; omega
      · simp only [h2, if_false]; exact ⟨1, by simp, by simp, by simp⟩

theorem scanArgs_mem (nb : Nat) (ts : List Tok) : ∀ (depth idx : Nat) (args : Nat → List Tok) (n i : Nat) (x : Tok),
    x ∈ (scanArgs nb depth idx args n ts).1 i → x ∈ args i ∨ x ∈ ts := by
  induction ts with
  | nil => intro depth idx args n i x h; left; simpa [scanArgs] using h
  | cons t ts ih =>
    intro depth idx args n i x h
    have hadd : ∀ {x}, x ∈ addArg args idx t i → x ∈ args i ∨ x = t := by
      intro x hx
      unfold addArg at hx
      split at hx
      · simpa using hx
      · exact .inl hx
    have key : ∀ d j n, x ∈ (scanArgs nb d j (addArg args idx t) n ts).1 i → x ∈ args i ∨ x ∈ t :: ts := by
      intro d j n h
      rcases ih _ _ _ _ _ _ h with h | h
      · rcases hadd h with h | h
        · exact .inl h
        · exact .inr (by simp [h])
      · exact .inr (by simp [h])
    unfold scanArgs at h
    split at h
    · exact key _ _ _ h
    · split at h
      · exact key _ _ _ h
      · exact .inl h
    · split at h
      · split at h
        · rcases ih _ _ _ _ _ _ h with h | h
          · exact .inl h
          · exact .inr (by simp [h])
        · exact key _ _ _ h
      · exact key _ _ _ h
    · exact key _ _ _ h

structure SrcP (s : Src) : Prop where
  ctx : ∀ q ∈ s.ctx, TP P q.tok
  popped : ∀ t ∈ s.popped, TP P t
  lexer : ∀ x ∈ s.lexer, SP P x

theorem SrcP.avail {P} {s : Src} (h : SrcP P s) : ∀ t ∈ s.avail, TP P t := by
  intro t ht
  simp only [Src.avail, List.mem_append, List.mem_map] at ht
  rcases ht with (⟨q, hq, rfl⟩ | ht) | ⟨x, hx, rfl⟩
  · exact h.ctx q hq
  · exact h.popped t ht
  · exact h.lexer x hx

theorem SrcP.take {P} {s : Src} (h : SrcP P s) (k : Nat) : SrcP P (s.take k) :=
  ⟨fun q hq => h.ctx q (List.mem_of_mem_drop hq), fun t ht => h.popped t (List.mem_of_mem_drop ht), fun x hx => h.lexer x (List.mem_of_mem_drop hx)⟩

theorem collect_P {s : Src} (h : SrcP P s) (line nb : Nat) : SrcP P (collectArguments s line nb).1 ∧
    ∀ args d, (collectArguments s line nb).2 = some (args, d) → ∀ i, ∀ t ∈ args i, TP P t := by
  unfold collectArguments
  have hp := scanOpen_prefix line s.avail []
  revert hp
  cases scanOpen line [] s.avail with
  | absent temp =>
    rintro ⟨k, -, -, rfl⟩
    refine ⟨⟨(h.take _).ctx, fun t ht => ?_, (h.take _).lexer⟩, by simp⟩
    simp only [List.nil_append, List.mem_append] at ht
    rcases ht with ht | ht
    · exact h.avail t (List.mem_of_mem_take ht)
    · exact (h.take _).popped t ht
  | exhausted k =>
    intro _
    refine ⟨h.take _, fun args d e i t ht => ?_⟩
    simp only [Option.some.injEq, Prod.mk.injEq] at e
    rw [← e.1] at ht; simp at ht
  | found k col =>
    intro _
    refine ⟨h.take _, fun args d e i t ht => ?_⟩
    simp only [Option.some.injEq, Prod.mk.injEq] at e
    rw [← e.1] at ht
    rcases scanArgs_mem nb _ _ _ _ _ _ _ ht with h' | h'
    · simp at h'
    · exact h.avail t (List.mem_of_mem_drop h')

theorem collect_lexer (s : Src) (line nb : Nat) : (collectArguments s line nb).1.lexer.length ≤ s.lexer.length := by
  unfold collectArguments
  split
  · simp only [Src.take, List.length_drop]; omega
  · simp only [Src.take, List.length_drop]; omega
  · simp only [Src.take, List.length_drop]; omega

/-- With nothing else to look at, the lexer is read. -/
theorem collect_lexer_lt (lexer : List Sym) (line nb : Nat) (h : lexer ≠ []) :
    (collectArguments ⟨[], [], lexer⟩ line nb).1.lexer.length < lexer.length := by
  have h0 : 0 < lexer.length := List.length_pos_iff.2 h
  unfold collectArguments
  have hp := scanOpen_prefix line (Src.avail ⟨[], [], lexer⟩) []
  have ha : (Src.avail ⟨[], [], lexer⟩).length = lexer.length := by simp [Src.avail]
  revert hp
  cases scanOpen line [] (Src.avail ⟨[], [], lexer⟩) with
  | absent temp =>
    rintro ⟨k, h1, h2, rfl⟩
    simp only [Src.take, List.nil_append, List.length_take, List.length_drop, List.length_nil]
    omega
  | exhausted k =>
    intro e
    simp only [Src.take, List.length_drop, List.length_nil] at e ⊢
    omega
  | found k col =>
    rintro ⟨e, -⟩
    simp only [Src.take, List.length_drop, List.length_nil] at e ⊢
    omega

theorem bodySyms_P {rs : List RSym} (h : ∀ r ∈ rs, P r.kind r.text) : ∀ prev, ∀ x ∈ bodySyms prev rs, SP P x := by
  induction rs with
  | nil => intro prev x hx; simp [bodySyms] at hx
  | cons r rs ih =>
    intro prev x hx
    simp only [bodySyms, List.mem_cons] at hx
    rcases hx with rfl | hx
    · exact h r (by simp)
    · exact ih (fun r hr => h r (by simp [hr])) _ x hx

theorem bodyQueue_P {ss : List Sym} (h : ∀ x ∈ ss, SP P x) (d : Delta) : ∀ q ∈ bodyQueue d ss, TP P q.tok := by
  cases ss with
  | nil => intro q hq; simp [bodyQueue] at hq
  | cons s ss =>
    intro q hq
    simp only [bodyQueue, List.mem_cons, List.mem_map] at hq
    rcases hq with rfl | ⟨x, hx, rfl⟩
    · exact h s (by simp)
    · exact h x (by simp [hx])

theorem dropLastNewline_mem {q : List QTok} {x : QTok} (h : x ∈ dropLastNewline q) : x ∈ q := by
  unfold dropLastNewline at h
  split at h
  · split at h
    · exact List.dropLast_subset _ h
    · exact h
  · exact h

theorem expandNonMacro_P {m : Macro} (h : ∀ r ∈ m.body, P r.kind r.text) (d : Delta) (prev : Rng) :
    ∀ q ∈ expandNonMacro m d prev, TP P q.tok := by
  intro q hq
  exact bodyQueue_P P (bodySyms_P P h prev) d q (dropLastNewline_mem hq)

theorem bodyStep_P (hstr : ∀ x, P .strLit x) {args : Nat → List Tok} (ha : ∀ i, ∀ t ∈ args i, TP P t) (m : Macro) (symbol : Sym) (delta : Delta)
    (depth i : Nat) (child : Sym) (hc : SP P child) (st st' : MSt) (hst : ∀ q ∈ st.ctx, TP P q.tok)
    (h : bodyStep args m symbol delta depth i child st = some st') : ∀ q ∈ st'.ctx, TP P q.tok := by
  have hadd : ∀ d, ∀ q ∈ st.ctx ++ [⟨child.tok, d⟩], TP P q.tok := by
    intro d q hq
    simp only [List.mem_append, List.mem_singleton] at hq
    rcases hq with hq | rfl
    · exact hst q hq
    · exact hc
  unfold bodyStep at h
  split at h
  · simp only [Option.some.injEq] at h; subst h
    simp only
    split
    · exact hadd _
    · exact hst
  · simp only [Option.some.injEq] at h; subst h; exact hadd _
  · split at h
    · unfold substParam at h
      split at h
      · cases h
      · split at h
        · cases h
        · split at h
          · cases h
          · split at h
            · cases h
            · split at h
              · cases h
              · split at h
                · simp only [Option.some.injEq] at h; subst h
                  intro q hq
                  simp only [List.mem_append, List.mem_singleton] at hq
                  rcases hq with hq | rfl
                  · exact hst q (List.dropLast_subset _ (List.dropLast_subset _ hq))
                  · exact hstr _
                · simp only [Option.some.injEq] at h; subst h
                  intro q hq
                  simp only [List.mem_append, List.mem_mapIdx] at hq
                  rcases hq with hq | ⟨j, hj, rfl⟩
                  · exact hst q (List.dropLast_subset _ hq)
                  · simp only
                    have := ha _ _ (List.getElem_mem hj)
                    split
                    · exact this
                    · exact this
    · simp only [Option.some.injEq] at h; subst h; exact hadd _
  · split at h
    · simp only [Option.some.injEq] at h; subst h; exact hst
    · simp only [Option.some.injEq] at h; subst h; exact hadd _

theorem bodyLoop_P (hstr : ∀ x, P .strLit x) {args : Nat → List Tok} (ha : ∀ i, ∀ t ∈ args i, TP P t) (m : Macro) (symbol : Sym) (delta : Delta)
    (depth : Nat) (cs : List Sym) : ∀ (i : Nat) (st st' : MSt), (∀ c ∈ cs, SP P c) → (∀ q ∈ st.ctx, TP P q.tok) →
    bodyLoop args m symbol delta depth i cs st = some st' → ∀ q ∈ st'.ctx, TP P q.tok := by
  induction cs with
  | nil => intro i st st' _ hst h; simp only [bodyLoop, Option.some.injEq] at h; subst h; exact hst
  | cons c cs ih =>
    intro i st st' hc hst h
    simp only [bodyLoop] at h
    split at h
    · cases h
    · rename_i st₁ h1
      exact ih _ _ _ (fun x hx => hc x (by simp [hx])) (bodyStep_P P hstr ha m symbol delta depth i c (hc c (by simp)) st st₁ hst h1) h

theorem expandMacro_P (hstr : ∀ x, P .strLit x) {args : Nat → List Tok} (ha : ∀ i, ∀ t ∈ args i, TP P t) (m : Macro)
    (hm : ∀ r ∈ m.body, P r.kind r.text) (symbol : Sym) (delta : Delta) (depth : Nat) (q : List QTok)
    (h : expandMacro args m symbol delta depth = some q) : ∀ x ∈ q, TP P x.tok := by
  unfold expandMacro at h
  simp only [Option.map_eq_some_iff] at h
  obtain ⟨st, h1, rfl⟩ := h
  exact bodyLoop_P P hstr ha m symbol delta depth _ 0 _ st (bodySyms_P P hm _) (by simp) h1

structure XP (st : XSt) : Prop where
  ctxs : ∀ c ∈ st.ctxs, ∀ q ∈ c, TP P q.tok
  popped : ∀ t ∈ st.popped, TP P t
  lexer : ∀ x ∈ st.lexer, SP P x
  out : ∀ t ∈ st.out, TP P t

theorem xStep_P (hstr : ∀ x, P .strLit x) {macros : Macros} (hb : ∀ x m, P .ident x → macros x = some m → ∀ r ∈ m.body, P r.kind r.text)
    (allow : Bool) (token : Tok) (top : List QTok) (rest : List (List QTok)) (st : XSt) (hst : XP P st) (he : st.ctxs = top :: rest) (st' : XSt)
    (h : xStep macros allow token top rest st = .continue_ st') : XP P st' ∧ st'.lexer.length ≤ st.lexer.length := by
  have hrest : ∀ c ∈ rest, ∀ q ∈ c, TP P q.tok := fun c hc => hst.ctxs c (by rw [he]; simp [hc])
  have htop : ∀ q ∈ top, TP P q.tok := hst.ctxs top (by rw [he]; simp)
  cases top with
  | nil =>
    simp only [xStep, XRes.continue_.injEq] at h; subst h
    exact ⟨⟨hrest, hst.popped, hst.lexer, hst.out⟩, Nat.le_refl _⟩
  | cons q cur =>
    have hq := htop q (by simp)
    have hcur : ∀ x ∈ cur, TP P x.tok := fun x hx => htop x (by simp [hx])
    have hcons : ∀ c ∈ cur :: rest, ∀ q ∈ c, TP P q.tok := by
      intro c hc; rcases List.mem_cons.1 hc with rfl | hc
      · exact hcur
      · exact hrest c hc
    have hout : ∀ d, ∀ t ∈ st.out ++ [q.tok.setDelta d], TP P t := by
      intro d t ht
      simp only [List.mem_append, List.mem_singleton] at ht
      rcases ht with ht | rfl
      · exact hst.out t ht
      · exact hq
    have hout' : ∀ t ∈ st.out ++ [q.tok], TP P t := by
      intro t ht
      simp only [List.mem_append, List.mem_singleton] at ht
      rcases ht with ht | rfl
      · exact hst.out t ht
      · exact hq
    unfold xStep at h
    dsimp only at h
    split at h
    · rename_i hk
      have hqi : P .ident q.tok.text := by have := hq; unfold TP at this; rw [hk] at this; exact this
      split at h
      · split at h
        · simp only [XRes.continue_.injEq] at h; subst h
          exact ⟨⟨hcons, hst.popped, hst.lexer, hout _⟩, Nat.le_refl _⟩
        · cases h
      · rename_i m hm
        split at h
        · simp only [XRes.continue_.injEq] at h; subst h
          refine ⟨⟨?_, hst.popped, hst.lexer, hst.out⟩, Nat.le_refl _⟩
          intro c hc; rcases List.mem_cons.1 hc with rfl | hc
          · exact expandNonMacro_P P (hb _ m hqi hm) _ _
          · exact hcons c hc
        · have hsrc : SrcP P ⟨cur, st.popped, st.lexer⟩ := ⟨hcur, hst.popped, hst.lexer⟩
          obtain ⟨h1, h2⟩ := collect_P P hsrc q.tok.sym.range.e.line m.nbParams
          have hl := collect_lexer ⟨cur, st.popped, st.lexer⟩ q.tok.sym.range.e.line m.nbParams
          generalize hc : collectArguments ⟨cur, st.popped, st.lexer⟩ q.tok.sym.range.e.line m.nbParams = c at h h1 h2 hl
          have hctx : ∀ c' ∈ c.1.ctx :: rest, ∀ q ∈ c', TP P q.tok := by
            intro c' hc'; rcases List.mem_cons.1 hc' with rfl | hc'
            · exact h1.ctx
            · exact hrest c' hc'
          obtain ⟨s, _ | ⟨args, d⟩⟩ := c
          · simp only [XRes.continue_.injEq] at h; subst h
            exact ⟨⟨hctx, h1.popped, h1.lexer, hout'⟩, hl⟩
          · dsimp only at h
            split at h
            · cases h
            · rename_i q' hq'
              simp only [XRes.continue_.injEq] at h; subst h
              refine ⟨⟨?_, h1.popped, h1.lexer, hst.out⟩, hl⟩
              intro c' hc'; rcases List.mem_cons.1 hc' with rfl | hc'
              · exact expandMacro_P P hstr (h2 args d rfl) m (hb _ m hqi hm) _ _ _ _ hq'
              · exact hctx c' hc'
    · rename_i hk
      simp only [XRes.continue_.injEq] at h; subst h
      refine ⟨⟨hcons, hst.popped, hst.lexer, ?_⟩, Nat.le_refl _⟩
      intro t ht
      simp only [List.mem_append, List.mem_singleton] at ht
      rcases ht with ht | rfl
      · exact hst.out t ht
      · exact hq
    · simp only [XRes.continue_.injEq] at h; subst h
      refine ⟨⟨hcons, hst.popped, hst.lexer, ?_⟩, Nat.le_refl _⟩
      intro t ht
      simp only [List.mem_append, List.mem_singleton] at ht
      rcases ht with ht | rfl
      · exact hst.out t ht
      · exact hq
    all_goals
      simp only [XRes.continue_.injEq] at h; subst h
      first
        | exact ⟨⟨hcons, hst.popped, hst.lexer, hst.out⟩, Nat.le_refl _⟩
        | exact ⟨⟨hcons, hst.popped, hst.lexer, hout _⟩, Nat.le_refl _⟩

theorem xLoop_P (hstr : ∀ x, P .strLit x) {macros : Macros} (hb : ∀ x m, P .ident x → macros x = some m → ∀ r ∈ m.body, P r.kind r.text)
    (allow : Bool) (token : Tok) (f : Nat) : ∀ st st', XP P st → xLoop macros allow token f st = some (.continue_ st') →
    XP P st' ∧ st'.lexer.length ≤ st.lexer.length := by
  induction f with
  | zero => intro st st' _ h; simp [xLoop] at h
  | succ f ih =>
    intro st st' hst h
    simp only [xLoop] at h
    split at h
    · simp only [Option.some.injEq, XRes.continue_.injEq] at h; subst h; exact ⟨hst, Nat.le_refl _⟩
    · rename_i top rest he
      split at h
      · cases hs : xStep macros allow token top rest st with
        | error e st₁ => rw [hs] at h; simp at h
        | continue_ st₁ =>
          rw [hs] at h
          obtain ⟨h1, h2⟩ := xStep_P P hstr hb allow token top rest st hst he st₁ hs
          obtain ⟨h3, h4⟩ := ih st₁ st' h1 h
          exact ⟨h3, Nat.le_trans h4 h2⟩
      · simp only [Option.some.injEq, XRes.continue_.injEq] at h; subst h; exact ⟨hst, Nat.le_refl _⟩

/-- The tokens an expansion leaves on the stack and in the lexer. -/
theorem expand_P (hstr : ∀ x, P .strLit x) {macros : Macros} (hb : ∀ x m, P .ident x → macros x = some m → ∀ r ∈ m.body, P r.kind r.text)
    (allow : Bool) (f : Nat) (token : Tok) (lexer : List Sym) (stack : List Tok) (disabled : List Macro) (ht : TP P token)
    (hl : ∀ x ∈ lexer, SP P x) (hs : ∀ t ∈ stack, TP P t) (o : XOut) (d : Nat)
    (h : expandIdentifier macros allow f token lexer stack disabled = some o) (hv : o.value = .ok d) :
    (∀ x ∈ o.lexer, SP P x) ∧ (∀ t ∈ o.stack, TP P t) ∧ o.lexer.length ≤ lexer.length := by
  unfold expandIdentifier at h
  split at h
  · cases h
  · simp only [Option.some.injEq] at h; subst h; simp at hv
  · rename_i st hx
    simp only [Option.some.injEq] at h; subst h
    obtain ⟨h1, h2⟩ := xLoop_P P hstr hb allow token f _ st ⟨by simpa using ht, by simp, hl, by simp⟩ hx
    refine ⟨h1.lexer, fun t ht => ?_, h2⟩
    simp only [List.append_assoc, List.mem_append, List.mem_reverse] at ht
    rcases ht with ht | ht | ht
    · exact h1.out t ht
    · exact h1.popped t ht
    · exact hs t ht

end Prov

/-! ### Function-like names that are followed by their arguments -/

section Followed

variable (macros : Macros)

/-- Every name of a macro with parameters is followed by a parenthesis on the same line. -/
def Foll : List Tok → Prop
  | [] => True
  | t :: ts => (IsFn macros t.kind t.text → ∃ u us, ts = u :: us ∧ u.kind = .lparen ∧ u.sym.range.s.line = t.sym.range.e.line) ∧ Foll ts

theorem Foll.append {a b : List Tok} (ha : Foll macros a) (hb : Foll macros b) : Foll macros (a ++ b) := by
  induction a with
  | nil => exact hb
  | cons t a ih =>
    refine ⟨fun h => ?_, ih ha.2⟩
    obtain ⟨u, us, rfl, h1, h2⟩ := ha.1 h
    exact ⟨u, us ++ b, rfl, h1, h2⟩

theorem Foll.right {a b : List Tok} (h : Foll macros (a ++ b)) : Foll macros b := by
  induction a with
  | nil => exact h
  | cons t a ih => exact ih h.2

/-- A list may be cut before a token that is not a parenthesis. -/
theorem Foll.left {a b : List Tok} {x : Tok} (h : Foll macros (a ++ x :: b)) (hx : x.kind ≠ .lparen) : Foll macros a := by
  induction a with
  | nil => trivial
  | cons t a ih =>
    refine ⟨fun hf => ?_, ih h.2⟩
    obtain ⟨u, us, h1, h2, h3⟩ := h.1 hf
    cases a with
    | nil => injection h1 with h4 h5; exact absurd (h4 ▸ h2) hx
    | cons v a => injection h1 with h4 h5; exact ⟨v, a, rfl, h4 ▸ h2, h4 ▸ h3⟩

theorem Foll.drop {a b : List Tok} {x : Tok} (h : Foll macros (a ++ x :: b)) (hx : x.kind ≠ .lparen) : Foll macros (a ++ b) :=
  (h.left macros hx).append macros (Foll.right macros (a := a ++ [x]) (by simpa using h))

theorem Foll.tail {l : List Tok} (h : Foll macros l) (k : Nat) : Foll macros (l.drop k) :=
  Foll.right macros (a := l.take k) (by rw [List.take_append_drop]; exact h)

/-- Only the kind, the text and the range matter. -/
theorem Foll.congr {a b : List Tok} (h : List.Forall₂ (fun x y => x.kind = y.kind ∧ x.text = y.text ∧ x.sym.range = y.sym.range) a b) :
    Foll macros a → Foll macros b := by
  induction h with
  | nil => exact id
  | @cons x y a b hxy hab ih =>
    intro hf
    refine ⟨fun hy => ?_, ih hf.2⟩
    rw [← hxy.1, ← hxy.2.1] at hy
    obtain ⟨u, us, rfl, h1, h2⟩ := hf.1 hy
    cases hab with
    | cons hu _ => exact ⟨_, _, rfl, hu.1 ▸ h1, by rw [← hu.2.2, ← hxy.2.2]; exact h2⟩

theorem bodySyms_foll (rs : List RSym) : ∀ prev, Applied macros rs → Foll macros ((bodySyms prev rs).map Sym.tok) := by
  induction rs with
  | nil => intro prev h; trivial
  | cons r rs ih =>
    intro prev h
    refine ⟨fun hf => ?_, ih _ h.2⟩
    obtain ⟨u, us, rfl, h1⟩ := h.1 hf
    exact ⟨_, _, rfl, h1, rfl⟩

theorem scanArgs_count (nb : Nat) (ts : List Tok) : ∀ d idx args n, n ≤ (scanArgs nb d idx args n ts).2.1 ∧
    (ts ≠ [] → n < (scanArgs nb d idx args n ts).2.1) := by
  induction ts with
  | nil => intro d idx args n; simp [scanArgs]
  | cons t ts ih =>
    intro d idx args n
    have key : ∀ d idx args, n + 1 ≤ (scanArgs nb d idx args (n + 1) ts).2.1 := fun d idx args => (ih d idx args (n + 1)).1
    suffices h : n < (scanArgs nb d idx args n (t :: ts)).2.1 from ⟨Nat.le_of_lt h, fun _ => h⟩
    unfold scanArgs
    split
    · exact key _ _ _
    · split
      · exact key _ _ _
      · simp
    · split
      · split <;> exact key _ _ _
      · exact key _ _ _
    · exact key _ _ _

theorem scanArgs_le (nb : Nat) (ts : List Tok) : ∀ d idx args n, (scanArgs nb d idx args n ts).2.1 ≤ n + ts.length := by
  induction ts with
  | nil => intro d idx args n; simp [scanArgs]
  | cons t ts ih =>
    intro d idx args n
    have key : ∀ d idx args, (scanArgs nb d idx args (n + 1) ts).2.1 ≤ n + (t :: ts).length := by
      intro d idx args; have := ih d idx args (n + 1); simp only [List.length_cons]; omega
    unfold scanArgs
    split
    · exact key _ _ _
    · split
      · exact key _ _ _
      · simp
    · split
      · split <;> exact key _ _ _
      · exact key _ _ _
    · exact key _ _ _

/-- Either the scan leaves the first part, or all the arguments are well formed. -/
theorem scanArgs_foll (nb : Nat) (a b : List Tok) : ∀ d idx args n, Foll macros (args idx ++ a) → (∀ i, i ≠ idx → Foll macros (args i)) →
    n + a.length < (scanArgs nb d idx args n (a ++ b)).2.1 ∨ ∀ i, Foll macros ((scanArgs nb d idx args n (a ++ b)).1 i) := by
  induction a with
  | nil =>
    intro d idx args n h1 h2
    cases b with
    | nil =>
      right; intro i
      simp only [List.append_nil, scanArgs] at h1 ⊢
      by_cases hi : i = idx
      · subst hi; exact h1
      · exact h2 i hi
    | cons t b => left; exact (scanArgs_count nb (t :: b) d idx args n).2 (by simp)
  | cons t a ih =>
    intro d idx args n h1 h2
    have hadd : ∀ d, n + (t :: a).length < (scanArgs nb d idx (addArg args idx t) (n + 1) (a ++ b)).2.1 ∨
        ∀ i, Foll macros ((scanArgs nb d idx (addArg args idx t) (n + 1) (a ++ b)).1 i) := by
      intro d
      have := ih d idx (addArg args idx t) (n + 1) (by simpa [addArg] using h1) (fun i hi => by simpa [addArg, hi] using h2 i hi)
      rw [show n + (t :: a).length = n + 1 + a.length from by simp only [List.length_cons]; omega]; exact this
    rw [List.cons_append]
    unfold scanArgs
    split
    · exact hadd _
    · rename_i hk
      split
      · exact hadd _
      · right; intro i
        simp only
        by_cases hi : i = idx
        · subst hi; exact h1.left macros (by rw [hk]; simp)
        · exact h2 i hi
    · rename_i hk
      split
      · split
        · have := ih d (idx + 1) (fun i => args i) (n + 1) (by
            by_cases he : args (idx + 1) = []
            · rw [he]; exact Foll.right macros (a := args idx ++ [t]) (by simpa using h1)
            · exact (h2 (idx + 1) (by omega)).append macros (Foll.right macros (a := args idx ++ [t]) (by simpa using h1)))
            (fun i hi => by
              by_cases hi' : i = idx
              · subst hi'; exact h1.left macros (by rw [hk]; simp)
              · exact h2 i hi')
          rw [show n + (t :: a).length = n + 1 + a.length from by simp only [List.length_cons]; omega]; exact this
        · exact hadd _
      · exact hadd _
    · exact hadd _

theorem scanArgs_from (nb : Nat) (a b : List Tok) : ∀ d idx args n,
    n + a.length < (scanArgs nb d idx args n (a ++ b)).2.1 ∨
    ∀ i, ∀ x ∈ (scanArgs nb d idx args n (a ++ b)).1 i, x ∈ args i ∨ x ∈ a := by
  induction a with
  | nil =>
    intro d idx args n
    cases b with
    | nil => right; intro i x hx; simp only [List.append_nil, scanArgs] at hx; exact .inl hx
    | cons t b => left; exact (scanArgs_count nb (t :: b) d idx args n).2 (by simp)
  | cons t a ih =>
    intro d idx args n
    have hlen : n + (t :: a).length = n + 1 + a.length := by simp only [List.length_cons]; omega
    have hadd : ∀ d, n + (t :: a).length < (scanArgs nb d idx (addArg args idx t) (n + 1) (a ++ b)).2.1 ∨
        ∀ i, ∀ x ∈ (scanArgs nb d idx (addArg args idx t) (n + 1) (a ++ b)).1 i, x ∈ args i ∨ x ∈ t :: a := by
      intro d
      rw [hlen]
      rcases ih d idx (addArg args idx t) (n + 1) with h | h
      · exact .inl h
      · right
        intro i x hx
        rcases h i x hx with h | h
        · unfold addArg at h
          split at h
          · simp only [List.mem_append, List.mem_singleton] at h
            rcases h with h | h
            · exact .inl h
            · exact .inr (by simp [h])
          · exact .inl h
        · exact .inr (by simp [h])
    rw [List.cons_append]
    unfold scanArgs
    split
    · exact hadd _
    · split
      · exact hadd _
      · right; intro i x hx; exact .inl hx
    · split
      · split
        · rw [hlen]
          rcases ih d (idx + 1) args (n + 1) with h | h
          · exact .inl h
          · right; intro i x hx
            rcases h i x hx with h | h
            · exact .inl h
            · exact .inr (by simp [h])
        · exact hadd _
      · exact hadd _
    · exact hadd _

/-- The three kinds that `#%n` and `%n` may remove from an expansion. -/
def Marks (t : Tok) : Prop := t.kind = .op .percent ∨ t.kind = .op .stringize ∨ t.kind = .intLit

theorem Marks.not_lparen {t : Tok} (h : Marks t) : t.kind ≠ .lparen := by
  rcases h with h | h | h <;> rw [h] <;> simp

/-- State of the substitution loop with the rest `cs` of the body. -/
structure BInv (st : MSt) (cs : List Sym) : Prop where
  foll : Foll macros (st.ctx.map (·.tok) ++ cs.map Sym.tok)
  one : st.percents = 1 ∨ st.stringize ≠ none → ∃ c x, st.ctx = c ++ [x] ∧ Marks x.tok ∧
    (st.percents = 1 ∧ st.stringize ≠ none → ∃ c' y, c = c' ++ [y] ∧ Marks y.tok)

theorem marks_kind {child : Sym} (h : child.kind = .op .percent ∨ child.kind = .op .stringize ∨ child.kind = .intLit) : Marks child.tok := h

theorem bodyStep_foll {args : Nat → List Tok} (ha : ∀ i, Foll macros (args i)) (m : Macro) (symbol : Sym) (delta : Delta)
    (depth i : Nat) (child : Sym) (cs : List Sym) (st st' : MSt) (hst : BInv macros st (child :: cs))
    (h : bodyStep args m symbol delta depth i child st = some st') : BInv macros st' cs := by
  have hpush : ∀ d, Foll macros ((st.ctx ++ [(⟨child.tok, d⟩ : QTok)]).map QTok.tok ++ cs.map Sym.tok) := by
    intro d; simpa using hst.foll
  have hskip : child.kind ≠ .lparen → Foll macros (st.ctx.map (·.tok) ++ cs.map Sym.tok) := by
    intro hk
    have := hst.foll
    rw [List.map_cons] at this
    exact this.drop macros (x := child.tok) hk
  unfold bodyStep at h
  split at h
  · rename_i hk
    simp only [Option.some.injEq] at h; subst h
    by_cases hp : (st.percents + 1) % 2 = 1
    · simp only [hp, if_true]
      refine ⟨hpush _, fun _ => ⟨_, _, rfl, marks_kind (.inl hk), fun h => ?_⟩⟩
      obtain ⟨c, x, h1, h2, -⟩ := hst.one (.inr h.2)
      exact ⟨c, x, h1, h2⟩
    · simp only [hp, if_false]
      refine ⟨hskip (by rw [hk]; simp), fun h => ?_⟩
      have hne : st.percents + 1 ≠ 1 := by intro e; rw [e] at hp; exact hp rfl
      rcases h with h | h
      · exact absurd h hne
      · obtain ⟨c, x, h1, h2, -⟩ := hst.one (.inr h)
        exact ⟨c, x, h1, h2, fun h => absurd h.1 hne⟩
  · rename_i hk
    simp only [Option.some.injEq] at h; subst h
    refine ⟨hpush _, fun _ => ⟨_, _, rfl, marks_kind (.inr (.inl hk)), fun h => ?_⟩⟩
    obtain ⟨c, x, h1, h2, -⟩ := hst.one (.inl h.1)
    exact ⟨c, x, h1, h2⟩
  · rename_i hk
    split at h
    · rename_i hp
      obtain ⟨c, x, h1, h2, h3⟩ := hst.one (.inl hp)
      have hc : Foll macros (c.map (·.tok) ++ cs.map Sym.tok) := by
        have := hskip (by rw [hk]; simp)
        rw [h1] at this
        simp only [List.map_append, List.map_cons, List.map_nil, List.append_assoc, List.singleton_append] at this
        exact this.drop macros h2.not_lparen
      have hcl : Foll macros (c.map (·.tok)) := by
        have := hst.foll
        rw [h1] at this
        simp only [List.map_append, List.map_cons, List.map_nil, List.append_assoc, List.singleton_append] at this
        exact this.left macros h2.not_lparen
      have hcs : Foll macros (cs.map Sym.tok) := hc.right macros
      unfold substParam at h
      rw [h1] at h
      simp only [List.getLast?_append, List.getLast?_singleton, Option.some_or, List.dropLast_concat] at h
      split at h
      · cases h
      · split at h
        · cases h
        · split at h
          · cases h
          · split at h
            · cases h
            · split at h
              · rename_i d hs
                simp only [Option.some.injEq] at h; subst h
                obtain ⟨c', y, h4, h5⟩ := h3 ⟨hp, by rw [hs]; simp⟩
                refine ⟨?_, by simp⟩
                rw [h4] at hcl
                simp only [h4, List.dropLast_concat]
                simp only [List.map_append, List.map_cons, List.map_nil, List.append_assoc, List.singleton_append] at hcl ⊢
                refine (hcl.left macros h5.not_lparen).append macros ⟨fun hf => ?_, hcs⟩
                exact absurd hf.1 (by simp [Tok.kind, Sym.tok])
              · rename_i a _ _ _ _
                simp only [Option.some.injEq] at h; subst h
                refine ⟨?_, by simp⟩
                simp only [List.map_append, List.append_assoc]
                refine hcl.append macros (Foll.append macros ?_ hcs)
                refine Foll.congr macros ?_ (ha a.toNat)
                rw [List.forall₂_iff_get]
                refine ⟨by simp, fun i h1 h2 => ?_⟩
                simp only [List.get_eq_getElem, List.getElem_map, List.getElem_mapIdx]
                split
                · exact ⟨rfl, rfl, rfl⟩
                · exact ⟨rfl, rfl, rfl⟩
    · simp only [Option.some.injEq] at h; subst h
      exact ⟨hpush _, fun _ => ⟨_, _, rfl, marks_kind (.inr (.inr hk)), fun h => absurd h.1 (by simp)⟩⟩
  · split at h
    · rename_i hk
      simp only [Option.some.injEq] at h; subst h
      exact ⟨hskip (by rw [hk.1]; simp), hst.one⟩
    · simp only [Option.some.injEq] at h; subst h
      exact ⟨hpush _, by simp⟩

theorem bodyLoop_foll {args : Nat → List Tok} (ha : ∀ i, Foll macros (args i)) (m : Macro) (symbol : Sym) (delta : Delta)
    (depth : Nat) (cs : List Sym) : ∀ (i : Nat) (st st' : MSt), BInv macros st cs →
    bodyLoop args m symbol delta depth i cs st = some st' → Foll macros (st'.ctx.map (·.tok)) := by
  induction cs with
  | nil => intro i st st' hst h; simp only [bodyLoop, Option.some.injEq] at h; subst h; simpa using hst.foll
  | cons c cs ih =>
    intro i st st' hst h
    simp only [bodyLoop] at h
    split at h
    · cases h
    · rename_i st₁ h1
      exact ih _ _ _ (bodyStep_foll macros ha m symbol delta depth i c cs st st₁ hst h1) h

theorem expandMacro_foll {args : Nat → List Tok} (ha : ∀ i, Foll macros (args i)) (m : Macro) (hm : Applied macros m.body)
    (symbol : Sym) (delta : Delta) (depth : Nat) (q : List QTok) (h : expandMacro args m symbol delta depth = some q) :
    Foll macros (q.map (·.tok)) := by
  unfold expandMacro at h
  simp only [Option.map_eq_some_iff] at h
  obtain ⟨st, h1, rfl⟩ := h
  exact bodyLoop_foll macros ha m symbol delta depth _ 0 _ st ⟨by simpa using bodySyms_foll macros _ _ hm, by simp⟩ h1

theorem expandNonMacro_foll (m : Macro) (hm : Applied macros m.body) (d : Delta) (prev : Rng) :
    Foll macros ((expandNonMacro m d prev).map (·.tok)) := by
  have hq : ((bodyQueue d (bodySyms prev m.body)).map (·.tok)) = (bodySyms prev m.body).map Sym.tok := by
    cases bodySyms prev m.body <;> simp [bodyQueue]
  have hf : Foll macros ((bodyQueue d (bodySyms prev m.body)).map (·.tok)) := by rw [hq]; exact bodySyms_foll macros _ _ hm
  unfold expandNonMacro dropLastNewline
  split
  · rename_i b hb
    split
    · rename_i hk
      obtain ⟨l, hl⟩ := List.getLast?_eq_some_iff.1 hb
      rw [hl] at hf ⊢
      rw [List.dropLast_concat]
      rw [List.map_append, List.map_cons, List.map_nil] at hf
      exact hf.left macros (by rw [hk]; simp)
    · exact hf
  · exact hf

/-- Nothing has been read from the lexer: everything on the contexts is well formed and no macro name has been put out. -/
structure XF (Q : Kind → Prop) (lexer : List Sym) (st : XSt) : Prop where
  ctxs : ∀ c ∈ st.ctxs, Foll macros (c.map (·.tok))
  popped : st.popped = []
  lexer : st.lexer = lexer
  out : ∀ t ∈ st.out, Q t.kind ∧ (t.kind = .ident → macros t.text = none)
  kinds : ∀ c ∈ st.ctxs, ∀ q ∈ c, Q q.tok.kind

theorem xStep_foll (Q : Kind → Prop) (hQ : Q .strLit) (P : Kind → Str → Prop) (hb : ∀ x m, P .ident x → macros x = some m → (∀ r ∈ m.body, Q r.kind) ∧ Applied macros m.body) (allow : Bool) (token : Tok) (top : List QTok)
    (rest : List (List QTok)) (lexer : List Sym) (st : XSt) (hst : XF macros Q lexer st) (hP : XP P st) (he : st.ctxs = top :: rest) (st' : XSt)
    (h : xStep macros allow token top rest st = .continue_ st') : XF macros Q lexer st' ∨ st'.lexer.length < lexer.length := by
  have hrest : ∀ c ∈ rest, Foll macros (c.map (·.tok)) := fun c hc => hst.ctxs c (by rw [he]; simp [hc])
  have htop : Foll macros (top.map (·.tok)) := hst.ctxs top (by rw [he]; simp)
  cases top with
  | nil =>
    simp only [xStep, XRes.continue_.injEq] at h; subst h
    exact .inl ⟨hrest, hst.popped, hst.lexer, hst.out, fun c hc => hst.kinds c (by rw [he]; simp [hc])⟩
  | cons q cur =>
    have hcur : Foll macros (cur.map (·.tok)) := htop.2
    have hqk : Q q.tok.kind := hst.kinds (q :: cur) (by rw [he]; simp) q (by simp)
    have hck : ∀ x ∈ cur, Q x.tok.kind := fun x hx => hst.kinds (q :: cur) (by rw [he]; simp) x (by simp [hx])
    have hrk : ∀ c ∈ rest, ∀ x ∈ c, Q x.tok.kind := fun c hc => hst.kinds c (by rw [he]; simp [hc])
    have hkinds : ∀ c ∈ cur :: rest, ∀ x ∈ c, Q x.tok.kind := by
      intro c hc; rcases List.mem_cons.1 hc with rfl | hc
      · exact hck
      · exact hrk c hc
    have hcons : ∀ c ∈ cur :: rest, Foll macros (c.map (·.tok)) := by
      intro c hc; rcases List.mem_cons.1 hc with rfl | hc
      · exact hcur
      · exact hrest c hc
    have hout : ∀ u : Tok, Q u.kind → (u.kind = .ident → macros u.text = none) → ∀ t ∈ st.out ++ [u], Q t.kind ∧ (t.kind = .ident → macros t.text = none) := by
      intro u hq hu t ht
      simp only [List.mem_append, List.mem_singleton] at ht
      rcases ht with ht | rfl
      · exact hst.out t ht
      · exact ⟨hq, hu⟩
    unfold xStep at h
    dsimp only at h
    split at h
    · rename_i hk
      have hqi : P .ident q.tok.text := by
        have := hP.ctxs _ (by rw [he]; exact List.mem_cons_self) q List.mem_cons_self
        unfold TP at this; rw [hk] at this; exact this
      split at h
      · rename_i hm
        split at h
        · simp only [XRes.continue_.injEq] at h; subst h
          exact .inl ⟨hcons, hst.popped, hst.lexer, hout _ hqk (fun _ => hm), hkinds⟩
        · cases h
      · rename_i m hm
        split at h
        · simp only [XRes.continue_.injEq] at h; subst h
          refine .inl ⟨?_, hst.popped, hst.lexer, hst.out, ?_⟩
          · intro c hc; rcases List.mem_cons.1 hc with rfl | hc
            · exact expandNonMacro_foll macros m (hb _ m hqi hm).2 _ _
            · exact hcons c hc
          · intro c hc; rcases List.mem_cons.1 hc with rfl | hc
            · exact expandNonMacro_P (fun k _ => Q k) (hb _ m hqi hm).1 _ _
            · exact hkinds c hc
        · rename_i ps hps
          obtain ⟨u, us, h1, h2, h3⟩ := htop.1 ⟨hk, m, hm, by rw [hps]; rfl⟩
          obtain ⟨q1, cur', rfl, rfl, rfl⟩ : ∃ q1 cur', cur = q1 :: cur' ∧ u = q1.tok ∧ us = cur'.map (·.tok) := by
            cases cur with
            | nil => simp at h1
            | cons q1 cur' => simp only [List.map_cons, List.cons.injEq] at h1; exact ⟨q1, cur', rfl, h1.1.symm, h1.2.symm⟩
          have hav : Src.avail ⟨q1 :: cur', st.popped, st.lexer⟩ = q1.tok :: (cur'.map (·.tok) ++ lexer.map Sym.tok) := by
            simp [Src.avail, hst.popped, hst.lexer]
          have hopen : scanOpen q.tok.sym.range.e.line [] (Src.avail ⟨q1 :: cur', st.popped, st.lexer⟩) = .found 1 q1.tok.sym.range.s.char := by
            rw [hav]; simp only [scanOpen, h2, if_true, List.length_nil, Nat.zero_add]
            rw [if_neg (by rw [h3]; simp)]
          unfold collectArguments at h
          rw [hopen] at h
          simp only [hav, List.drop_succ_cons, List.drop_zero] at h
          have hs := scanArgs_foll macros m.nbParams (cur'.map (·.tok)) (lexer.map Sym.tok) 1 0 (fun _ => []) 0
            (by simpa using hcur.2) (fun _ _ => trivial)
          have hsm := scanArgs_from m.nbParams (cur'.map (·.tok)) (lexer.map Sym.tok) 1 0 (fun _ => []) 0
          generalize hg : scanArgs m.nbParams 1 0 (fun _ => []) 0 (cur'.map (·.tok) ++ lexer.map Sym.tok) = g at h hs hsm
          obtain ⟨args, n, last⟩ := g
          simp only [Nat.zero_add, List.length_map] at hs hsm
          simp only [Src.take, hst.popped, hst.lexer, List.drop_nil, List.length_nil, Nat.sub_zero, List.length_cons] at h
          split at h
          · cases h
          · rename_i q' hq'
            simp only [XRes.continue_.injEq] at h; subst h
            simp only [List.length_drop]
            by_cases hn : cur'.length < n ∧ lexer ≠ []
            · right
              have : 0 < lexer.length := List.length_pos_iff.2 hn.2
              omega
            · left
              have hd : lexer.drop (1 + n - (cur'.length + 1)) = lexer := by
                rcases Classical.not_and_iff_not_or_not.1 hn with hn | hn
                · rw [show 1 + n - (cur'.length + 1) = 0 from by omega]; rfl
                · rw [Classical.not_not.1 hn]; simp
              have hargs : ∀ i, Foll macros (args i) := by
                rcases hs with hs | hs
                · have hl : lexer = [] := by
                    rcases Classical.not_and_iff_not_or_not.1 hn with hn | hn
                    · exact absurd hs hn
                    · exact Classical.not_not.1 hn
                  subst hl
                  have h0 := scanArgs_le m.nbParams (cur'.map (·.tok)) 1 0 (fun _ => []) 0
                  simp only [List.map_nil, List.append_nil] at hg
                  rw [hg] at h0
                  simp only [List.length_map, Nat.zero_add] at h0
                  omega
                · exact hs
              have hargsQ : ∀ i, ∀ x ∈ args i, Q x.kind := by
                intro i x hx
                rcases hsm with hs | hs
                · have hl : lexer = [] := by
                    rcases Classical.not_and_iff_not_or_not.1 hn with hn | hn
                    · exact absurd hs hn
                    · exact Classical.not_not.1 hn
                  subst hl
                  have h0 := scanArgs_le m.nbParams (cur'.map (·.tok)) 1 0 (fun _ => []) 0
                  simp only [List.map_nil, List.append_nil] at hg
                  rw [hg] at h0
                  simp only [List.length_map, Nat.zero_add] at h0
                  omega
                · rcases hs i x hx with h | h
                  · simp at h
                  · obtain ⟨y, hy, rfl⟩ := List.mem_map.1 h
                    exact hck y (by simp [hy])
              refine ⟨?_, rfl, hd, hst.out, ?_⟩
              · intro c hc
                simp only [List.mem_cons] at hc
                rcases hc with rfl | rfl | hc
                · exact expandMacro_foll macros hargs m (hb _ m hqi hm).2 _ _ _ _ hq'
                · rw [List.map_drop]; exact hcur.tail macros _
                · exact hrest c hc
              · intro c hc
                simp only [List.mem_cons] at hc
                rcases hc with rfl | rfl | hc
                · exact expandMacro_P (fun k _ => Q k) (fun _ => hQ) (args := args) hargsQ m (hb _ m hqi hm).1 _ _ _ _ hq'
                · exact fun x hx => hck x (List.mem_of_mem_drop hx)
                · exact hrk c hc
    · rename_i hk
      simp only [XRes.continue_.injEq] at h; subst h
      exact .inl ⟨hcons, hst.popped, hst.lexer, hout _ hqk (fun hi => by simp only [Tok.kind, Sym.tok] at hi hk; rw [hk] at hi; cases hi), hkinds⟩
    · rename_i hk
      simp only [XRes.continue_.injEq] at h; subst h
      exact .inl ⟨hcons, hst.popped, hst.lexer, hout _ hqk (fun hi => by simp only [Tok.kind, Sym.tok] at hi hk; rw [hk] at hi; cases hi), hkinds⟩
    · simp only [XRes.continue_.injEq] at h; subst h
      exact .inl ⟨hcons, hst.popped, hst.lexer, hst.out, hkinds⟩
    · simp only [XRes.continue_.injEq] at h; subst h
      exact .inl ⟨hcons, hst.popped, hst.lexer, hst.out, hkinds⟩
    · simp only [XRes.continue_.injEq] at h; subst h
      exact .inl ⟨hcons, hst.popped, hst.lexer, hst.out, hkinds⟩
    · simp only [XRes.continue_.injEq] at h; subst h
      exact .inl ⟨hcons, hst.popped, hst.lexer, hst.out, hkinds⟩
    · rename_i hk _ _ _ _ _ _
      simp only [XRes.continue_.injEq] at h; subst h
      exact .inl ⟨hcons, hst.popped, hst.lexer, hout _ hqk (fun hi => absurd hi hk), hkinds⟩

theorem xLoop_foll (Q : Kind → Prop) (hQ : Q .strLit) (P : Kind → Str → Prop) (hstr : ∀ x, P .strLit x)
    (hb : ∀ x m, P .ident x → macros x = some m → (∀ r ∈ m.body, P r.kind r.text) ∧ (∀ r ∈ m.body, Q r.kind) ∧ Applied macros m.body)
    (allow : Bool) (token : Tok) (lexer : List Sym) (f : Nat) : ∀ st st', XF macros Q lexer st → XP P st →
    xLoop macros allow token f st = some (.continue_ st') → XF macros Q lexer st' ∨ st'.lexer.length < lexer.length := by
  induction f with
  | zero => intro st st' _ _ h; simp [xLoop] at h
  | succ f ih =>
    intro st st' hst hP h
    simp only [xLoop] at h
    split at h
    · simp only [Option.some.injEq, XRes.continue_.injEq] at h; subst h; exact .inl hst
    · rename_i top rest he
      split at h
      · cases hs : xStep macros allow token top rest st with
        | error e st₁ => rw [hs] at h; simp at h
        | continue_ st₁ =>
          rw [hs] at h
          have hb' := fun x m h1 h2 => (hb x m h1 h2).1
          have h1 := (xStep_P P hstr hb' allow token top rest st hP he st₁ hs).1
          rcases xStep_foll macros Q hQ P (fun x m h1 h2 => (hb x m h1 h2).2) allow token top rest lexer st hst hP he st₁ hs with h2 | h2
          · exact ih st₁ st' h2 h1 h
          · exact .inr (Nat.lt_of_le_of_lt (xLoop_P P hstr hb' allow token f st₁ st' h1 h).2 h2)
      · simp only [Option.some.injEq, XRes.continue_.injEq] at h; subst h; exact .inl hst

/-- An expansion reads from the file, or it leaves no name of a macro to be looked at again. -/
theorem expand_progress (Q : Kind → Prop) (hQ : Q .strLit) (P : Kind → Str → Prop) (hstr : ∀ x, P .strLit x)
    (hb : ∀ x m, P .ident x → macros x = some m → (∀ r ∈ m.body, P r.kind r.text) ∧ (∀ r ∈ m.body, Q r.kind) ∧ Applied macros m.body)
    (allow : Bool) (f : Nat) (token : Tok) (lexer : List Sym) (stack : List Tok) (disabled : List Macro)
    (ht : TP P token) (htQ : Q token.kind) (hl : ∀ x ∈ lexer, SP P x) (o : XOut) (d : Nat)
    (h : expandIdentifier macros allow f token lexer stack disabled = some o) (hv : o.value = .ok d) :
    o.lexer.length < lexer.length ∨
    (o.lexer.length ≤ lexer.length ∧ ∃ out, o.stack = out ++ stack ∧ ∀ t ∈ out, Q t.kind ∧ (t.kind = .ident → macros t.text = none)) := by
  unfold expandIdentifier at h
  split at h
  · cases h
  · simp only [Option.some.injEq] at h; subst h; simp at hv
  · rename_i st hx
    simp only [Option.some.injEq] at h; subst h
    simp only
    have hP0 : XP P ⟨[[⟨token, token.sym.delta⟩]], [], lexer, [], disabled, 0⟩ := ⟨by simpa using ht, by simp, hl, by simp⟩
    have hfin : XF macros Q lexer st ∨ st.lexer.length < lexer.length := by
      by_cases hf : IsFn macros token.kind token.text
      · cases f with
        | zero => simp [xLoop] at hx
        | succ f =>
          have h0 := xStep_P P hstr (fun x m h1 h2 => (hb x m h1 h2).1) allow token [⟨token, token.sym.delta⟩] []
            ⟨[[⟨token, token.sym.delta⟩]], [], lexer, [], disabled, 0⟩ hP0 rfl
          simp only [xLoop, List.length_nil, Nat.zero_add, Nat.reduceLT, if_true] at hx
          cases hs : xStep macros allow token [⟨token, token.sym.delta⟩] [] ⟨[[⟨token, token.sym.delta⟩]], [], lexer, [], disabled, 0⟩ with
          | error e st₁ => rw [hs] at hx; simp at hx
          | continue_ st₁ =>
            rw [hs] at hx
            have hP1 := (h0 st₁ hs).1
            obtain ⟨hk, m, hm, hp⟩ := hf
            obtain ⟨ps, hps⟩ := Option.isSome_iff_exists.1 hp
            have hle := (xLoop_P P hstr (fun x m h1 h2 => (hb x m h1 h2).1) allow token f st₁ st hP1 hx).2
            by_cases hle0 : lexer = []
            · subst hle0
              refine xLoop_foll macros Q hQ P hstr hb allow token [] f st₁ st ?_ hP1 hx
              have hti : P .ident token.text := by unfold TP at ht; rw [hk] at ht; exact ht
              unfold xStep at hs
              simp only [hk, hm, hps] at hs
              simp only [collectArguments, Src.avail, List.map_nil, List.append_nil, scanOpen, List.length_nil, Src.take,
                List.drop_nil] at hs
              split at hs
              · cases hs
              · rename_i q' hq'
                simp only [XRes.continue_.injEq] at hs; subst hs
                refine ⟨?_, rfl, rfl, by simp, ?_⟩
                · intro c hc
                  simp only [List.mem_cons, List.not_mem_nil, or_false] at hc
                  rcases hc with rfl | rfl
                  · exact expandMacro_foll macros (args := fun _ => []) (fun _ => trivial) m (hb _ m hti hm).2.2 _ _ _ _ hq'
                  · trivial
                · intro c hc
                  simp only [List.mem_cons, List.not_mem_nil, or_false] at hc
                  rcases hc with rfl | rfl
                  · exact expandMacro_P (fun k _ => Q k) (fun _ => hQ) (args := fun _ => []) (by simp) m (hb _ m hti hm).2.1 _ _ _ _ hq'
                  · simp
            · right
              refine Nat.lt_of_le_of_lt hle ?_
              have hlt := collect_lexer_lt lexer token.sym.range.e.line m.nbParams hle0
              unfold xStep at hs
              simp only [hk, hm, hps] at hs
              generalize collectArguments ⟨[], [], lexer⟩ token.sym.range.e.line m.nbParams = c at hs hlt
              obtain ⟨s, _ | ⟨args, d⟩⟩ := c
              · simp only [XRes.continue_.injEq] at hs; subst hs; exact hlt
              · dsimp only at hs
                split at hs
                · cases hs
                · simp only [XRes.continue_.injEq] at hs; subst hs; exact hlt
      · refine xLoop_foll macros Q hQ P hstr hb allow token lexer f _ st ⟨?_, rfl, rfl, by simp, by simpa using htQ⟩ hP0 hx
        simp only [List.mem_cons, List.not_mem_nil, or_false]
        rintro c rfl
        exact ⟨fun h => absurd h hf, trivial⟩
    rcases hfin with hfin | hfin
    · right
      refine ⟨by rw [hfin.lexer]; exact Nat.le_refl _, st.out, by rw [hfin.popped]; simp, hfin.out⟩
    · exact .inl hfin

end Followed

/-! ### C21 -/

/-- Number of macro names on the stack. -/
def pending (macros : Macros) (stack : List Tok) : Nat := (stack.filter fun t => t.kind = .ident ∧ (macros t.text).isSome).length

theorem pending_append (macros : Macros) (out stack : List Tok) (h : ∀ t ∈ out, t.kind = .ident → macros t.text = none) :
    pending macros (out ++ stack) = pending macros stack := by
  unfold pending
  rw [List.filter_append, List.filter_eq_nil_iff.2, List.nil_append]
  intro t ht
  simp only [decide_eq_true_eq, not_and]
  intro hk
  rw [h t ht hk]; simp

theorem pending_cons (macros : Macros) (t : Tok) (stack : List Tok) : pending macros stack ≤ pending macros (t :: stack) := by
  unfold pending
  rw [List.filter_cons]
  split
  · simp
  · exact Nat.le_refl _

theorem pending_cons_macro (macros : Macros) (t : Tok) (stack : List Tok) (hk : t.kind = .ident) (m : Macro) (hm : macros t.text = some m) :
    pending macros stack < pending macros (t :: stack) := by
  unfold pending
  rw [List.filter_cons, if_pos (by simp [hk, hm])]
  simp

/-- Lexicographic order on quadruples of numbers. -/
def Lex4 (a b : Nat × Nat × Nat × Nat) : Prop :=
  a.1 < b.1 ∨ (a.1 ≤ b.1 ∧ (a.2.1 < b.2.1 ∨ (a.2.1 ≤ b.2.1 ∧ (a.2.2.1 < b.2.2.1 ∨ (a.2.2.1 ≤ b.2.2.1 ∧ a.2.2.2 < b.2.2.2)))))

theorem lex4_induction {α : Type} (mu : α → Nat × Nat × Nat × Nat) (C : α → Prop)
    (ih : ∀ a, (∀ b, Lex4 (mu b) (mu a) → C b) → C a) : ∀ a, C a := by
  have h : ∀ n1 n2 n3 n4 a, (mu a).1 ≤ n1 → (mu a).2.1 ≤ n2 → (mu a).2.2.1 ≤ n3 → (mu a).2.2.2 ≤ n4 → C a := by
    intro n1
    induction n1 using Nat.strongRecOn with
    | _ n1 ih1 =>
      intro n2
      induction n2 using Nat.strongRecOn with
      | _ n2 ih2 =>
        intro n3
        induction n3 using Nat.strongRecOn with
        | _ n3 ih3 =>
          intro n4
          induction n4 using Nat.strongRecOn with
          | _ n4 ih4 =>
            intro a h1 h2 h3 h4
            refine ih a fun b hb => ?_
            rcases hb with hb | ⟨hb, hb' | ⟨hb', hb'' | ⟨hb'', hb4⟩⟩⟩
            · exact ih1 (mu b).1 (by omega) _ _ _ b (Nat.le_refl _) (Nat.le_refl _) (Nat.le_refl _) (Nat.le_refl _)
            · exact ih2 (mu b).2.1 (by omega) _ _ b (by omega) (Nat.le_refl _) (Nat.le_refl _) (Nat.le_refl _)
            · exact ih3 (mu b).2.2.1 (by omega) _ b (by omega) (by omega) (Nat.le_refl _) (Nat.le_refl _)
            · exact ih4 (mu b).2.2.2 (by omega) b (by omega) (by omega) (by omega) (Nat.le_refl _)
  intro a
  exact h _ _ _ _ a (Nat.le_refl _) (Nat.le_refl _) (Nat.le_refl _) (Nat.le_refl _)

/-- What is left to do: tokens of the file, directives on the stack, macro names on the stack, tokens on the stack. -/
def work (macros : Macros) (dirs : List Tok → Nat) (lexer : List Sym) (stack : List Tok) : Nat × Nat × Nat × Nat :=
  (lexer.length, dirs stack, pending macros stack, stack.length)

def Less (macros : Macros) (l₁ : List Sym) (s₁ : List Tok) (l₂ : List Sym) (s₂ : List Tok) : Prop :=
  Lex4 (work macros (fun _ => 0) l₁ s₁) (work macros (fun _ => 0) l₂ s₂)

theorem Less.mk1 {macros : Macros} {l₁ s₁ l₂ s₂} (h : l₁.length < l₂.length) : Less macros l₁ s₁ l₂ s₂ := .inl h

theorem Less.mk2 {macros : Macros} {l₁ s₁ l₂ s₂} (h : l₁.length ≤ l₂.length) (h' : pending macros s₁ < pending macros s₂ ∨
    (pending macros s₁ ≤ pending macros s₂ ∧ s₁.length < s₂.length)) : Less macros l₁ s₁ l₂ s₂ :=
  .inr ⟨h, .inr ⟨Nat.le_refl _, h'⟩⟩

/-- Kinds and names fit for a condition. -/
def Fit (R : Str → Prop) (k : Kind) (x : Str) : Prop := ConditionKind k ∧ (k = .ident → R x)

theorem fit_str (R : Str → Prop) (x : Str) : Fit R .strLit x := ⟨trivial, by simp⟩

structure EOk (R : Str → Prop) (st : ESt) : Prop where
  iter : ∀ s ∈ st.iter, SP (Fit R) s
  stack : ∀ t ∈ st.stack, TP (Fit R) t

theorem eStep_stays (p : Profile) (macros : Macros) (f : Nat) (s : Sym) (st st' : ESt) (hn : ¬ Names s.kind)
    (h : eStep p macros f s st = some (.ok st')) : st'.iter = st.iter ∧ st'.stack = st.stack := by
  unfold eStep at h
  generalize s.kind = k at *
  cases k
  case op o =>
    simp only [Option.some.injEq] at h
    split at h
    · cases h
    · split at h <;> simp only [Res.ok.injEq, reduceCtorEq] at h
      subst h; exact ⟨rfl, rfl⟩
  case rparen =>
    simp only [Option.some.injEq] at h
    split at h <;> simp only [Res.ok.injEq, reduceCtorEq] at h
    subst h; exact ⟨rfl, rfl⟩
  all_goals first
    | exact absurd trivial hn
    | (simp only [Option.some.injEq, Res.ok.injEq, reduceCtorEq] at h; subst h; exact ⟨rfl, rfl⟩)
    | (simp only [Option.some.injEq, reduceCtorEq] at h)

theorem eStep_some (p : Profile) (macros : Macros) (s : Sym) (st : ESt) : ∃ f r, eStep p macros f s st = some r := by
  by_cases hn : Names s.kind
  · have hx : ∃ f r, eStep.expandHere macros f s st = some r := by
      obtain ⟨f, o, h⟩ := expand_terminates macros false s.tok st.iter st.stack st.disabled
      have := h 0
      simp only [Nat.add_zero] at this
      refine ⟨f, ?_⟩
      unfold eStep.expandHere
      rw [this]
      rcases o with ⟨_, _, _, _ | _⟩ <;> exact ⟨_, rfl⟩
    obtain ⟨f, r, hx⟩ := hx
    refine ⟨f, ?_⟩
    rw [eStep_names _ _ _ _ _ hn]
    by_cases hl : st.lfd = true
    · simp only [hl, if_true]; exact ⟨_, rfl⟩
    · simp only [hl, Bool.false_eq_true, if_false]
      rcases macros s.text with _ | m
      · exact ⟨r, hx⟩
      · simp only
        by_cases hd : m ∈ st.disabled
        · simp only [hd, if_true]; exact ⟨_, rfl⟩
        · simp only [hd, if_false]; exact ⟨r, hx⟩
  · refine ⟨0, ?_⟩
    unfold eStep
    generalize s.kind = k at *
    cases k <;> first | exact absurd trivial hn | exact ⟨_, rfl⟩

/-- Every turn makes progress. -/
theorem eTurn_less (p : Profile) (macros : Macros) (R : Str → Prop) (hR : CleanNames macros R) (st : ESt) (hst : EOk R st) (s : Sym) (st₁ : ESt)
    (hn : eNext st = some (s, st₁)) (f : Nat) (st₂ : ESt) (h : eStep p macros f s st₁ = some (.ok st₂)) :
    EOk R st₂ ∧ Less macros st₂.iter st₂.stack st.iter st.stack := by
  have hs : SP (Fit R) s ∧ EOk R st₁ ∧ ((st₁.iter.length < st.iter.length) ∨ (st₁.iter = st.iter ∧ ∃ o, st.stack = ⟨s, o⟩ :: st₁.stack)) := by
    unfold eNext at hn
    split at hn
    · rename_i t ts he
      simp only [Option.some.injEq, Prod.mk.injEq] at hn
      obtain ⟨rfl, rfl⟩ := hn
      exact ⟨hst.stack t (by rw [he]; simp), ⟨hst.iter, fun u hu => hst.stack u (by rw [he]; simp only at hu; simp [hu])⟩, .inr ⟨rfl, t.orig, he⟩⟩
    · rename_i he
      split at hn
      · rename_i x xs hx
        simp only [Option.some.injEq, Prod.mk.injEq] at hn
        obtain ⟨rfl, rfl⟩ := hn
        exact ⟨hst.iter x (by rw [hx]; simp), ⟨fun u hu => hst.iter u (by rw [hx]; simp only at hu; simp [hu]), hst.stack⟩, .inl (by rw [hx]; simp)⟩
      · cases hn
  obtain ⟨hsp, hst₁, hpos⟩ := hs
  have base : Less macros st₁.iter st₁.stack st.iter st.stack := by
    rcases hpos with hp | ⟨hp, o, hq⟩
    · exact .mk1 hp
    · refine .mk2 (by rw [hp]; exact Nat.le_refl _) (.inr ⟨?_, ?_⟩)
      · rw [hq]; exact pending_cons _ _ _
      · rw [hq]; simp
  by_cases hnm : Names s.kind
  · rw [eStep_names _ _ _ _ _ hnm] at h
    have hexp : eStep.expandHere macros f s st₁ = some (.ok st₂) → EOk R st₂ ∧ Less macros st₂.iter st₂.stack st.iter st.stack := by
      intro h
      unfold eStep.expandHere at h
      split at h
      · cases h
      · rename_i o ho
        split at h
        · rename_i d hv
          simp only [Option.some.injEq, Res.ok.injEq] at h
          subst h
          have hcl : ∀ x m, Fit R .ident x → macros x = some m → (∀ r ∈ m.body, Fit R r.kind r.text) ∧ (∀ r ∈ m.body, True) ∧ Applied macros m.body :=
            fun x m hx hm => ⟨(hR x m (hx.2 rfl) hm).1, fun _ _ => trivial, (hR x m (hx.2 rfl) hm).2⟩
          obtain ⟨h1, h2, h3⟩ := expand_P (Fit R) (fit_str R) (fun x m hx hm => (hcl x m hx hm).1) false f s.tok st₁.iter st₁.stack st₁.disabled
            hsp hst₁.iter hst₁.stack o d ho hv
          refine ⟨⟨h1, h2⟩, ?_⟩
          simp only
          rcases hpos with hp | ⟨hp, og, hq⟩
          · exact .mk1 (Nat.lt_of_le_of_lt h3 hp)
          · by_cases hi : s.kind = .ident
            · rcases expand_progress macros (fun _ => True) trivial (Fit R) (fit_str R) hcl false f s.tok st₁.iter st₁.stack st₁.disabled hsp trivial hst₁.iter o d ho hv with
                h4 | ⟨h4, out, h5, h6⟩
              · exact .mk1 (by rw [← hp]; exact h4)
              · refine .mk2 (by rw [← hp]; exact h4) (.inl ?_)
                rw [h5, pending_append _ _ _ (fun t ht => (h6 t ht).2), hq]
                rcases hm : macros s.text with _ | m
                · -- not a macro: the expansion fails
                  exfalso
                  unfold expandIdentifier at ho
                  rcases f with _ | f
                  · simp [xLoop] at ho
                  · have hk' : s.tok.kind = .ident := hi
                    have hm' : macros s.tok.text = none := hm
                    simp only [xLoop, List.length_nil, Nat.zero_add, Nat.reduceLT, if_true, xStep, hk', hm', Bool.false_eq_true, if_false,
                      Option.some.injEq] at ho
                    subst ho
                    simp at hv
                · exact pending_cons_macro _ _ _ hi m hm
            · have hlc : s.kind = .lineContinuation := by
                have h7 := hsp.1
                generalize s.kind = k at *
                cases k <;> first | rfl | exact absurd hnm id | exact absurd h7 id | exact absurd rfl hi
              unfold expandIdentifier at ho
              rcases f with _ | _ | _ | f
              · simp [xLoop] at ho
              · have hk' : s.tok.kind = .lineContinuation := hlc
                simp [xLoop, xStep, hk'] at ho
              · have hk' : s.tok.kind = .lineContinuation := hlc
                simp [xLoop, xStep, hk'] at ho
              · have hk' : s.tok.kind = .lineContinuation := hlc
                simp only [xLoop, List.length_nil, Nat.zero_add, Nat.reduceLT, if_true, xStep, hk', Option.some.injEq] at ho
                subst ho
                exact base
        · simp at h
    split at h
    · simp only [Option.some.injEq, Res.ok.injEq] at h
      subst h
      exact ⟨⟨hst₁.iter, hst₁.stack⟩, base⟩
    · split at h
      · split at h
        · simp only [Option.some.injEq, Res.ok.injEq] at h
          subst h
          exact ⟨⟨hst₁.iter, hst₁.stack⟩, base⟩
        · exact hexp h
      · exact hexp h
  · obtain ⟨h1, h2⟩ := eStep_stays p macros f s st₁ st₂ hnm h
    refine ⟨⟨by rw [h1]; exact hst₁.iter, by rw [h2]; exact hst₁.stack⟩, ?_⟩
    rw [h1, h2]; exact base

theorem eLoop_terminates (p : Profile) (macros : Macros) (R : Str → Prop) (hR : CleanNames macros R) : ∀ st : ESt, EOk R st →
    ∃ f r, eLoop p macros f st = some r := by
  refine lex4_induction (fun st : ESt => work macros (fun _ => 0) st.iter st.stack) (fun st => EOk R st → ∃ f r, eLoop p macros f st = some r) ?_
  intro st ih hst
  rcases hn : eNext st with _ | ⟨s, st₁⟩
  · exact ⟨1, .ok st, by simp only [eLoop, hn]⟩
  · obtain ⟨f, r, hr⟩ := eStep_some p macros s st₁
    rcases r with st₂ | _ | _
    · obtain ⟨h1, h2⟩ := eTurn_less p macros R hR st hst s st₁ hn f st₂ hr
      obtain ⟨g, r, hg⟩ := ih st₂ h2 h1
      refine ⟨f + g + 1, r, ?_⟩
      simp only [eLoop, hn]
      rw [(eStep_mono p macros f g s st₁ _ hr).1]
      simp only
      rw [Nat.add_comm]
      exact (eLoop_mono p macros g st₂ r hg f).1
    · exact ⟨f + 1, .err, by simp only [eLoop, hn, hr]⟩
    · exact ⟨f + 1, .panic, by simp only [eLoop, hn, hr]⟩

/-- **C21** (part): the evaluation of a condition finishes when the condition consists of operators, parentheses, literals, comments
and clean names — names of macros whose bodies consist of the same, and in which every macro with parameters is given arguments.
Recursive macros are included. Missing: conditions with stray punctuation or keywords, where it runs for ever
(`Evaluator.evaluation_terminates_refuted`), and bodies that name a macro with parameters without arguments,
where it need not end either (`EvalLoop.names_only_refuted`). -/
theorem evaluation_terminates_partial (p : Profile) (macros : Macros) (disabled : List Macro) (ts : List Sym) (R : Str → Prop)
    (hR : CleanNames macros R) (hts : ∀ t ∈ ts, ConditionKind t.kind ∧ (t.kind = .ident → R t.text)) :
    ∃ fuel r, ∀ k, evaluate p macros disabled ts (fuel + k) = some r := by
  obtain ⟨f, r, h⟩ := eLoop_terminates p macros R hR ⟨ts, [], [], [], true, false, disabled⟩ ⟨hts, by simp⟩
  have : ∃ r, evaluate p macros disabled ts f = some r := by
    unfold evaluate evaluateValue
    rw [h]
    rcases r with st | _ | _
    · exact ⟨_, rfl⟩
    · exact ⟨_, rfl⟩
    · exact ⟨_, rfl⟩
  obtain ⟨r, hr⟩ := this
  exact ⟨f, r, fun k => (evaluate_mono p macros disabled ts f k r hr).1⟩

section Example

open Verif.Props.Evaluator

private def rs (k : Kind) (x : String) (v : Option Int := none) : RSym := ⟨k, x.toList, ⟨0, 1⟩, v⟩

/-- `#define A A + 1` and `#define ADD(%1,%2) %1 + ADD(%2)`. -/
private def table : Macros := fun x =>
  if x = "A".toList then some ⟨0, 0, none, 0, [rs .ident "A", rs (.op .plus) "+", rs .intLit "1" (some 1)]⟩
  else if x = "ADD".toList then
    some ⟨0, 1, some [-1, 0, 1], 2, [rs (.op .percent) "%", rs .intLit "1" (some 1), rs (.op .plus) "+", rs .ident "ADD", rs .lparen "(",
      rs (.op .percent) "%", rs .intLit "2" (some 2), rs .rparen ")"]⟩
  else none

/-- `ADD(A) > 0`; both macros are recursive. -/
example : ∃ fuel r, ∀ k, evaluate .release table [] [tk .ident "ADD", tk .lparen, tk .ident "A", tk .rparen, tk (.op .gt), num 0] (fuel + k) = some r := by
  refine evaluation_terminates_partial .release table [] _ (fun x => x = "A".toList ∨ x = "ADD".toList) ?_ ?_
  · intro x m hx hm
    rcases hx with rfl | rfl
    · have : m = ⟨0, 0, none, 0, [rs .ident "A", rs (.op .plus) "+", rs .intLit "1" (some 1)]⟩ := by
        have h : table "A".toList = some ⟨0, 0, none, 0, [rs .ident "A", rs (.op .plus) "+", rs .intLit "1" (some 1)]⟩ := rfl
        rw [h] at hm; exact (Option.some.inj hm).symm
      subst this
      refine ⟨?_, ?_⟩
      · intro r hr
        simp only [List.mem_cons, List.not_mem_nil, or_false] at hr
        rcases hr with rfl | rfl | rfl
        · exact ⟨trivial, fun _ => .inl rfl⟩
        · exact ⟨trivial, fun h => by cases h⟩
        · exact ⟨trivial, fun h => by cases h⟩
      · refine ⟨?_, ?_, ?_, trivial⟩
        · rintro ⟨-, m, hm, hp⟩
          have h : table (rs .ident "A").text = some ⟨0, 0, none, 0, [rs .ident "A", rs (.op .plus) "+", rs .intLit "1" (some 1)]⟩ := rfl
          rw [h] at hm; cases hm; cases hp
        · rintro ⟨h, -⟩; cases h
        · rintro ⟨h, -⟩; cases h
    · obtain ⟨b, hb, rfl⟩ : ∃ b, b = [rs (.op .percent) "%", rs .intLit "1" (some 1), rs (.op .plus) "+", rs .ident "ADD", rs .lparen "(",
          rs (.op .percent) "%", rs .intLit "2" (some 2), rs .rparen ")"] ∧ m = ⟨0, 1, some [-1, 0, 1], 2, b⟩ := by
        refine ⟨_, rfl, ?_⟩
        have h : table "ADD".toList = some ⟨0, 1, some [-1, 0, 1], 2, [rs (.op .percent) "%", rs .intLit "1" (some 1), rs (.op .plus) "+", rs .ident "ADD", rs .lparen "(",
          rs (.op .percent) "%", rs .intLit "2" (some 2), rs .rparen ")"]⟩ := rfl
        rw [h] at hm; exact (Option.some.inj hm).symm
      simp only
      subst hb
      refine ⟨?_, ?_⟩
      · intro r hr
        simp only [List.mem_cons, List.not_mem_nil, or_false] at hr
        rcases hr with rfl | rfl | rfl | rfl | rfl | rfl | rfl | rfl
        · exact ⟨trivial, fun h => by cases h⟩
        · exact ⟨trivial, fun h => by cases h⟩
        · exact ⟨trivial, fun h => by cases h⟩
        · exact ⟨trivial, fun _ => .inr rfl⟩
        · exact ⟨trivial, fun h => by cases h⟩
        · exact ⟨trivial, fun h => by cases h⟩
        · exact ⟨trivial, fun h => by cases h⟩
        · exact ⟨trivial, fun h => by cases h⟩
      · refine ⟨?_, ?_, ?_, fun _ => ⟨_, _, rfl, rfl⟩, ?_, ?_, ?_, ?_, trivial⟩ <;>
        · rintro ⟨h, -⟩; cases h
  · intro t ht
    simp only [List.mem_cons, List.not_mem_nil, or_false] at ht
    rcases ht with rfl | rfl | rfl | rfl | rfl | rfl
    · exact ⟨trivial, fun _ => .inr rfl⟩
    · exact ⟨trivial, fun h => by cases h⟩
    · exact ⟨trivial, fun _ => .inl rfl⟩
    · exact ⟨trivial, fun h => by cases h⟩
    · exact ⟨trivial, fun h => by cases h⟩
    · exact ⟨trivial, fun h => by cases h⟩

end Example

/-! ### C22 -/

/-- Operators that cannot fail by division. -/
def Harmless (ops : List PreOp) : Prop := ∀ o ∈ ops, o ≠ .slash ∧ o ≠ .percent

def opens (ops : List PreOp) : Nat := (ops.filter (· = .lparen)).length

theorem processOp_safe (op : PreOp) (stack : List I32) (h1 : op ≠ .slash) (h2 : op ≠ .percent) (h3 : op ≠ .lparen) :
    processOp .release op stack ≠ .panic := by
  unfold processOp
  cases op <;> simp only [PreOp.isUnary, if_true, Bool.false_eq_true, if_false] <;>
    first
      | exact absurd rfl h1 | exact absurd rfl h2 | exact absurd rfl h3
      | (rcases stack with _ | ⟨r, _ | ⟨l, st⟩⟩ <;> simp [unaryOp, binaryOp])

theorem closeParen_safe (ops : List PreOp) : ∀ out, Harmless ops → closeParen .release ops out ≠ .panic ∧
    ∀ ops' out' b, closeParen .release ops out = .ok (ops', out', b) → Harmless ops' ∧ opens ops' = opens ops - 1 := by
  induction ops with
  | nil =>
    intro out h
    refine ⟨by simp [closeParen], fun ops' out' b he => ?_⟩
    simp only [closeParen, Res.ok.injEq, Prod.mk.injEq] at he
    rw [← he.1]; exact ⟨h, rfl⟩
  | cons op ops ih =>
    intro out h
    have h' : Harmless ops := fun o ho => h o (by simp [ho])
    simp only [closeParen]
    by_cases hl : op = .lparen
    · simp only [hl, if_true]
      refine ⟨by simp, fun ops' out' b he => ?_⟩
      simp only [Res.ok.injEq, Prod.mk.injEq] at he
      rw [← he.1]; exact ⟨h', by simp [opens]⟩
    · simp only [hl, if_false]
      have ho : opens (op :: ops) = opens ops := by simp [opens, List.filter_cons, hl]
      rw [ho]
      have hp := processOp_safe op out (h op (by simp)).1 (h op (by simp)).2 hl
      cases hr : processOp .release op out with
      | ok out' => exact ih out' h'
      | err => simp
      | panic => exact absurd hr hp

theorem popOps_safe (cur : PreOp) (ops : List PreOp) : ∀ out, Harmless ops → popOps .release cur ops out ≠ .panic ∧
    ∀ ops' out', popOps .release cur ops out = .ok (ops', out') → Harmless ops' ∧ opens ops' = opens ops := by
  induction ops with
  | nil =>
    intro out h
    refine ⟨by simp [popOps], fun ops' out' he => ?_⟩
    simp only [popOps, Res.ok.injEq, Prod.mk.injEq] at he
    rw [← he.1]; exact ⟨h, rfl⟩
  | cons op ops ih =>
    intro out h
    have h' : Harmless ops := fun o ho => h o (by simp [ho])
    simp only [popOps]
    by_cases hg : goesFirst op cur = true
    · simp only [hg, if_true]
      have hl : op ≠ .lparen := by rintro rfl; simp [goesFirst] at hg
      have ho : opens (op :: ops) = opens ops := by simp [opens, List.filter_cons, hl]
      rw [ho]
      have hp := processOp_safe op out (h op (by simp)).1 (h op (by simp)).2 hl
      cases hr : processOp .release op out with
      | ok out' => exact ih out' h'
      | err => simp
      | panic => exact absurd hr hp
    · simp only [hg, Bool.false_eq_true, if_false]
      refine ⟨by simp, fun ops' out' he => ?_⟩
      simp only [Res.ok.injEq, Prod.mk.injEq] at he
      rw [← he.1]; exact ⟨h, rfl⟩

theorem finish_safe (ops : List PreOp) : ∀ out, Harmless ops → opens ops = 0 → finish .release ops out ≠ .panic := by
  induction ops with
  | nil => intro out _ _; simp [finish]
  | cons op ops ih =>
    intro out h h0
    have h' : Harmless ops := fun o ho => h o (by simp [ho])
    have hl : op ≠ .lparen := by rintro rfl; simp [opens] at h0
    have ho : opens (op :: ops) = opens ops := by simp [opens, List.filter_cons, hl]
    rw [ho] at h0
    have hp := processOp_safe op out (h op (by simp)).1 (h op (by simp)).2 hl
    simp only [finish]
    cases hr : processOp .release op out with
    | ok out' => exact ih out' h' h0
    | err => simp
    | panic => exact absurd hr hp

/-- Tokens of an expansion made of macros without parameters. -/
structure XO (macros : Macros) (P : Kind → Str → Prop) (lexer : List Sym) (st : XSt) : Prop where
  ctxs : ∀ c ∈ st.ctxs, ∀ q ∈ c, TP P q.tok
  popped : st.popped = []
  lexer : st.lexer = lexer
  out : ∀ t ∈ st.out, TP P t

theorem xLoop_object (macros : Macros) (P : Kind → Str → Prop)
    (hb : ∀ x m, P .ident x → macros x = some m → m.params = none ∧ ∀ r ∈ m.body, P r.kind r.text)
    (allow : Bool) (token : Tok) (lexer : List Sym) (f : Nat) : ∀ st st', XO macros P lexer st →
    xLoop macros allow token f st = some (.continue_ st') → XO macros P lexer st' := by
  induction f with
  | zero => intro st st' _ h; simp [xLoop] at h
  | succ f ih =>
    intro st st' hst h
    simp only [xLoop] at h
    split at h
    · simp only [Option.some.injEq, XRes.continue_.injEq] at h; subst h; exact hst
    · rename_i top rest he
      split at h
      · have hrest : ∀ c ∈ rest, ∀ q ∈ c, TP P q.tok := fun c hc => hst.ctxs c (by rw [he]; simp [hc])
        have htop : ∀ q ∈ top, TP P q.tok := hst.ctxs top (by rw [he]; simp)
        cases hs : xStep macros allow token top rest st with
        | error e st₁ => rw [hs] at h; simp at h
        | continue_ st₁ =>
          rw [hs] at h
          refine ih st₁ st' ?_ h
          cases top with
          | nil =>
            simp only [xStep, XRes.continue_.injEq] at hs; subst hs
            exact ⟨hrest, hst.popped, hst.lexer, hst.out⟩
          | cons q cur =>
            have hq := htop q (by simp)
            have hcons : ∀ c ∈ cur :: rest, ∀ q ∈ c, TP P q.tok := by
              intro c hc; rcases List.mem_cons.1 hc with rfl | hc
              · exact fun x hx => htop x (by simp [hx])
              · exact hrest c hc
            have hout : ∀ u : Tok, TP P u → ∀ t ∈ st.out ++ [u], TP P t := by
              intro u hu t ht
              simp only [List.mem_append, List.mem_singleton] at ht
              rcases ht with ht | rfl
              · exact hst.out t ht
              · exact hu
            unfold xStep at hs
            dsimp only at hs
            split at hs
            · rename_i hk
              have hqi : P .ident q.tok.text := by have := hq; unfold TP at this; rw [hk] at this; exact this
              split at hs
              · split at hs
                · simp only [XRes.continue_.injEq] at hs; subst hs
                  exact ⟨hcons, hst.popped, hst.lexer, hout _ hq⟩
                · cases hs
              · rename_i m hm
                rw [(hb _ m hqi hm).1] at hs
                simp only [XRes.continue_.injEq] at hs; subst hs
                refine ⟨?_, hst.popped, hst.lexer, hst.out⟩
                intro c hc; rcases List.mem_cons.1 hc with rfl | hc
                · exact expandNonMacro_P P (hb _ m hqi hm).2 _ _
                · exact hcons c hc
            all_goals
              simp only [XRes.continue_.injEq] at hs; subst hs
              first
                | exact ⟨hcons, hst.popped, hst.lexer, hst.out⟩
                | exact ⟨hcons, hst.popped, hst.lexer, hout _ hq⟩
      · simp only [Option.some.injEq, XRes.continue_.injEq] at h; subst h; exact hst

/-- Kinds that neither divide nor open or close parentheses. -/
def Tame (R : Str → Prop) (k : Kind) (x : Str) : Prop :=
  k ≠ .lparen ∧ k ≠ .rparen ∧ k ≠ .op .slash ∧ k ≠ .op .percent ∧ (k = .ident → R x)

structure ESafe (R : Str → Prop) (st : ESt) : Prop where
  iter : ∀ s ∈ st.iter, s.kind ≠ .op .slash ∧ s.kind ≠ .op .percent ∧ (s.kind = .ident → R s.text)
  stack : ∀ t ∈ st.stack, TP (Tame R) t
  ops : Harmless st.ops
  closed : unclosed (opens st.ops) (st.iter.map (·.kind)) = 0

theorem preOp_harmless (b : Bool) (o : Op) (c : PreOp) (h : preOp b o = some c) (h1 : o ≠ .slash) (h2 : o ≠ .percent) :
    c ≠ .slash ∧ c ≠ .percent ∧ c ≠ .lparen := by
  cases o <;> cases b <;> simp_all [preOp, convert] <;> subst h <;> simp

theorem unclosed_other (n : Nat) (k : Kind) (ks : List Kind) (h1 : k ≠ .lparen) (h2 : k ≠ .rparen) : unclosed n (k :: ks) = unclosed n ks := by
  cases k <;> first | exact absurd rfl h1 | exact absurd rfl h2 | rfl

theorem eTurn_safe (macros : Macros) (R : Str → Prop)
    (hR : ∀ x m, R x → macros x = some m → m.params = none ∧ ∀ r ∈ m.body, Tame R r.kind r.text)
    (st : ESt) (hst : ESafe R st) (s : Sym) (st₁ : ESt) (hn : eNext st = some (s, st₁)) (f : Nat) :
    eStep .release macros f s st₁ ≠ some .panic ∧ ∀ st₂, eStep .release macros f s st₁ = some (.ok st₂) → ESafe R st₂ := by
  -- what the next token is
  obtain ⟨hs, hclosed, hiter, hstack, hops⟩ : (s.kind ≠ .op .slash ∧ s.kind ≠ .op .percent ∧ (s.kind = .ident → R s.text)) ∧
      unclosed (opens st₁.ops) (s.kind :: st₁.iter.map (·.kind)) = 0 ∧
      (∀ s ∈ st₁.iter, s.kind ≠ .op .slash ∧ s.kind ≠ .op .percent ∧ (s.kind = .ident → R s.text)) ∧
      (∀ t ∈ st₁.stack, TP (Tame R) t) ∧ Harmless st₁.ops := by
    unfold eNext at hn
    split at hn
    · rename_i t ts he
      simp only [Option.some.injEq, Prod.mk.injEq] at hn
      obtain ⟨rfl, rfl⟩ := hn
      have ht := hst.stack t (by rw [he]; simp)
      refine ⟨⟨ht.2.2.1, ht.2.2.2.1, ht.2.2.2.2⟩, ?_, hst.iter, fun u hu => hst.stack u (by rw [he]; simp only at hu; simp [hu]), hst.ops⟩
      exact (unclosed_other _ _ _ ht.1 ht.2.1).trans hst.closed
    · rename_i he
      split at hn
      · rename_i x xs hx
        simp only [Option.some.injEq, Prod.mk.injEq] at hn
        obtain ⟨rfl, rfl⟩ := hn
        have hc := hst.closed
        rw [hx] at hc
        exact ⟨hst.iter x (by rw [hx]; simp), hc, fun u hu => hst.iter u (by rw [hx]; simp only at hu; simp [hu]), hst.stack, hst.ops⟩
      · cases hn
  have base : s.kind ≠ .lparen → s.kind ≠ .rparen → unclosed (opens st₁.ops) (st₁.iter.map (·.kind)) = 0 := by
    intro h1 h2; rw [unclosed_other _ _ _ h1 h2] at hclosed; exact hclosed
  by_cases hnm : Names s.kind
  · rw [eStep_names _ _ _ _ _ hnm]
    have hk1 : s.kind ≠ .lparen := by intro h; rw [h] at hnm; exact hnm
    have hk2 : s.kind ≠ .rparen := by intro h; rw [h] at hnm; exact hnm
    have hexp : eStep.expandHere macros f s st₁ ≠ some .panic ∧ ∀ st₂, eStep.expandHere macros f s st₁ = some (.ok st₂) → ESafe R st₂ := by
      unfold eStep.expandHere
      rcases ho : expandIdentifier macros false f s.tok st₁.iter st₁.stack st₁.disabled with _ | o
      · simp
      · simp only
        rcases hv : o.value with e | d
        · simp
        · simp only [Option.some.injEq, Res.ok.injEq]
          refine ⟨by simp, ?_⟩
          rintro st₂ rfl
          unfold expandIdentifier at ho
          split at ho
          · cases ho
          · simp only [Option.some.injEq] at ho; subst ho; simp at hv
          · rename_i st' hx
            simp only [Option.some.injEq] at ho; subst ho
            have := xLoop_object macros (Tame R) (fun x m hx hm => hR x m (hx.2.2.2.2 rfl) hm) false s.tok st₁.iter f _ st'
              ⟨by simpa using ⟨hk1, hk2, hs.1, hs.2.1, hs.2.2⟩, rfl, rfl, by simp⟩ hx
            refine ⟨?_, ?_, hops, ?_⟩
            · simp only [this.lexer]; exact hiter
            · intro t ht
              simp only [this.popped, List.reverse_nil, List.append_nil, List.mem_append] at ht
              rcases ht with ht | ht
              · exact this.out t ht
              · exact hstack t ht
            · simp only [this.lexer]; exact base hk1 hk2
    by_cases hl : st₁.lfd = true
    · simp only [hl, if_true, Option.some.injEq, Res.ok.injEq]
      refine ⟨by simp, ?_⟩
      rintro st₂ rfl
      exact ⟨hiter, hstack, hops, base hk1 hk2⟩
    · simp only [hl, Bool.false_eq_true, if_false]
      rcases macros s.text with _ | m
      · exact hexp
      · simp only
        by_cases hd : m ∈ st₁.disabled
        · simp only [hd, if_true, Option.some.injEq, Res.ok.injEq]
          refine ⟨by simp, ?_⟩
          rintro st₂ rfl
          exact ⟨hiter, hstack, hops, base hk1 hk2⟩
        · simp only [hd, if_false]; exact hexp
  · unfold eStep
    generalize hk : s.kind = k at *
    cases k
    case lparen =>
      simp only [Option.some.injEq, Res.ok.injEq]
      refine ⟨by simp, ?_⟩
      rintro st₂ rfl
      refine ⟨hiter, hstack, ?_, ?_⟩
      · intro o ho
        rcases List.mem_cons.1 ho with rfl | ho
        · simp
        · exact hops o ho
      · simpa [opens, unclosed] using hclosed
    case rparen =>
      obtain ⟨h1, h2⟩ := closeParen_safe st₁.ops st₁.out hops
      rcases hc : closeParen .release st₁.ops st₁.out with ⟨ops, out, b⟩ | _ | _
      · simp only [Option.some.injEq, Res.ok.injEq]
        refine ⟨by simp, ?_⟩
        rintro st₂ rfl
        obtain ⟨h3, h4⟩ := h2 _ _ _ hc
        refine ⟨hiter, hstack, h3, ?_⟩
        simp only [h4]; exact hclosed
      · simp
      · exact absurd hc h1
    case op o =>
      have ho1 : o ≠ .slash := by rintro rfl; exact hs.1 rfl
      have ho2 : o ≠ .percent := by rintro rfl; exact hs.2.1 rfl
      simp only [Option.some.injEq]
      rcases hp : preOp st₁.mbu o with _ | c
      · simp
      · obtain ⟨c1, c2, c3⟩ := preOp_harmless _ _ _ hp ho1 ho2
        simp only
        obtain ⟨h1, h2⟩ := popOps_safe c st₁.ops st₁.out hops
        rcases hc : popOps .release c st₁.ops st₁.out with ⟨ops, out⟩ | _ | _
        · simp only [Res.ok.injEq]
          refine ⟨by simp, ?_⟩
          rintro st₂ rfl
          obtain ⟨h3, h4⟩ := h2 _ _ hc
          refine ⟨hiter, hstack, ?_, ?_⟩
          · intro o ho
            rcases List.mem_cons.1 ho with rfl | ho
            · exact ⟨c1, c2⟩
            · exact h3 o ho
          · have : opens (c :: ops) = opens ops := by simp [opens, List.filter_cons, c3]
            simp only [this, h4]
            exact base (by simp) (by simp)
        · simp
        · exact absurd hc h1
    all_goals first
      | exact absurd trivial hnm
      | (refine ⟨by simp, ?_⟩
         intro st₂ h
         simp only [Option.some.injEq, Res.ok.injEq] at h
         subst h
         exact ⟨hiter, hstack, hops, base (by simp) (by simp)⟩)
      | (refine ⟨by simp, ?_⟩
         intro st₂ h
         simp at h)

theorem eLoop_safe (macros : Macros) (R : Str → Prop)
    (hR : ∀ x m, R x → macros x = some m → m.params = none ∧ ∀ r ∈ m.body, Tame R r.kind r.text) (f : Nat) : ∀ st, ESafe R st →
    eLoop .release macros f st ≠ some .panic ∧ ∀ st', eLoop .release macros f st = some (.ok st') → ESafe R st' ∧ eNext st' = none := by
  induction f with
  | zero => intro st _; simp [eLoop]
  | succ f ih =>
    intro st hst
    simp only [eLoop]
    rcases hn : eNext st with _ | ⟨s, st₁⟩
    · simp only [Option.some.injEq, Res.ok.injEq]
      refine ⟨by simp, ?_⟩
      rintro st' rfl
      exact ⟨hst, hn⟩
    · obtain ⟨h1, h2⟩ := eTurn_safe macros R hR st hst s st₁ hn f
      simp only
      rcases hr : eStep .release macros f s st₁ with _ | (st₂ | _ | _)
      · simp
      · exact ih st₂ (h2 st₂ hr)
      · simp
      · exact absurd hr h1

/-- **C22** (part): without overflow checks (the profile the server is shipped with), a condition never aborts the program when every
opening parenthesis in it is closed, it does not divide, and the macros it names take no parameters and expand to neither
parentheses nor divisions. It need not be well formed in any other way. Missing: unclosed parentheses and divisions by zero, which
do abort (`Evaluator.evaluation_panics_paren_refuted`, `Evaluator.evaluation_panics_division_refuted`), and macros with parameters or that bring parentheses of their own,
which are in `EvalUse.evaluation_never_panics_replaced_partial` and `EvalParen.evaluation_never_panics_nested_partial`. -/
theorem evaluation_never_panics_partial (macros : Macros) (disabled : List Macro) (ts : List Sym) (R : Str → Prop)
    (hR : ∀ x m, R x → macros x = some m → m.params = none ∧
      ∀ r ∈ m.body, r.kind ≠ .lparen ∧ r.kind ≠ .rparen ∧ r.kind ≠ .op .slash ∧ r.kind ≠ .op .percent ∧ (r.kind = .ident → R r.text))
    (hts : ∀ t ∈ ts, t.kind ≠ .op .slash ∧ t.kind ≠ .op .percent ∧ (t.kind = .ident → R t.text))
    (hclosed : unclosed 0 (ts.map (·.kind)) = 0) (fuel : Nat) :
    evaluate .release macros disabled ts fuel ≠ some .panic := by
  have h0 : ESafe R ⟨ts, [], [], [], true, false, disabled⟩ := ⟨hts, by simp, by intro o ho; simp at ho, hclosed⟩
  obtain ⟨h1, h2⟩ := eLoop_safe macros R hR fuel _ h0
  unfold evaluate evaluateValue
  rcases hr : eLoop .release macros fuel ⟨ts, [], [], [], true, false, disabled⟩ with _ | (st | _ | _)
  · simp
  · obtain ⟨h3, h4⟩ := h2 st hr
    have hi : st.iter = [] := by
      unfold eNext at h4
      split at h4
      · cases h4
      · split at h4
        · cases h4
        · rename_i h; exact h
    have ho : opens st.ops = 0 := by have := h3.closed; rw [hi] at this; exact this
    have hf := finish_safe st.ops st.out h3.ops ho
    simp only [Option.map_some]
    rcases hg : finish .release st.ops st.out with (_ | ⟨v, vs⟩) | _ | _
    · simp [Res.map]
    · simp [Res.map]
    · simp [Res.map]
    · exact absurd hg hf
  · simp [Res.map]
  · exact absurd hr h1

/-- `) + A ( 1 ) -` : malformed, with a macro, and no abort. -/
example (fuel : Nat) : evaluate .release (fun x => if x = "A".toList then some ⟨0, 0, none, 0, [rs .intLit "1" (some 1)]⟩ else none) []
    [Evaluator.tk .rparen, Evaluator.tk (.op .plus), Evaluator.tk .ident "A", Evaluator.tk .lparen, Evaluator.num 1, Evaluator.tk .rparen, Evaluator.tk (.op .minus)]
    fuel ≠ some .panic := by
  refine evaluation_never_panics_partial _ [] _ (fun _ => True) ?_ ?_ rfl fuel
  · intro x m _ hm
    split at hm
    · simp only [Option.some.injEq] at hm; subst hm
      refine ⟨rfl, ?_⟩
      intro r hr
      simp only [List.mem_cons, List.not_mem_nil, or_false] at hr
      subst hr
      simp [rs]
    · cases hm
  · intro t ht
    simp only [List.mem_cons, List.not_mem_nil, or_false] at ht
    rcases ht with rfl | rfl | rfl | rfl | rfl | rfl | rfl <;> simp [Evaluator.tk, Evaluator.num]

end Verif.Props.EvalTerm
