import Verif.Props.EvalTerm
/-!
# Where the tokens of an expansion come from, with their ranges

As `EvalTerm.expand_P`, for a property of whole tokens, and for an expansion that leaves the last `n` tokens of the lexer alone.
-/

namespace Verif.Props.Provenance

open Verif.Pre Verif.Pre.Spec Verif.Props.PreFuel Verif.Props.MacroTerm Verif.Props.EvalTerm

/-- A property of tokens that expansions keep. `Q` is what places the tokens of a definition: it holds of names, and of the tokens
of a definition. -/
structure Kept (macros : Macros) (P Q : Sym → Prop) : Prop where
  delta : ∀ s d, P s → P { s with delta := d }
  str : ∀ s x c d, P s → P ⟨.strLit, x, ⟨s.range.s, ⟨s.range.s.line, c⟩⟩, d, none, false⟩
  lit : ∀ s c d, P s → (s.kind = .strLit ∨ s.kind = .charLit) → P ⟨s.kind, s.text, ⟨s.range.s, ⟨s.range.s.line, c⟩⟩, d, s.val, false⟩
  name : ∀ s, P s → s.kind = .ident → Q s
  body : ∀ x m, macros x = some m → ∀ s, Q s → ∀ r ∈ m.body, P (r.toSym s.range) ∧ Q (r.toSym s.range)

variable {macros : Macros} {P Q : Sym → Prop}

/-- All but the last `n` tokens. -/
def Front (P : Sym → Prop) (n : Nat) (l : List Sym) : Prop := ∀ x ∈ l.take (l.length - n), P x

structure SrcQ (P : Sym → Prop) (n : Nat) (s : Src) : Prop where
  ctx : ∀ q ∈ s.ctx, P q.tok.sym
  popped : ∀ t ∈ s.popped, P t.sym
  lexer : Front P n s.lexer

theorem Front.drop {n : Nat} {l : List Sym} (h : Front P n l) (k : Nat) : Front P n (l.drop k) := by
  intro x hx
  refine h x ?_
  rw [List.length_drop, List.take_drop] at hx
  have := List.mem_of_mem_drop hx
  by_cases hk : k + (l.length - k - n) ≤ l.length - n
  · exact List.mem_of_mem_take (i := k + (l.length - k - n)) (by rwa [List.take_take, Nat.min_eq_left hk])
  · exfalso
    have : l.length - k - n = 0 := by omega
    rw [this, Nat.add_zero] at hx
    rw [List.drop_eq_nil_of_le (List.length_take_le _ _)] at hx
    simp at hx

theorem SrcQ.take {n : Nat} {s : Src} (h : SrcQ P n s) (k : Nat) : SrcQ P n (s.take k) :=
  ⟨fun q hq => h.ctx q (List.mem_of_mem_drop hq), fun t ht => h.popped t (List.mem_of_mem_drop ht), h.lexer.drop _⟩

/-- The available tokens are good up to the last `n`. -/
theorem SrcQ.avail {n : Nat} {s : Src} (h : SrcQ P n s) (hn : n ≤ s.lexer.length) :
    ∃ a b, s.avail = a ++ b ∧ b.length = n ∧ ∀ t ∈ a, P t.sym := by
  refine ⟨s.ctx.map (·.tok) ++ s.popped ++ (s.lexer.take (s.lexer.length - n)).map Sym.tok, (s.lexer.drop (s.lexer.length - n)).map Sym.tok, ?_, ?_, ?_⟩
  · simp only [Src.avail, List.append_assoc, ← List.map_append, List.take_append_drop]
  · simp; omega
  · intro t ht
    simp only [List.mem_append, List.mem_map] at ht
    rcases ht with (⟨q, hq, rfl⟩ | ht) | ⟨x, hx, rfl⟩
    · exact h.ctx q hq
    · exact h.popped t ht
    · exact h.lexer x hx

theorem avail_length (s : Src) : s.avail.length = s.ctx.length + s.popped.length + s.lexer.length := by
  simp [Src.avail, Nat.add_assoc]

theorem take_lexer (s : Src) (k : Nat) : (s.take k).lexer.length = s.lexer.length - (k - s.ctx.length - s.popped.length) := by
  simp [Src.take]

theorem collect_Q {n : Nat} {s : Src} (h : SrcQ P n s) (line nb : Nat) (hn : n ≤ (collectArguments s line nb).1.lexer.length) :
    SrcQ P n (collectArguments s line nb).1 ∧
    ∀ args d, (collectArguments s line nb).2 = some (args, d) → ∀ i, ∀ t ∈ args i, P t.sym := by
  have hn0 : n ≤ s.lexer.length := Nat.le_trans hn (collect_lexer s line nb)
  obtain ⟨a, b, hab, hb, ha⟩ := h.avail hn0
  have hlen : a.length + n = s.ctx.length + s.popped.length + s.lexer.length := by
    rw [← avail_length, hab, List.length_append, hb]
  revert hn
  unfold collectArguments
  have hp := scanOpen_prefix line s.avail []
  revert hp
  cases scanOpen line [] s.avail with
  | absent temp =>
    rintro ⟨k, hk, -, rfl⟩ hn
    refine ⟨⟨(h.take _).ctx, fun t ht => ?_, (h.take _).lexer⟩, by simp⟩
    simp only [List.nil_append, List.mem_append] at ht
    rcases ht with ht | ht
    · simp only [List.nil_append, take_lexer, List.length_take] at hn
      rw [hab] at hk ht
      have hka : k ≤ a.length := by
        rw [hab] at hn; simp only [List.length_append] at hn hk; omega
      rw [List.take_append_of_le_length hka] at ht
      exact ha t (List.mem_of_mem_take ht)
    · exact (h.take _).popped t ht
  | exhausted k =>
    intro _ hn
    refine ⟨h.take _, fun args d e i t ht => ?_⟩
    simp only [Option.some.injEq, Prod.mk.injEq] at e
    rw [← e.1] at ht; simp at ht
  | found k col =>
    intro hk hn
    have hfrom := fun hka : k ≤ a.length => scanArgs_from nb (a.drop k) b 1 0 (fun _ => []) 0
    have hge := (scanArgs_count nb (s.avail.drop k) 1 0 (fun _ => []) 0).1
    have hle := scanArgs_le nb (s.avail.drop k) 1 0 (fun _ => []) 0
    rw [List.length_drop, avail_length] at hle
    rw [avail_length] at hk
    simp only [List.length_nil, Nat.zero_add] at hk
    rcases hg : scanArgs nb 1 0 (fun _ => []) 0 (s.avail.drop k) with ⟨A, c, last⟩
    simp only [hg, take_lexer] at hn hge hle
    have hka : k ≤ a.length := by omega
    have hfrom := hfrom hka
    rw [← List.drop_append_of_le_length hka, ← hab, hg] at hfrom
    refine ⟨by simpa only [hg] using h.take _, fun args d e i t ht => ?_⟩
    simp only [Option.some.injEq, Prod.mk.injEq] at e
    rw [← e.1, hg] at ht
    rcases hfrom with h' | h'
    · rw [List.length_drop] at h'
      simp only at h'
      omega
    · rcases h' i t ht with h'' | h''
      · simp at h''
      · exact ha t (List.mem_of_mem_drop h'')

theorem bodySyms_Q {x : Str} {m : Macro} (hk : Kept macros P Q) (hm : macros x = some m) : ∀ (rs : List RSym), (∀ r ∈ rs, r ∈ m.body) → ∀ s, Q s →
    ∀ y ∈ bodySyms s.range rs, P y := by
  intro rs
  induction rs with
  | nil => intro _ s _ y hy; simp [bodySyms] at hy
  | cons r rs ih =>
    intro hrs s hs y hy
    simp only [bodySyms, List.mem_cons] at hy
    have hr := hk.body x m hm s hs r (hrs r (by simp))
    rcases hy with rfl | hy
    · exact hr.1
    · exact ih (fun r hr => hrs r (by simp [hr])) _ hr.2 y hy

theorem bodyQueue_Q {ss : List Sym} (h : ∀ x ∈ ss, P x) (d : Delta) : ∀ q ∈ bodyQueue d ss, P q.tok.sym := by
  cases ss with
  | nil => intro q hq; simp [bodyQueue] at hq
  | cons s ss =>
    intro q hq
    simp only [bodyQueue, List.mem_cons, List.mem_map] at hq
    rcases hq with rfl | ⟨x, hx, rfl⟩
    · exact h s (by simp)
    · exact h x (by simp [hx])

theorem bodyStep_Q (hk : Kept macros P Q) {args : Nat → List Tok} (ha : ∀ i, ∀ t ∈ args i, P t.sym) (m : Macro) (symbol : Sym) (hsym : P symbol)
    (delta : Delta) (depth i : Nat) (child : Sym) (hc : P child) (st st' : MSt) (hst : ∀ q ∈ st.ctx, P q.tok.sym)
    (h : bodyStep args m symbol delta depth i child st = some st') : ∀ q ∈ st'.ctx, P q.tok.sym := by
  have hadd : ∀ d, ∀ q ∈ st.ctx ++ [⟨child.tok, d⟩], P q.tok.sym := by
    intro d q hq
    simp only [List.mem_append, List.mem_singleton] at hq
    rcases hq with hq | rfl
    · exact hst q hq
    · exact hc
  unfold bodyStep at h
  split at h
  · simp only [Option.some.injEq] at h; subst h
    simp only
    split
    · exact hadd _
    · exact hst
  · simp only [Option.some.injEq] at h; subst h; exact hadd _
  · split at h
    · unfold substParam at h
      split at h
      · cases h
      · split at h
        · cases h
        · split at h
          · cases h
          · split at h
            · cases h
            · split at h
              · cases h
              · split at h
                · simp only [Option.some.injEq] at h; subst h
                  intro q hq
                  simp only [List.mem_append, List.mem_singleton] at hq
                  rcases hq with hq | rfl
                  · exact hst q (List.dropLast_subset _ (List.dropLast_subset _ hq))
                  · exact hk.str symbol _ _ _ hsym
                · simp only [Option.some.injEq] at h; subst h
                  intro q hq
                  simp only [List.mem_append, List.mem_mapIdx] at hq
                  rcases hq with hq | ⟨j, hj, rfl⟩
                  · exact hst q (List.dropLast_subset _ hq)
                  · simp only
                    have := ha _ _ (List.getElem_mem hj)
                    split
                    · exact this
                    · exact this
    · simp only [Option.some.injEq] at h; subst h; exact hadd _
  · split at h
    · simp only [Option.some.injEq] at h; subst h; exact hst
    · simp only [Option.some.injEq] at h; subst h; exact hadd _

theorem bodyLoop_Q (hk : Kept macros P Q) {args : Nat → List Tok} (ha : ∀ i, ∀ t ∈ args i, P t.sym) (m : Macro) (symbol : Sym) (hsym : P symbol)
    (delta : Delta) (depth : Nat) (cs : List Sym) : ∀ (i : Nat) (st st' : MSt), (∀ c ∈ cs, P c) → (∀ q ∈ st.ctx, P q.tok.sym) →
    bodyLoop args m symbol delta depth i cs st = some st' → ∀ q ∈ st'.ctx, P q.tok.sym := by
  induction cs with
  | nil => intro i st st' _ hst h; simp only [bodyLoop, Option.some.injEq] at h; subst h; exact hst
  | cons c cs ih =>
    intro i st st' hc hst h
    simp only [bodyLoop] at h
    split at h
    · cases h
    · rename_i st₁ h1
      exact ih _ _ _ (fun x hx => hc x (by simp [hx])) (bodyStep_Q hk ha m symbol hsym delta depth i c (hc c (by simp)) st st₁ hst h1) h

theorem expandMacro_Q (hk : Kept macros P Q) {args : Nat → List Tok} (ha : ∀ i, ∀ t ∈ args i, P t.sym) {x : Str} {m : Macro}
    (hm : macros x = some m) (symbol : Sym) (hsym : P symbol) (hid : symbol.kind = .ident) (delta : Delta) (depth : Nat) (q : List QTok)
    (h : expandMacro args m symbol delta depth = some q) : ∀ x ∈ q, P x.tok.sym := by
  unfold expandMacro at h
  simp only [Option.map_eq_some_iff] at h
  obtain ⟨st, h1, rfl⟩ := h
  exact bodyLoop_Q hk ha m symbol hsym delta depth _ 0 _ st (bodySyms_Q hk hm _ (fun _ h => h) _ (hk.name _ hsym hid)) (by simp) h1

structure XQ (P : Sym → Prop) (n : Nat) (st : XSt) : Prop where
  ctxs : ∀ c ∈ st.ctxs, ∀ q ∈ c, P q.tok.sym
  popped : ∀ t ∈ st.popped, P t.sym
  lexer : Front P n st.lexer
  out : ∀ t ∈ st.out, P t.sym

/-- The state after a turn. -/
def after : XRes → XSt
  | .continue_ st => st
  | .error _ st => st

theorem xStep_lexer (allow : Bool) (token : Tok) (top : List QTok) (rest : List (List QTok)) (st : XSt) :
    (after (xStep macros allow token top rest st)).lexer.length ≤ st.lexer.length := by
  unfold xStep
  cases top with
  | nil => exact Nat.le_refl _
  | cons q cur =>
    have hl := fun line nb => collect_lexer ⟨cur, st.popped, st.lexer⟩ line nb
    dsimp only
    split
    · split
      · split <;> exact Nat.le_refl _
      · rename_i m _
        split
        · exact Nat.le_refl _
        · have hl := hl q.tok.sym.range.e.line m.nbParams
          revert hl
          generalize collectArguments ⟨cur, st.popped, st.lexer⟩ q.tok.sym.range.e.line m.nbParams = c
          obtain ⟨s, _ | ⟨args, d⟩⟩ := c
          · exact id
          · dsimp only
            split <;> exact id
    all_goals exact Nat.le_refl _

theorem xStep_Q (hk : Kept macros P Q) {n : Nat} (allow : Bool) (token : Tok) (top : List QTok) (rest : List (List QTok)) (st : XSt) (hst : XQ P n st)
    (he : st.ctxs = top :: rest) (st' : XSt) (h : xStep macros allow token top rest st = .continue_ st') (hn : n ≤ st'.lexer.length) : XQ P n st' := by
  have hrest : ∀ c ∈ rest, ∀ q ∈ c, P q.tok.sym := fun c hc => hst.ctxs c (by rw [he]; simp [hc])
  have htop : ∀ q ∈ top, P q.tok.sym := hst.ctxs top (by rw [he]; simp)
  cases top with
  | nil =>
    simp only [xStep, XRes.continue_.injEq] at h; subst h
    exact ⟨hrest, hst.popped, hst.lexer, hst.out⟩
  | cons q cur =>
    have hq := htop q (by simp)
    have hcur : ∀ x ∈ cur, P x.tok.sym := fun x hx => htop x (by simp [hx])
    have hcons : ∀ c ∈ cur :: rest, ∀ q ∈ c, P q.tok.sym := by
      intro c hc; rcases List.mem_cons.1 hc with rfl | hc
      · exact hcur
      · exact hrest c hc
    have hout : ∀ d, ∀ t ∈ st.out ++ [q.tok.setDelta d], P t.sym := by
      intro d t ht
      simp only [List.mem_append, List.mem_singleton] at ht
      rcases ht with ht | rfl
      · exact hst.out t ht
      · exact hk.delta _ d hq
    have hout' : ∀ t ∈ st.out ++ [q.tok], P t.sym := by
      intro t ht
      simp only [List.mem_append, List.mem_singleton] at ht
      rcases ht with ht | rfl
      · exact hst.out t ht
      · exact hq
    unfold xStep at h
    dsimp only at h
    split at h
    · rename_i hid
      split at h
      · split at h
        · simp only [XRes.continue_.injEq] at h; subst h
          exact ⟨hcons, hst.popped, hst.lexer, hout _⟩
        · cases h
      · rename_i m hm
        split at h
        · simp only [XRes.continue_.injEq] at h; subst h
          refine ⟨?_, hst.popped, hst.lexer, hst.out⟩
          intro c hc; rcases List.mem_cons.1 hc with rfl | hc
          · intro y hy
            exact bodyQueue_Q (bodySyms_Q hk hm _ (fun _ h => h) _ (hk.name _ hq hid)) _ y (dropLastNewline_mem hy)
          · exact hcons c hc
        · have hsrc : SrcQ P n ⟨cur, st.popped, st.lexer⟩ := ⟨hcur, hst.popped, hst.lexer⟩
          have key := collect_Q hsrc q.tok.sym.range.e.line m.nbParams
          generalize hc : collectArguments ⟨cur, st.popped, st.lexer⟩ q.tok.sym.range.e.line m.nbParams = c at h key
          obtain ⟨s, _ | ⟨args, d⟩⟩ := c
          · simp only [XRes.continue_.injEq] at h; subst h
            obtain ⟨h1, -⟩ := key hn
            refine ⟨?_, h1.popped, h1.lexer, hout'⟩
            intro c' hc'; rcases List.mem_cons.1 hc' with rfl | hc'
            · exact h1.ctx
            · exact hrest c' hc'
          · dsimp only at h
            split at h
            · cases h
            · rename_i q' hq'
              simp only [XRes.continue_.injEq] at h; subst h
              obtain ⟨h1, h2⟩ := key hn
              refine ⟨?_, h1.popped, h1.lexer, hst.out⟩
              intro c' hc'; rcases List.mem_cons.1 hc' with rfl | hc'
              · exact expandMacro_Q hk (h2 args d rfl) hm _ hq hid _ _ _ hq'
              · rcases List.mem_cons.1 hc' with rfl | hc'
                · exact h1.ctx
                · exact hrest c' hc'
    · rename_i hkk
      simp only [XRes.continue_.injEq] at h; subst h
      refine ⟨hcons, hst.popped, hst.lexer, ?_⟩
      intro t ht
      simp only [List.mem_append, List.mem_singleton] at ht
      rcases ht with ht | rfl
      · exact hst.out t ht
      · exact hk.lit q.tok.sym _ _ hq (.inl hkk)
    · rename_i hkk
      simp only [XRes.continue_.injEq] at h; subst h
      refine ⟨hcons, hst.popped, hst.lexer, ?_⟩
      intro t ht
      simp only [List.mem_append, List.mem_singleton] at ht
      rcases ht with ht | rfl
      · exact hst.out t ht
      · exact hk.lit q.tok.sym _ _ hq (.inr hkk)
    all_goals
      simp only [XRes.continue_.injEq] at h; subst h
      first
        | exact ⟨hcons, hst.popped, hst.lexer, hst.out⟩
        | exact ⟨hcons, hst.popped, hst.lexer, hout _⟩

/-- The name in an error is no macro, and it is that of a token. -/
theorem xStep_notFound {n : Nat} (allow : Bool) (token : Tok) (top : List QTok) (rest : List (List QTok)) (st : XSt) (hst : XQ P n st)
    (he : st.ctxs = top :: rest) (st' : XSt) (x : Str) (r : Rng) (h : xStep macros allow token top rest st = .error (.notFound x r) st') :
    allow = false ∧ macros x = none ∧ ∃ s, P s ∧ s.range = r ∧ s.text = x := by
  have htop : ∀ q ∈ top, P q.tok.sym := hst.ctxs top (by rw [he]; simp)
  cases top with
  | nil => simp [xStep] at h
  | cons q cur =>
    unfold xStep at h
    dsimp only at h
    split at h
    · split at h
      · rename_i hm
        split at h
        · cases h
        · rename_i ha
          simp only [XRes.error.injEq, XErr.notFound.injEq] at h
          obtain ⟨⟨rfl, rfl⟩, -⟩ := h
          exact ⟨by simpa using ha, hm, q.tok.sym, htop q (by simp), rfl, rfl⟩
      · rename_i m hm
        split at h
        · cases h
        · generalize collectArguments ⟨cur, st.popped, st.lexer⟩ q.tok.sym.range.e.line m.nbParams = c at h
          obtain ⟨s, _ | ⟨args, d⟩⟩ := c
          · cases h
          · dsimp only at h
            split at h
            · simp at h
            · cases h
    all_goals cases h

theorem xLoop_Q (hk : Kept macros P Q) {n : Nat} (allow : Bool) (token : Tok) (f : Nat) : ∀ st r, XQ P n st →
    xLoop macros allow token f st = some r → (after r).lexer.length ≤ st.lexer.length ∧ (n ≤ (after r).lexer.length →
      match r with
      | .continue_ st' => XQ P n st'
      | .error (.notFound x r) _ => allow = false ∧ macros x = none ∧ ∃ s, P s ∧ s.range = r ∧ s.text = x
      | .error .parse _ => True) := by
  induction f with
  | zero => intro st st' _ h; simp [xLoop] at h
  | succ f ih =>
    intro st r hst h
    simp only [xLoop] at h
    split at h
    · simp only [Option.some.injEq] at h; subst h; exact ⟨Nat.le_refl _, fun _ => hst⟩
    · rename_i top rest he
      split at h
      · have hl := xStep_lexer (macros := macros) allow token top rest st
        cases hs : xStep macros allow token top rest st with
        | error e st₁ =>
          rw [hs] at h hl
          simp only [Option.some.injEq] at h; subst h
          refine ⟨hl, fun hn => ?_⟩
          cases e with
          | parse => trivial
          | notFound x r => exact xStep_notFound allow token top rest st hst he st₁ x r hs
        | continue_ st₁ =>
          rw [hs] at h hl
          simp only [after] at hl
          by_cases hn : n ≤ st₁.lexer.length
          · obtain ⟨h3, h4⟩ := ih st₁ r (xStep_Q hk allow token top rest st hst he st₁ hs hn) h
            exact ⟨Nat.le_trans h3 hl, h4⟩
          · -- the lexer is already too short
            have hlen : ∀ f st r, xLoop macros allow token f st = some r → (after r).lexer.length ≤ st.lexer.length := by
              intro f
              induction f with
              | zero => intro st r h; simp [xLoop] at h
              | succ f ih =>
                intro st r h
                simp only [xLoop] at h
                split at h
                · simp only [Option.some.injEq] at h; subst h; exact Nat.le_refl _
                · rename_i top rest he
                  split at h
                  · have hl := xStep_lexer (macros := macros) allow token top rest st
                    cases hs : xStep macros allow token top rest st with
                    | error e st₁ =>
                      rw [hs] at h hl
                      simp only [Option.some.injEq] at h; subst h; exact hl
                    | continue_ st₁ =>
                      rw [hs] at h hl
                      exact Nat.le_trans (ih st₁ r h) hl
                  · simp only [Option.some.injEq] at h; subst h; exact Nat.le_refl _
            have h3 := hlen f st₁ r h
            exact ⟨Nat.le_trans h3 hl, fun hn' => absurd (Nat.le_trans hn' h3) hn⟩
      · simp only [Option.some.injEq] at h; subst h; exact ⟨Nat.le_refl _, fun _ => hst⟩

/-- The tokens an expansion leaves, if it leaves the last `n` tokens of the lexer alone. -/
theorem expand_Q (hk : Kept macros P Q) {n : Nat} (allow : Bool) (f : Nat) (token : Tok) (lexer : List Sym) (stack : List Tok) (disabled : List Macro)
    (ht : P token.sym) (hl : Front P n lexer) (hs : ∀ t ∈ stack, P t.sym) (o : XOut)
    (h : expandIdentifier macros allow f token lexer stack disabled = some o) :
    o.lexer.length ≤ lexer.length ∧ (n ≤ o.lexer.length →
      match o.value with
      | .ok _ => Front P n o.lexer ∧ ∀ t ∈ o.stack, P t.sym
      | .error (.notFound x r) => allow = false ∧ macros x = none ∧ ∃ s, P s ∧ s.range = r ∧ s.text = x
      | .error .parse => True) := by
  have hst : XQ P n ⟨[[⟨token, token.sym.delta⟩]], [], lexer, [], disabled, 0⟩ := ⟨by simpa using ht, by simp, hl, by simp⟩
  unfold expandIdentifier at h
  split at h
  · cases h
  · rename_i e st hx
    simp only [Option.some.injEq] at h; subst h
    obtain ⟨h1, h2⟩ := xLoop_Q hk allow token f _ _ hst hx
    refine ⟨h1, fun hn => ?_⟩
    have := h2 hn
    cases e <;> exact this
  · rename_i st hx
    simp only [Option.some.injEq] at h; subst h
    obtain ⟨h1, h2⟩ := xLoop_Q hk allow token f _ _ hst hx
    refine ⟨h1, fun hn => ?_⟩
    have h2 : XQ P n st := h2 hn
    refine ⟨h2.lexer, fun t ht => ?_⟩
    simp only [List.append_assoc, List.mem_append, List.mem_reverse] at ht
    rcases ht with ht | ht | ht
    · exact h2.out t ht
    · exact h2.popped t ht
    · exact hs t ht

end Verif.Props.Provenance
