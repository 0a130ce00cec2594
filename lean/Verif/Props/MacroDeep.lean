import Verif.Props.MacroCall
/-!
# C24, C27 with calls inside of expansions
-/

namespace Verif.Props.MacroDeep
open Verif.Pre Verif.Pre.Spec Verif.Props.Macros Verif.Props.MacroArgs

/-! ### From kinds and texts to tokens -/

theorem balanced_of {ks : List KT} (h : BalancedK ks) : ∀ ts : List Tok, ts.map ofTok = ks → Balanced ts := by
  induction h with
  | nil => intro ts h; rw [List.map_eq_nil_iff] at h; subst h; exact .nil
  | tok h1 h2 _ ih =>
    intro ts h
    obtain ⟨t, us, rfl, rfl, hu⟩ := List.map_eq_cons_iff.1 h
    exact .tok h1 h2 (ih us hu)
  | group h1 h2 _ _ ih1 ih2 =>
    intro ts h
    rw [List.cons_append] at h
    obtain ⟨l, us, rfl, rfl, hu⟩ := List.map_eq_cons_iff.1 h
    obtain ⟨a, b, rfl, ha, hb⟩ := List.map_eq_append_iff.1 hu
    obtain ⟨r, c, rfl, rfl, hc⟩ := List.map_eq_cons_iff.1 hb
    exact .group h1 h2 (ih1 a ha) (ih2 c hc)

theorem argument_of {ks : List KT} (h : ArgumentK ks) : ∀ ts : List Tok, ts.map ofTok = ks → Argument ts := by
  induction h with
  | nil => intro ts h; rw [List.map_eq_nil_iff] at h; subst h; exact .nil
  | tok h1 h2 h3 _ ih =>
    intro ts h
    obtain ⟨t, us, rfl, rfl, hu⟩ := List.map_eq_cons_iff.1 h
    exact .tok h1 h2 h3 (ih us hu)
  | group h1 h2 hb0 _ ih =>
    intro ts h
    rw [List.cons_append] at h
    obtain ⟨l, us, rfl, rfl, hu⟩ := List.map_eq_cons_iff.1 h
    obtain ⟨a, b, rfl, ha, hb⟩ := List.map_eq_append_iff.1 hu
    obtain ⟨r, c, rfl, rfl, hc⟩ := List.map_eq_cons_iff.1 hb
    exact .group h1 h2 (balanced_of hb0 a ha) (ih c hc)

theorem separated_of {aks : List (List KT)} {ks : List KT} (h : SeparatedK aks ks) : ∀ ts : List Tok, ts.map ofTok = ks →
    ∃ as, as.map (List.map ofTok) = aks ∧ Separated as ts := by
  induction h with
  | one => intro ts h; exact ⟨[ts], by rw [← h]; rfl, .one⟩
  | cons h1 _ ih =>
    intro ts h
    obtain ⟨a, b, rfl, ha, hb⟩ := List.map_eq_append_iff.1 h
    obtain ⟨c, us, rfl, rfl, hc⟩ := List.map_eq_cons_iff.1 hb
    obtain ⟨as, h2, h3⟩ := ih us hc
    exact ⟨a :: as, by simp [ha, h2], .cons h1 h3⟩

theorem given_of {aks : List (List KT)} {as : List (List Tok)} (h : as.map (List.map ofTok) = aks) (params : List Int) (n : Nat) :
    (given params as n).map ofTok = givenK params aks n := by
  subst h
  unfold given givenK
  rw [List.getD_eq_getElem?_getD, List.getD_eq_getElem?_getD, List.getElem?_map]
  cases as[((params[n]?).getD 0).toNat]? <;> rfl

theorem result_of {aks : List (List KT)} {as : List (List Tok)} (h : as.map (List.map ofTok) = aks) (params : List Int) {p : Piece}
    (hq : ∀ a b c n, p = .quoted a b c n → (givenK params aks n).length ≤ 1) :
    p.result (given params as) = p.resultK (givenK params aks) := by
  cases p with
  | plain r => rfl
  | escaped a b x => rfl
  | param a b n => exact given_of h params n
  | quoted a b c n =>
    have h1 := hq a b c n rfl
    simp only [Piece.result, Piece.resultK, ← given_of h params n]
    rw [← given_of h params n, List.length_map] at h1
    cases he : given params as n with
    | nil => rfl
    | cons t ts =>
      rw [he] at h1
      cases ts with
      | nil => simp [quotedText, ofTok]
      | cons u us => simp at h1

/-! ### Everything stays on one line -/

/-- The token is on line `L`. -/
def OnLine (L : Nat) (t : Tok) : Prop := t.sym.range.s.line = L ∧ t.sym.range.e.line = L

/-- The token is on line `L`, not before the one it follows; `O` says where it may come from. -/
def Good (L : Nat) (O : Option Rng → Str → Prop) (t : Tok) : Prop := OnLine L t ∧ 0 ≤ t.sym.delta.col ∧ O t.orig t.text

def GoodQ (L : Nat) (O : Option Rng → Str → Prop) (q : QTok) : Prop := Good L O q.tok ∧ 0 ≤ q.delta.col

theorem good_body {L : Nat} {O : Option Rng → Str → Prop} (hO : ∀ x, O none x) : ∀ (body : List RSym) (prev : Rng), prev.e.line = L →
    (∀ r ∈ body, r.delta.line = 0 ∧ 0 ≤ r.delta.col) → ∀ s ∈ bodySyms prev body, Good L O s.tok := by
  intro body
  induction body with
  | nil => intro prev _ _ s hs; simp [bodySyms] at hs
  | cons r body ih =>
    intro prev hp hr s hs
    have h0 : (r.toSym prev).range.e.line = L := by
      simp only [RSym.toSym, hp, (hr r (by simp)).1]; simp
    simp only [bodySyms, List.mem_cons] at hs
    rcases hs with rfl | hs
    · exact ⟨⟨hp, h0⟩, (hr r (by simp)).2, hO _⟩
    · exact ih _ h0 (fun r hr' => hr r (by simp [hr'])) s hs

theorem good_nonMacro {L : Nat} {O : Option Rng → Str → Prop} (hO : ∀ x, O none x) {m : Macro} {delta : Delta} (hd : 0 ≤ delta.col) {prev : Rng} (hp : prev.e.line = L)
    (hm : OneLine m) : ∀ q ∈ expandNonMacro m delta prev, GoodQ L O q := by
  have h0 : ∀ q ∈ bodyQueue delta (bodySyms prev m.body), GoodQ L O q := by
    have := good_body hO m.body prev hp hm
    cases hb : bodySyms prev m.body with
    | nil => intro q hq; simp [bodyQueue] at hq
    | cons s ss =>
      rw [hb] at this
      intro q hq
      simp only [bodyQueue, List.mem_cons, List.mem_map] at hq
      rcases hq with rfl | ⟨s', hs', rfl⟩
      · exact ⟨this s (by simp), hd⟩
      · exact ⟨this s' (by simp [hs']), (this s' (by simp [hs'])).2.1⟩
  intro q hq
  refine h0 q ?_
  unfold expandNonMacro dropLastNewline at hq
  split at hq
  · split at hq
    · exact List.dropLast_subset _ hq
    · exact hq
  · exact hq

/-- A token of an argument in the place of a parameter. -/
def placed (depth : Nat) (t : Tok) : Tok := if t.orig = none ∧ depth = 0 then { t with orig := some t.sym.range } else t

/-- What holds of the local variables of `expand_macro`. -/
def GoodM (L : Nat) (O : Option Rng → Str → Prop) (st : MSt) : Prop := (∀ q ∈ st.ctx, GoodQ L O q) ∧ ∀ d, st.stringize = some d → 0 ≤ d.col

theorem good_step {L : Nat} {O : Option Rng → Str → Prop} (hO : ∀ x, O none x) {args : Nat → List Tok} {m : Macro} {symbol : Sym} {delta : Delta} (hdelta : 0 ≤ delta.col)
    {depth i : Nat} {child : Sym} {st st' : MSt} (hs : symbol.range.s.line = L) (hsd : 0 ≤ symbol.delta.col) (hargs : ∀ n, ∀ t ∈ args n, Good L O (placed depth t))
    (hc : Good L O child.tok) (h0 : GoodM L O st) (h : bodyStep args m symbol delta depth i child st = some st') : GoodM L O st' := by
  have add : ∀ (d : Delta), 0 ≤ d.col → ∀ q ∈ st.ctx ++ [(⟨child.tok, d⟩ : QTok)], GoodQ L O q := by
    intro d hd q hq
    simp only [List.mem_append, List.mem_singleton] at hq
    rcases hq with hq | rfl
    · exact h0.1 q hq
    · exact ⟨hc, hd⟩
  have hcd : 0 ≤ child.delta.col := hc.2.1
  unfold bodyStep at h
  split at h
  · injection h with h; subst h
    refine ⟨?_, h0.2⟩
    dsimp only
    split
    · exact add _ hcd
    · exact h0.1
  · injection h with h; subst h
    exact ⟨add _ hcd, fun d hd => by simp only [Option.some.injEq] at hd; subst hd; exact hcd⟩
  · split at h
    · unfold substParam at h
      split at h
      · exact absurd h (by simp)
      rename_i percent hpercent
      have hpc : 0 ≤ percent.delta.col := (h0.1 percent (List.mem_of_getLast? hpercent)).2
      split at h
      · exact absurd h (by simp)
      split at h
      · exact absurd h (by simp)
      split at h
      · exact absurd h (by simp)
      split at h
      · exact absurd h (by simp)
      dsimp only at h
      split at h
      · rename_i d hd
        injection h with h; subst h
        refine ⟨?_, fun _ hd => nomatch hd⟩
        intro q hq
        simp only [List.mem_append, List.mem_singleton] at hq
        rcases hq with hq | rfl
        · exact h0.1 q (List.dropLast_subset _ (List.dropLast_subset _ hq))
        · have : 0 ≤ (if i = 2 then symbol.delta else d).col := by
            split
            · exact hsd
            · exact h0.2 d hd
          exact ⟨⟨⟨hs, hs⟩, this, hO _⟩, this⟩
      · injection h with h; subst h
        refine ⟨?_, fun _ hd => nomatch hd⟩
        intro q hq
        simp only [List.mem_append, List.mem_mapIdx] at hq
        rcases hq with hq | ⟨j, hj, rfl⟩
        · exact h0.1 q (List.dropLast_subset _ hq)
        · have hg := hargs _ _ (List.getElem_mem hj)
          refine ⟨hg, ?_⟩
          dsimp only
          split
          · exact hsd
          split
          · exact hpc
          · have := hg.2.1
            unfold placed at this
            split at this <;> exact this
    · injection h with h; subst h
      exact ⟨add _ hcd, h0.2⟩
  · split at h
    · injection h with h; subst h; exact h0
    · injection h with h; subst h
      refine ⟨add _ ?_, fun _ hd => nomatch hd⟩
      split
      · exact hdelta
      · exact hcd

theorem good_loop {L : Nat} {O : Option Rng → Str → Prop} (hO : ∀ x, O none x) {args : Nat → List Tok} {m : Macro} {symbol : Sym} {delta : Delta} (hdelta : 0 ≤ delta.col)
    {depth : Nat} (hs : symbol.range.s.line = L) (hsd : 0 ≤ symbol.delta.col) (hargs : ∀ n, ∀ t ∈ args n, Good L O (placed depth t)) :
    ∀ (cs : List Sym) (i : Nat) (st st' : MSt), (∀ c ∈ cs, Good L O c.tok) → GoodM L O st → bodyLoop args m symbol delta depth i cs st = some st' → GoodM L O st' := by
  intro cs
  induction cs with
  | nil => intro i st st' _ h0 h; simp only [bodyLoop, Option.some.injEq] at h; subst h; exact h0
  | cons c cs ih =>
    intro i st st' hc h0 h
    simp only [bodyLoop] at h
    split at h
    · exact absurd h (by simp)
    · rename_i st1 h1
      exact ih _ _ _ (fun c hc' => hc c (by simp [hc'])) (good_step hO hdelta hs hsd hargs (hc c (by simp)) h0 h1) h

theorem good_macro {L : Nat} {O : Option Rng → Str → Prop} (hO : ∀ x, O none x) {args : Nat → List Tok} {m : Macro} {symbol : Sym} {delta : Delta} (hdelta : 0 ≤ delta.col)
    {depth : Nat} {q : List QTok} (hs : symbol.range.s.line = L) (he : symbol.range.e.line = L) (hsd : 0 ≤ symbol.delta.col)
    (hargs : ∀ n, ∀ t ∈ args n, Good L O (placed depth t)) (hm : OneLine m) (h : expandMacro args m symbol delta depth = some q) : ∀ x ∈ q, GoodQ L O x := by
  unfold expandMacro at h
  rw [Option.map_eq_some_iff] at h
  obtain ⟨st, h1, rfl⟩ := h
  exact (good_loop hO hdelta hs hsd hargs _ _ _ _ (good_body hO m.body symbol.range he hm) ⟨by simp, fun _ hd => by simp at hd⟩ h1).1

/-! ### Arguments from the tokens of an expansion -/

theorem collect_ctx_call (line nb : Nat) (l r : QTok) (as : List (List Tok)) (mid cur : List QTok) (popped : List Tok) (lexer : List Sym) (hl : l.tok.kind = .lparen)
    (hline : l.tok.sym.range.s.line = line) (hr : r.tok.kind = .rparen) (hs : Separated as (mid.map (·.tok))) (hlen : as.length ≤ nb)
    (ha : ∀ (i : Nat) (a : List Tok), as[i]? = some a → Argument a ∨ (i + 1 = nb ∧ Balanced a)) :
    ∃ args n, collectArguments ⟨l :: (mid ++ r :: cur), popped, lexer⟩ line nb = (⟨cur, popped, lexer⟩, some (args, n)) ∧ ∀ i, args i = as.getD i [] := by
  have hopen : scanOpen line [] (Src.avail ⟨l :: (mid ++ r :: cur), popped, lexer⟩) = .found 1 l.tok.sym.range.s.char := by
    simp only [Src.avail, List.cons_append, List.map_cons, scanOpen, hl, if_true, hline, ne_eq, not_true_eq_false, if_false, List.length_nil]
  have hdrop : List.drop 1 (Src.avail ⟨l :: (mid ++ r :: cur), popped, lexer⟩) =
      mid.map (·.tok) ++ r.tok :: (cur.map (·.tok) ++ popped ++ lexer.map Sym.tok) := by
    simp [Src.avail]
  have hscan := scan_separated nb hs 0 (fun _ => []) 0 r.tok (cur.map (·.tok) ++ popped ++ lexer.map Sym.tok) hr (by omega) (fun i a h => by
    rcases ha i a h with h | ⟨h, h'⟩
    · exact Or.inl h
    · exact Or.inr ⟨by omega, h'⟩)
  unfold collectArguments
  rw [hopen]
  dsimp only
  rw [hdrop, hscan]
  refine ⟨fun i => as.getD i [], r.tok.sym.range.e.char - l.tok.sym.range.s.char, ?_, fun _ => rfl⟩
  have e1 : ∀ k, (1 + (0 + k + 1)) = (k + 1) + 1 := by intro k; omega
  simp only [Prod.mk.injEq, Option.some.injEq]
  refine ⟨?_, ?_, trivial⟩
  · simp only [Src.take, List.length_map, e1, Src.mk.injEq, List.drop_succ_cons, List.length_cons, List.length_append]
    refine ⟨?_, ?_, ?_⟩
    · rw [← List.drop_drop, List.drop_left]; rfl
    · rw [show mid.length + 1 + 1 - (mid.length + (cur.length + 1) + 1) = 0 by omega]; rfl
    · rw [show mid.length + 1 + 1 - (mid.length + (cur.length + 1) + 1) - popped.length = 0 by omega]; rfl
  · funext i; simp

theorem holds_append {ks1 ks2 : List KT} : ∀ {q : List QTok} {k : KT}, Holds q (ks1 ++ k :: ks2) → k.1 ≠ .newline →
    ∃ q1 a cur, q = q1 ++ a :: cur ∧ q1.map ofQ = ks1 ∧ ofQ a = k ∧ Holds cur ks2 := by
  induction ks1 with
  | nil =>
    intro q k h hk
    rcases holds_cons h with ⟨a, cur, rfl, h1, h2⟩ | ⟨_, h1, _⟩
    · exact ⟨[], a, cur, rfl, rfl, h1, h2⟩
    · exact absurd h1 hk
  | cons c ks1 ih =>
    intro q k h hk
    rcases holds_cons h with ⟨a, cur, rfl, h1, h2⟩ | ⟨_, _, h2⟩
    · obtain ⟨q1, b, cur', rfl, h3, h4, h5⟩ := ih h2 hk
      exact ⟨a :: q1, b, cur', rfl, by simp [h1, h3], h4, h5⟩
    · simp at h2

/-! ### Running a context -/

theorem leads_kind {macros : Macros} {k : Kind} {x : Str} (h : Leads macros k x) : ¬ Blank k := by
  cases h with
  | stays h1 _ _ => exact h1
  | body _ _ _ _ => intro h; simp [Blank] at h

theorem dropped_blank {k : Kind} : Dropped k ↔ Blank k := by
  unfold Blank
  cases k <;> simp [Dropped]

/-- What is known of a token an expansion leaves. -/
def Out (macros : Macros) (O : Option Rng → Str → Prop) (t : Tok) : Prop := (t.kind = .ident → macros t.text = none) ∧ 0 ≤ t.sym.delta.col ∧ O t.orig t.text

theorem step_write (macros : Macros) (allow : Bool) (token : Tok) (q : QTok) (cur : List QTok) (rest : List (List QTok)) (st : XSt)
    (h1 : q.tok.kind ≠ .ident) (h2 : ¬ Blank q.tok.kind) :
    ∃ t, ofTok t = ofQ q ∧ (t.orig = q.tok.orig ∨ t.orig = none) ∧ (t.sym.delta = q.delta ∨ t.sym.delta = token.sym.delta) ∧
      xStep macros allow token (q :: cur) rest st = .continue_ { st with ctxs := cur :: rest, out := st.out ++ [t] } := by
  unfold Blank at h2
  unfold xStep
  dsimp only
  split
  · rename_i h; exact absurd h h1
  · refine ⟨_, ?_, ?_, ?_, rfl⟩
    · rfl
    · exact .inr rfl
    · exact .inr rfl
  · refine ⟨_, ?_, ?_, ?_, rfl⟩
    · rfl
    · exact .inr rfl
    · exact .inr rfl
  · rename_i h; exact absurd (by simp [h]) h2
  · rename_i h; exact absurd (by simp [h]) h2
  · rename_i h; exact absurd (by simp [h]) h2
  · rename_i h; exact absurd (by simp [h]) h2
  · refine ⟨_, ?_, ?_, ?_, rfl⟩
    · rfl
    · exact .inl rfl
    · exact .inl rfl

/-- What running one context, which is not the outermost one, to its end gives. -/
structure Ran (macros : Macros) (allow : Bool) (token : Tok) (O : Option Rng → Str → Prop) (top : List QTok) (rest : List (List QTok)) (st : XSt) (r : List KT)
    (n : Nat) (out : List Tok) : Prop where
  result : out.map ofTok = r
  good : ∀ t ∈ out, Out macros O t
  first : ∀ q cur, top = q :: cur → q.delta = token.sym.delta → Leads macros q.tok.kind q.tok.text →
    ∃ t ts, out = t :: ts ∧ t.sym.delta = token.sym.delta ∧ t.text ≠ []
  run : ∀ fuel, xLoop macros allow token (n + fuel) st = xLoop macros allow token fuel { st with ctxs := rest, out := st.out ++ out }

theorem deep_run (macros : Macros) (allow : Bool) (token : Tok) (htok : 0 ≤ token.sym.delta.col) (L : Nat) {O : Option Rng → Str → Prop} (hO : ∀ x, O none x)
    {d : Nat} {ks r : List KT} (h : Deep macros d ks r) :
    (allow = true ∨ ∀ k ∈ r, k.1 ≠ .ident) →
    ∀ (top : List QTok) (rest : List (List QTok)) (st : XSt), Holds top ks → (∀ q ∈ top, GoodQ L O q) → rest ≠ [] → rest.length + 1 + d < 6 → st.ctxs = top :: rest →
    ∃ n out, Ran macros allow token O top rest st r n out := by
  have hnil : ∀ (rest : List (List QTok)) (st : XSt), rest.length + 1 < 6 → st.ctxs = [] :: rest → ∃ n out, Ran macros allow token O [] rest st [] n out := by
    intro rest st hd hst
    refine ⟨1, [], rfl, by simp, fun q cur h => by simp at h, fun fuel => ?_⟩
    rw [Nat.add_comm 1 fuel]
    simp only [xLoop, hst, hd, if_true, xStep, List.append_nil]
  induction h with
  | nil =>
    intro _ top rest st htop _ _ hd hst
    have : top = [] := by
      rcases htop with htop | ⟨x, htop⟩
      · exact List.map_eq_nil_iff.1 htop
      · simp at htop
    subst this
    exact hnil rest st (by omega) hst
  | @use d x m ts b r h1 h2 hone _ _ ih1 ih2 =>
    intro ha top rest st htop hgood hne hd hst
    rcases holds_cons htop with ⟨q, cur, rfl, hq, hcur⟩ | ⟨_, hc, _⟩
    rotate_left; · exact absurd hc (by simp)
    have hk : q.tok.kind = .ident := congrArg Prod.fst hq
    have ht : q.tok.text = x := congrArg Prod.snd hq
    have hstep : xStep macros allow token (q :: cur) rest st = .continue_ { st with ctxs := expandNonMacro m token.sym.delta q.tok.sym.range :: cur :: rest } := by
      simp only [xStep, hk, ht, h1, h2]
    have hb : allow = true ∨ ∀ k ∈ b, k.1 ≠ .ident := ha.imp id (fun h k hkb => h k (by simp [hkb]))
    have hr : allow = true ∨ ∀ k ∈ r, k.1 ≠ .ident := ha.imp id (fun h k hkb => h k (by simp [hkb]))
    obtain ⟨n1, o1, e1, g1, l1, f1⟩ := ih1 hb (expandNonMacro m token.sym.delta q.tok.sym.range) (cur :: rest)
      { st with ctxs := expandNonMacro m token.sym.delta q.tok.sym.range :: cur :: rest }
      (holds_body m _ _) (good_nonMacro hO htok (hgood q (by simp)).1.1.2 hone) (by simp) (by simp only [List.length_cons]; omega) rfl
    obtain ⟨n2, o2, e2, g2, -, f2⟩ := ih2 hr cur rest { st with ctxs := cur :: rest, out := st.out ++ o1 } hcur (fun q hq => hgood q (by simp [hq])) hne hd rfl
    refine ⟨1 + n1 + n2, o1 ++ o2, by rw [List.map_append, e1, e2], ?_, ?_, fun fuel => ?_⟩
    · intro t htm
      rcases List.mem_append.1 htm with htm | htm
      · exact g1 t htm
      · exact g2 t htm
    · intro q' cur' e hdel hlead
      cases e
      rw [hk, ht] at hlead
      cases hlead with
      | stays _ _ h => rw [h rfl] at h1; cases h1
      | @body _ m' r0 rs hm' hbody _ hl =>
        rw [h1] at hm'; cases hm'
        obtain ⟨y, ys, y1, y2, y3, y4⟩ := Verif.Props.Offsets.expandNonMacro_head hbody (fun hd => leads_kind hl (dropped_blank.1 hd)) token.sym.delta q.tok.sym.range
        obtain ⟨t, ts', rfl, t1, t2⟩ := l1 y ys y1 y2 (by rw [y3, y4]; exact hl)
        exact ⟨t, ts' ++ o2, rfl, t1, t2⟩
    · have hlt : rest.length + 1 < 6 := by omega
      rw [show 1 + n1 + n2 + fuel = (n1 + (n2 + fuel)) + 1 from by omega]
      simp only [xLoop, hst, hlt, if_true, hstep]
      rw [f1, f2]
      simp only [List.append_assoc]
  | @call d x m params o c mid aks pieces ts b r h1 h2 hone ho hc hsep henough hargs hmade hquoted _ _ ih1 ih2 =>
    intro ha top rest st htop hgood hne hd hst
    rcases holds_cons htop with ⟨q, cur0, rfl, hq, hcur0⟩ | ⟨_, hc, _⟩
    rotate_left; · exact absurd hc (by simp)
    have hk : q.tok.kind = .ident := congrArg Prod.fst hq
    have ht : q.tok.text = x := congrArg Prod.snd hq
    rcases holds_cons hcur0 with ⟨l, cur1, rfl, hl, hcur1⟩ | ⟨_, hc, _⟩
    rotate_left; · rw [ho] at hc; exact absurd hc (by simp)
    obtain ⟨qmid, e, cur, rfl, hmid, he, hcur⟩ := holds_append hcur1 (by rw [hc]; simp)
    have hqL := (hgood q (by simp)).1
    have hlL := (hgood l (by simp)).1
    obtain ⟨as, has, hsep'⟩ := separated_of hsep (qmid.map (·.tok)) (by rw [← hmid, List.map_map]; rfl)
    have hlen : as.length = aks.length := by rw [← has, List.length_map]
    obtain ⟨cargs, n0, hcoll, hcargs⟩ := collect_ctx_call q.tok.sym.range.e.line m.nbParams l e as qmid cur st.popped st.lexer
      (by have := congrArg Prod.fst hl; exact this.trans ho) (by rw [hlL.1.1, hqL.1.2]) (by have := congrArg Prod.fst he; exact this.trans hc) hsep'
      (by omega) (by
        intro i a hi
        have : aks[i]? = some (a.map ofTok) := by rw [← has, List.getElem?_map, hi]; rfl
        rcases hargs i _ this with h | ⟨h, h'⟩
        · exact .inl (argument_of h a rfl)
        · exact .inr ⟨h, balanced_of h' a rfl⟩)
    have hgiven : (fun n => cargs (position params n)) = given params as := by
      funext n; rw [hcargs]; rfl
    obtain ⟨hwf, fin, hbody, hfin⟩ := hmade
    obtain ⟨nq, hq1, hq2⟩ := substitution cargs m params h2 q.tok.sym token.sym.delta rest.length pieces fin hwf hbody hfin
    rw [hgiven] at hq1
    have hres : pieces.flatMap (Piece.result (given params as)) = pieces.flatMap (Piece.resultK (givenK params aks)) := by
      rw [List.flatMap_def, List.flatMap_def]
      congr 1
      apply List.map_congr_left
      intro p hp
      exact result_of has params (fun a b c n hpe => hquoted a b c n (hpe ▸ hp))
    rw [hres] at hq1
    have hdepth : rest.length ≠ 0 := by
      intro h0; exact hne (List.length_eq_zero_iff.1 h0)
    have hcargsL : ∀ n, ∀ t ∈ cargs n, Good L O (placed rest.length t) := by
      intro n t htn
      rw [hcargs, List.getD_eq_getElem?_getD] at htn
      cases hg : as[n]? with
      | none => rw [hg] at htn; simp at htn
      | some a =>
        rw [hg] at htn
        have hmem := Verif.Props.Offsets.separated_mem hsep' a (List.mem_of_getElem? hg) t htn
        obtain ⟨q', hq', rfl⟩ := List.mem_map.1 hmem
        unfold placed
        rw [if_neg (fun h => hdepth h.2)]
        exact (hgood q' (by simp [hq'])).1
    have hstep : xStep macros allow token (q :: l :: (qmid ++ e :: cur)) rest st = .continue_ { st with ctxs := nq :: cur :: rest } := by
      simp only [xStep, hk, ht, h1, h2, hcoll, hq2, hne, if_false]
    have hb : allow = true ∨ ∀ k ∈ b, k.1 ≠ .ident := ha.imp id (fun h k hkb => h k (by simp [hkb]))
    have hr : allow = true ∨ ∀ k ∈ r, k.1 ≠ .ident := ha.imp id (fun h k hkb => h k (by simp [hkb]))
    obtain ⟨n1, o1, e1, g1, l1, f1⟩ := ih1 hb nq (cur :: rest) { st with ctxs := nq :: cur :: rest } (.inl hq1)
      (good_macro hO htok hqL.1.1 hqL.1.2 hqL.2.1 hcargsL hone hq2) (by simp) (by simp only [List.length_cons]; omega) rfl
    obtain ⟨n2, o2, e2, g2, -, f2⟩ := ih2 hr cur rest { st with ctxs := cur :: rest, out := st.out ++ o1 } hcur (fun q hq => hgood q (by simp [hq])) hne hd rfl
    refine ⟨1 + n1 + n2, o1 ++ o2, by rw [List.map_append, e1, e2], ?_, ?_, fun fuel => ?_⟩
    · intro t htm
      rcases List.mem_append.1 htm with htm | htm
      · exact g1 t htm
      · exact g2 t htm
    · intro q' cur' e hdel hlead
      cases e
      rw [hk, ht] at hlead
      cases hlead with
      | stays _ _ h => rw [h rfl] at h1; cases h1
      | @body _ m' r0 rs hm' hbody' hord hl =>
        rw [h1] at hm'; cases hm'
        obtain ⟨o1', o2'⟩ := hord (by rw [h2]; simp)
        have hfirst : ∃ ps, pieces = .plain r0 :: ps := by
          cases pieces with
          | nil =>
            rcases hfin with ⟨nl, hnl, rfl⟩ | ⟨rfl, -⟩
            · rw [hbody'] at hbody
              simp only [List.flatMap_nil, List.nil_append, List.cons.injEq] at hbody
              rw [hbody.1, hnl] at hl
              exact absurd (.inl rfl) (leads_kind hl)
            · rw [hbody'] at hbody; simp at hbody
          | cons p ps =>
            have hp := hwf p (by simp)
            rw [hbody', List.flatMap_cons] at hbody
            cases p with
            | plain r1 =>
              simp only [Piece.tokens, List.cons_append, List.cons.injEq] at hbody
              exact ⟨ps, by rw [hbody.1]⟩
            | param a b n =>
              simp only [Piece.tokens, List.cons_append, List.cons.injEq] at hbody
              rw [hbody.1] at o1'
              exact absurd hp.1 o1'.1
            | quoted a b c n =>
              simp only [Piece.tokens, List.cons_append, List.cons.injEq] at hbody
              rw [hbody.1] at o1'
              exact absurd hp.1 o1'.2
            | escaped a b c =>
              simp only [Piece.tokens, List.cons_append, List.cons.injEq] at hbody
              rw [hbody.1] at o1'
              exact absurd hp.1 o1'.1
        obtain ⟨ps, rfl⟩ := hfirst
        obtain ⟨y, ys, y1, y2, y3⟩ := Verif.Props.Offsets.expandMacro_head (B := Leads macros) (fun _ _ hb hd => leads_kind hb (dropped_blank.1 hd))
          (fun _ hx => .stays (by simp [Blank]) hx (fun e => nomatch e)) cargs m params h2 q.tok.sym token.sym.delta rest.length _ fin hwf hbody hfin ⟨o2', hl⟩ (.inr ⟨_, _, rfl⟩)
        rw [hq2] at y1
        obtain ⟨t, ts', rfl, t1, t2⟩ := l1 y ys (Option.some.inj y1) y2 y3
        exact ⟨t, ts' ++ o2, rfl, t1, t2⟩
    · have hlt : rest.length + 1 < 6 := by omega
      rw [show 1 + n1 + n2 + fuel = (n1 + (n2 + fuel)) + 1 from by omega]
      simp only [xLoop, hst, hlt, if_true, hstep]
      rw [f1, f2]
      simp only [List.append_assoc]
  | @undefined d x ts r h1 _ ih =>
    intro ha top rest st htop hgood hne hd hst
    rcases holds_cons htop with ⟨q, cur, rfl, hq, hcur⟩ | ⟨_, hc, _⟩
    rotate_left; · exact absurd hc (by simp)
    have hk : q.tok.kind = .ident := congrArg Prod.fst hq
    have ht : q.tok.text = x := congrArg Prod.snd hq
    have hall : allow = true := by
      rcases ha with ha | ha
      · exact ha
      · exact absurd rfl (ha (.ident, x) (by simp))
    have hstep : xStep macros allow token (q :: cur) rest st = .continue_ { st with ctxs := cur :: rest, out := st.out ++ [q.tok.setDelta q.delta] } := by
      simp only [xStep, hk, ht, h1, hall, if_true]
    obtain ⟨n2, o2, e2, g2, -, f2⟩ := ih (Or.inl hall) cur rest { st with ctxs := cur :: rest, out := st.out ++ [q.tok.setDelta q.delta] } hcur
      (fun q hq => hgood q (by simp [hq])) hne hd rfl
    refine ⟨1 + n2, q.tok.setDelta q.delta :: o2, by rw [List.map_cons, e2]; exact congrArg (· :: r) hq, ?_, ?_, fun fuel => ?_⟩
    · intro t htm
      rcases List.mem_cons.1 htm with rfl | htm
      · exact ⟨fun _ => by show macros q.tok.text = none; rw [ht]; exact h1, (hgood q (by simp)).2, (hgood q (by simp)).1.2.2⟩
      · exact g2 t htm
    · intro q' cur' e hdel hlead
      cases e
      refine ⟨_, _, rfl, hdel, ?_⟩
      show q.tok.text ≠ []
      rw [hk] at hlead
      cases hlead with
      | stays _ h _ => exact h
      | body h _ _ _ => rw [ht, h1] at h; cases h
    · have hlt : rest.length + 1 < 6 := by omega
      rw [show 1 + n2 + fuel = (n2 + fuel) + 1 from by omega]
      simp only [xLoop, hst, hlt, if_true, hstep]
      rw [f2]
      simp only [List.append_assoc, List.singleton_append]
  | @blank d k x ts r h1 h2 ih =>
    intro ha top rest st htop hgood hne hd hst
    rcases holds_cons htop with ⟨q, cur, rfl, hq, hcur⟩ | ⟨rfl, hc, rfl⟩
    rotate_left
    · exact ih ha [] rest st (Or.inl rfl) (by simp) hne hd hst
    have hk : q.tok.kind = k := congrArg Prod.fst hq
    have hstep : xStep macros allow token (q :: cur) rest st = .continue_ { st with ctxs := cur :: rest } := by
      have h1' := h1
      unfold Blank at h1'
      rcases h1' with h1' | h1' | h1' | h1' <;> subst h1' <;> simp only [xStep, hk]
    obtain ⟨n2, o2, e2, g2, -, f2⟩ := ih ha cur rest { st with ctxs := cur :: rest } hcur (fun q hq => hgood q (by simp [hq])) hne hd rfl
    refine ⟨1 + n2, o2, e2, g2, ?_, fun fuel => ?_⟩
    · intro q' cur' e hdel hlead
      cases e
      rw [hk] at hlead
      exact absurd h1 (leads_kind hlead)
    · have hlt : rest.length + 1 < 6 := by omega
      rw [show 1 + n2 + fuel = (n2 + fuel) + 1 from by omega]
      simp only [xLoop, hst, hlt, if_true, hstep]
      rw [f2]
  | @keep d k x ts r h1 h2 _ ih =>
    intro ha top rest st htop hgood hne hd hst
    rcases holds_cons htop with ⟨q, cur, rfl, hq, hcur⟩ | ⟨_, hc, _⟩
    rotate_left; · exact absurd (Or.inl hc) h2
    have hk : q.tok.kind = k := congrArg Prod.fst hq
    obtain ⟨t, ht, ho, hdl, hstep⟩ := step_write macros allow token q cur rest st (by rw [hk]; exact h1) (by rw [hk]; exact h2)
    have hr : allow = true ∨ ∀ k ∈ r, k.1 ≠ .ident := ha.imp id (fun h k hkb => h k (by simp [hkb]))
    obtain ⟨n2, o2, e2, g2, -, f2⟩ := ih hr cur rest { st with ctxs := cur :: rest, out := st.out ++ [t] } hcur (fun q hq => hgood q (by simp [hq])) hne hd rfl
    have htk : t.kind = q.tok.kind := congrArg Prod.fst ht
    have htt : t.text = q.tok.text := congrArg Prod.snd ht
    refine ⟨1 + n2, t :: o2, by rw [List.map_cons, e2, ht, hq], ?_, ?_, fun fuel => ?_⟩
    · intro t' htm
      rcases List.mem_cons.1 htm with rfl | htm
      · refine ⟨fun e => ?_, ?_, ?_⟩
        · rw [htk, hk] at e; exact absurd e h1
        · rcases hdl with h | h <;> rw [h]
          · exact (hgood q (by simp)).2
          · exact htok
        · rcases ho with h | h <;> rw [h]
          · rw [htt]; exact (hgood q (by simp)).1.2.2
          · exact hO _
      · exact g2 t' htm
    · intro q' cur' e hdel hlead
      cases e
      refine ⟨_, _, rfl, ?_, ?_⟩
      · rcases hdl with h | h <;> rw [h]
        exact hdel
      · rw [htt]
        rw [hk] at hlead
        cases hlead with
        | stays _ h _ => exact h
        | body _ _ _ _ => exact absurd rfl h1
    · have hlt : rest.length + 1 < 6 := by omega
      rw [show 1 + n2 + fuel = (n2 + fuel) + 1 from by omega]
      simp only [xLoop, hst, hlt, if_true, hstep]
      rw [f2]
      simp only [List.append_assoc, List.singleton_append]

/-! ### The theorems -/

/-- The expansion of a use of a macro without parameters, and where its tokens come from. -/
theorem use_run {ms : Macros} {allow : Bool} {s : Sym} {m : Macro} (hm : ms s.text = some m) (hp : m.params = none) (hs : s.kind = .ident)
    (hcol : 0 ≤ s.delta.col) {O : Option Rng → Str → Prop} (hO : ∀ x, O none x) (lexer : List Sym) (stack : List Tok) (disabled : List Macro) {d : Nat} {r : List KT} (hd : d ≤ 4)
    (h : Deep ms d [ofSym s] r) (ha : allow = true ∨ ∀ k ∈ r, k.1 ≠ .ident) :
    ∃ out, out.map ofTok = r ∧ (∀ t ∈ out, Out ms O t) ∧ (Leads ms .ident s.text → ∃ t ts, out = t :: ts ∧ t.sym.delta = s.delta ∧ t.text ≠ []) ∧
      ExpandsTo ms allow s.tok lexer stack disabled ⟨lexer, out ++ stack, disabled, .ok 0⟩ := by
  have hk : ofSym s = (.ident, s.text) := by simp [ofSym, hs]
  rw [hk] at h
  cases h with
  | @use d' _ m' _ b r' h1 h2 hone hb hr =>
    rw [hm] at h1; obtain rfl : m = m' := by simpa using h1
    cases hr
    rw [List.append_nil] at ha ⊢
    let q := expandNonMacro m s.delta s.range
    let st1 : XSt := ⟨[q, []], [], lexer, [], disabled, 0⟩
    have hstep : xStep ms allow s.tok [⟨s.tok, s.tok.sym.delta⟩] [] ⟨[[⟨s.tok, s.tok.sym.delta⟩]], [], lexer, [], disabled, 0⟩ = .continue_ st1 := by
      have hk' : s.tok.kind = .ident := hs
      have hm' : ms s.tok.text = some m := hm
      simp only [xStep, hk', hm', hp, st1, q]; rfl
    obtain ⟨n, out, g1, g2, g3, g4⟩ := deep_run ms allow s.tok hcol s.range.e.line hO hb ha q [[]] st1 (holds_body m _ _) (good_nonMacro hO hcol rfl hone) (by simp)
      (by simp only [List.length_singleton]; omega) rfl
    refine ⟨out, g1, g2, ?_, n + 3, fun j => ?_⟩
    · intro hlead
      cases hlead with
      | stays _ _ h => rw [h rfl] at hm; cases hm
      | @body _ m' r0 rs hm' hbody _ hl =>
        rw [hm] at hm'; cases hm'
        obtain ⟨y, ys, y1, y2, y3, y4⟩ := Verif.Props.Offsets.expandNonMacro_head hbody (fun hd => leads_kind hl (dropped_blank.1 hd)) s.delta s.range
        exact g3 y ys y1 y2 (by rw [y3, y4]; exact hl)
    · unfold expandIdentifier
      rw [show n + 3 + j = n + (j + 1 + 1) + 1 by omega]
      have hunfold : ∀ f, xLoop ms allow s.tok (f + 1) ⟨[[⟨s.tok, s.tok.sym.delta⟩]], [], lexer, [], disabled, 0⟩ = xLoop ms allow s.tok f st1 := by
        intro f
        conv => lhs; unfold xLoop
        simp only [List.length_nil, hstep]
        rfl
      rw [hunfold, g4]
      simp [xLoop, xStep, st1]
  | undefined h1 _ => rw [hm] at h1; simp at h1
  | blank h1 _ => simp [Blank] at h1
  | keep h1 _ _ => exact absurd rfl h1

/-- **C24 with calls in the definitions**: a use of a macro without parameters is replaced by its full expansion, in which macros with and without parameters are
expanded in turn, nested at most four deep. Nothing else changes, and no columns are counted for arguments. -/
theorem use_partial {ms : Macros} {allow : Bool} {s : Sym} {m : Macro} (hm : ms s.text = some m) (hp : m.params = none) (hs : s.kind = .ident)
    (hcol : 0 ≤ s.delta.col) (lexer : List Sym) (stack : List Tok) (disabled : List Macro) {d : Nat} {r : List KT} (hd : d ≤ 4)
    (h : Deep ms d [ofSym s] r) (ha : allow = true ∨ ∀ k ∈ r, k.1 ≠ .ident) :
    ∃ out, out.map ofTok = r ∧ ExpandsTo ms allow s.tok lexer stack disabled ⟨lexer, out ++ stack, disabled, .ok 0⟩ := by
  obtain ⟨out, h1, -, -, h2⟩ := use_run hm hp hs hcol (O := fun _ _ => True) (fun _ => trivial) lexer stack disabled hd h ha
  exact ⟨out, h1, h2⟩

/-- The expansion of a call, and where its tokens come from. -/
theorem call_run {ms : Macros} {allow : Bool} {s l e : Sym} {mid : List Sym} {m : Macro} {params : List Int} {as : List (List Tok)} {pieces : List Piece}
    (hs : s.kind = .ident) (hm : ms s.text = some m) (hp : m.params = some params) (hone : OneLine m) (hl : l.kind = .lparen) (he : e.kind = .rparen)
    (hsep : Separated as (mid.map Sym.tok)) (henough : as.length ≤ m.nbParams)
    (hargs : ∀ (i : Nat) (a : List Tok), as[i]? = some a → Argument a ∨ (i + 1 = m.nbParams ∧ Balanced a)) (hmade : MadeOf m params pieces)
    (hline : ∀ x ∈ s :: l :: mid, x.range.s.line = s.range.e.line ∧ x.range.e.line = s.range.e.line) (hcol : ∀ x ∈ s :: mid, 0 ≤ x.delta.col)
    {O : Option Rng → Str → Prop} (hO : ∀ x, O none x) (hO' : ∀ x ∈ mid, O (some x.range) x.text)
    (rest : List Sym) (stack : List Tok) (disabled : List Macro) {d : Nat} {r : List KT} (hd : d ≤ 3)
    (hf : Deep ms d (pieces.flatMap (Piece.result (given params as))) r) (ha : allow = true ∨ ∀ k ∈ r, k.1 ≠ .ident) :
    ∃ out, out.map ofTok = r ∧ (∀ t ∈ out, Out ms O t) ∧
      (Opens (Leads ms) (given params as) pieces → ∃ t ts, out = t :: ts ∧ t.sym.delta = s.delta ∧ t.text ≠ []) ∧
      ExpandsTo ms allow s.tok (l :: (mid ++ e :: rest)) stack disabled ⟨rest, out ++ stack, disabled, .ok (e.range.e.char - l.range.s.char)⟩ := by
  obtain ⟨hwf, fin, hbody, hfin⟩ := hmade
  obtain ⟨cargs, hcoll, hcargs⟩ := arguments_partial s.range.e.line m.nbParams l e as mid rest hl (hline l (by simp)).1 he hsep henough hargs
  have hgiven : (fun n => cargs (position params n)) = given params as := by
    funext n; rw [hcargs]; rfl
  obtain ⟨q, hq1, hq2⟩ := substitution cargs m params hp s s.delta 0 pieces fin hwf hbody hfin
  rw [hgiven] at hq1
  have hcargsL : ∀ n, ∀ t ∈ cargs n, Good s.range.e.line O (placed 0 t) := by
    intro n t htn
    rw [hcargs, List.getD_eq_getElem?_getD] at htn
    cases hg : as[n]? with
    | none => rw [hg] at htn; simp at htn
    | some a =>
      rw [hg] at htn
      have hmem := Verif.Props.Offsets.separated_mem hsep a (List.mem_of_getElem? hg) t htn
      obtain ⟨x, hx, rfl⟩ := List.mem_map.1 hmem
      exact ⟨hline x (by simp [hx]), hcol x (by simp [hx]), hO' x hx⟩
  let k := e.range.e.char - l.range.s.char
  let st1 : XSt := ⟨[q, []], [], rest, [], disabled, k⟩
  have hstep : xStep ms allow s.tok [⟨s.tok, s.tok.sym.delta⟩] [] ⟨[[⟨s.tok, s.tok.sym.delta⟩]], [], l :: mid ++ e :: rest, [], disabled, 0⟩ = .continue_ st1 := by
    have hk : s.tok.kind = .ident := hs
    have hmac : ms s.tok.text = some m := hm
    have hcoll' : collectArguments ⟨[], [], l :: mid ++ e :: rest⟩ s.tok.sym.range.e.line m.nbParams = (⟨[], [], rest⟩, some (cargs, k)) := hcoll
    have hq' : expandMacro cargs m s.tok.sym s.tok.sym.delta 0 = some q := hq2
    simp only [xStep, hk, hmac, hp, hcoll', List.length_nil, hq', if_true, Nat.zero_add, st1]
  obtain ⟨n, out, g1, g2, g3, g4⟩ := deep_run ms allow s.tok (hcol s (by simp)) s.range.e.line hO hf ha q [[]] st1 (.inl hq1)
    (good_macro hO (hcol s (by simp)) (hline s (by simp)).1 rfl (hcol s (by simp)) hcargsL hone hq2) (by simp) (by simp only [List.length_singleton]; omega) rfl
  refine ⟨out, g1, g2, ?_, n + 3, fun j => ?_⟩
  · intro hopen
    obtain ⟨y, ys, y1, y2, y3⟩ := Verif.Props.Offsets.expandMacro_head (B := Leads ms) (fun _ _ hb hd => leads_kind hb (dropped_blank.1 hd))
      (fun _ hx => .stays (by simp [Blank]) hx (fun e => nomatch e)) cargs m params hp s s.delta 0 pieces fin hwf hbody hfin (by rw [hgiven]; exact hopen) (.inl rfl)
    rw [hq2] at y1
    exact g3 y ys (Option.some.inj y1) y2 y3
  · unfold expandIdentifier
    rw [show n + 3 + j = n + (j + 1 + 1) + 1 by omega]
    have hunfold : ∀ f, xLoop ms allow s.tok (f + 1) ⟨[[⟨s.tok, s.tok.sym.delta⟩]], [], l :: (mid ++ e :: rest), [], disabled, 0⟩ = xLoop ms allow s.tok f st1 := by
      intro f
      conv => lhs; unfold xLoop
      simp only [List.length_nil]
      rw [← List.cons_append, hstep]
      rfl
    rw [hunfold, g4]
    simp [xLoop, xStep, st1, k]

/-- **C27 with calls in the definitions and in the arguments**: a call of a macro is replaced by the body of the macro with the arguments in the places of the
parameters, where macros with and without parameters are expanded in turn (at most three deep, C24). What follows the call is left as it is, and the columns counted
for the arguments are those from the opening to the closing parenthesis in the source, whatever is called in the expansion. -/
theorem call_partial {ms : Macros} {allow : Bool} {s l e : Sym} {mid : List Sym} {m : Macro} {params : List Int} {as : List (List Tok)} {pieces : List Piece}
    (hs : s.kind = .ident) (hm : ms s.text = some m) (hp : m.params = some params) (hone : OneLine m) (hl : l.kind = .lparen) (he : e.kind = .rparen)
    (hsep : Separated as (mid.map Sym.tok)) (henough : as.length ≤ m.nbParams)
    (hargs : ∀ (i : Nat) (a : List Tok), as[i]? = some a → Argument a ∨ (i + 1 = m.nbParams ∧ Balanced a)) (hmade : MadeOf m params pieces)
    (hline : ∀ x ∈ s :: l :: mid, x.range.s.line = s.range.e.line ∧ x.range.e.line = s.range.e.line) (hcol : ∀ x ∈ s :: mid, 0 ≤ x.delta.col)
    (rest : List Sym) (stack : List Tok) (disabled : List Macro) {d : Nat} {r : List KT} (hd : d ≤ 3)
    (hf : Deep ms d (pieces.flatMap (Piece.result (given params as))) r) (ha : allow = true ∨ ∀ k ∈ r, k.1 ≠ .ident) :
    ∃ out, out.map ofTok = r ∧
      ExpandsTo ms allow s.tok (l :: (mid ++ e :: rest)) stack disabled ⟨rest, out ++ stack, disabled, .ok (e.range.e.char - l.range.s.char)⟩ := by
  obtain ⟨out, h1, -, -, h2⟩ := call_run hs hm hp hone hl he hsep henough hargs hmade hline hcol (O := fun _ _ => True) (fun _ => trivial) (fun _ _ => trivial)
    rest stack disabled hd hf ha
  exact ⟨out, h1, h2⟩

/-! ### Examples -/

/-- `#define SQ(%1) (%1 * %1)`, `#define INC(%1) SQ(%1 + ONE)`, `#define ONE 1`, `#define NINE SQ(3)`. -/
def exSq : Macro := ⟨0, 0, some [-1, 0], 1, [bt .lparen "(", bt (.op .percent) "%", bt .intLit "1" (some 1), bt (.op .star) "*",
  bt (.op .percent) "%", bt .intLit "1" (some 1), bt .rparen ")", bt .newline]⟩
def exInc : Macro := ⟨0, 1, some [-1, 0], 1, [bt .ident "SQ", bt .lparen "(", bt (.op .percent) "%", bt .intLit "1" (some 1), bt (.op .plus) "+", bt .ident "ONE",
  bt .rparen ")", bt .newline]⟩
def exOne : Macro := ⟨0, 2, none, 0, [bt .intLit "1", bt .newline]⟩
def exNine : Macro := ⟨0, 3, none, 0, [bt .ident "SQ", bt .lparen "(", bt .intLit "3", bt .rparen ")", bt .newline]⟩
def exDeep : Macros := fun x =>
  if x = "SQ".toList then some exSq else if x = "INC".toList then some exInc else if x = "ONE".toList then some exOne
  else if x = "NINE".toList then some exNine else none

def prm : Piece := .param (bt (.op .percent) "%") (bt .intLit "1" (some 1)) 1
def sqPieces : List Piece := [.plain (bt .lparen "("), prm, .plain (bt (.op .star) "*"), prm, .plain (bt .rparen ")")]
def incPieces : List Piece := [.plain (bt .ident "SQ"), .plain (bt .lparen "("), prm, .plain (bt (.op .plus) "+"), .plain (bt .ident "ONE"), .plain (bt .rparen ")")]

theorem prm_wf : prm.WF [-1, 0] := ⟨rfl, rfl, rfl, 0, by decide, by decide, rfl⟩

theorem sq_made : MadeOf exSq [-1, 0] sqPieces := by
  refine ⟨?_, [bt .newline], rfl, .inl ⟨_, rfl, rfl⟩⟩
  intro p hp
  simp only [sqPieces, List.mem_cons, List.not_mem_nil, or_false] at hp
  rcases hp with rfl | rfl | rfl | rfl | rfl
  · exact ⟨by decide, by decide⟩
  · exact prm_wf
  · exact ⟨by decide, by decide⟩
  · exact prm_wf
  · exact ⟨by decide, by decide⟩

theorem inc_made : MadeOf exInc [-1, 0] incPieces := by
  refine ⟨?_, [bt .newline], rfl, .inl ⟨_, rfl, rfl⟩⟩
  intro p hp
  simp only [incPieces, List.mem_cons, List.not_mem_nil, or_false] at hp
  rcases hp with rfl | rfl | rfl | rfl | rfl | rfl
  · exact ⟨by decide, by decide⟩
  · exact ⟨by decide, by decide⟩
  · exact prm_wf
  · exact ⟨by decide, by decide⟩
  · exact ⟨by decide, by decide⟩
  · exact ⟨by decide, by decide⟩

def kA : KT := (.ident, "a".toList)
def kPlus : KT := (.op .plus, "+".toList)
def kStar : KT := (.op .star, "*".toList)
def kOne : KT := (.ident, "ONE".toList)
def k1 : KT := (.intLit, "1".toList)
def kL : KT := (.lparen, "(".toList)
def kR : KT := (.rparen, ")".toList)
def kSq : KT := (.ident, "SQ".toList)

theorem one_deep (d : Nat) {ts r : List KT} (h : Deep exDeep (d + 1) ts r) : Deep exDeep (d + 1) (kOne :: ts) ([k1] ++ r) :=
  .use (m := exOne) (by decide) rfl (by decide) (.keep (by decide) (by decide) (.blank (.inl rfl) .nil)) h

/-- Non-vacuity: `INC(a)` becomes `SQ(a + ONE)`, which is `(a + 1 * a + 1)`. -/
theorem inc_deep : Deep exDeep 2 (incPieces.flatMap (Piece.result (given [-1, 0] [[(tk .ident "a").tok]]))) [kL, kA, kPlus, k1, kStar, kA, kPlus, k1, kR] := by
  have e : incPieces.flatMap (Piece.result (given [-1, 0] [[(tk .ident "a").tok]])) = kSq :: kL :: ([kA, kPlus, kOne] ++ kR :: []) := rfl
  rw [e]
  refine .call (m := exSq) (params := [-1, 0]) (as := [[kA, kPlus, kOne]]) (pieces := sqPieces) (r := [])
    (b := [kL, kA, kPlus, k1, kStar, kA, kPlus, k1, kR]) (by decide) rfl (by decide) rfl rfl .one (by decide) ?_ sq_made ?_ ?_ .nil
  · intro i a hi
    cases i with
    | zero =>
      simp only [List.getElem?_cons_zero, Option.some.injEq] at hi
      subst hi
      exact .inl (.tok (by decide) (by decide) (by decide) (.tok (by decide) (by decide) (by decide) (.tok (by decide) (by decide) (by decide) .nil)))
    | succ i => simp at hi
  · intro h p l n hm
    simp [sqPieces, prm] at hm
  · have e2 : sqPieces.flatMap (Piece.resultK (givenK [-1, 0] [[kA, kPlus, kOne]])) = [kL, kA, kPlus, kOne, kStar, kA, kPlus, kOne, kR] := rfl
    rw [e2]
    refine .keep (by decide) (by decide) (.undefined (by decide) (.keep (by decide) (by decide) (one_deep 0 ?_)))
    exact .keep (by decide) (by decide) (.undefined (by decide) (.keep (by decide) (by decide) (one_deep 0 (.keep (by decide) (by decide) .nil))))

example (rest : List Sym) : ∃ out, out.map ofTok = [kL, kA, kPlus, k1, kStar, kA, kPlus, k1, kR] ∧
    ExpandsTo exDeep true (tk .ident "INC").tok (tk .lparen "(" :: ([tk .ident "a"] ++ tk .rparen ")" :: rest)) [] [] ⟨rest, out ++ [], [], .ok 0⟩ := by
  refine call_partial (m := exInc) (params := [-1, 0]) (as := [[(tk .ident "a").tok]]) rfl (by decide) rfl (by decide) rfl rfl .one (by decide) ?_ inc_made (by decide) (by decide)
    rest [] [] (d := 2) (by decide) inc_deep (.inl rfl)
  intro i a hi
  cases i with
  | zero =>
    simp only [List.getElem?_cons_zero, Option.some.injEq] at hi
    subst hi
    exact .inl (.tok (by decide) (by decide) (by decide) .nil)
  | succ i => simp at hi

/-- Non-vacuity: `NINE` becomes `SQ(3)`, which is `(3 * 3)`. -/
example : Deep exDeep 2 [ofSym (tk .ident "NINE")] [kL, (.intLit, "3".toList), kStar, (.intLit, "3".toList), kR] := by
  have e : [ofSym (tk .ident "NINE")] = (Kind.ident, "NINE".toList) :: [] := rfl
  rw [e]
  refine .use (m := exNine) (b := [kL, (.intLit, "3".toList), kStar, (.intLit, "3".toList), kR]) (r := []) (by decide) rfl (by decide) ?_ .nil
  have e1 : exNine.body.map ofRSym = kSq :: kL :: ([(.intLit, "3".toList)] ++ kR :: [(.newline, [])]) := rfl
  rw [e1]
  refine .call (m := exSq) (params := [-1, 0]) (as := [[(.intLit, "3".toList)]]) (pieces := sqPieces) (r := []) (b := [kL, (.intLit, "3".toList), kStar, (.intLit, "3".toList), kR])
    (by decide) rfl (by decide) rfl rfl .one (by decide) ?_ sq_made ?_ ?_ (.blank (.inl rfl) .nil)
  · intro i a hi
    cases i with
    | zero =>
      simp only [List.getElem?_cons_zero, Option.some.injEq] at hi
      subst hi
      exact .inl (.tok (by decide) (by decide) (by decide) .nil)
    | succ i => simp at hi
  · intro h p l n hm
    simp [sqPieces, prm] at hm
  · have e2 : sqPieces.flatMap (Piece.resultK (givenK [-1, 0] [[(.intLit, "3".toList)]])) = [kL, (.intLit, "3".toList), kStar, (.intLit, "3".toList), kR] := rfl
    rw [e2]
    exact .keep (by decide) (by decide) (.keep (by decide) (by decide) (.keep (by decide) (by decide) (.keep (by decide) (by decide) (.keep (by decide) (by decide) .nil))))

/-! ### Strings of arguments that were parameters -/

/-- A token of a definition after a blank. -/
def sp (k : Kind) (text : String) : RSym := ⟨k, text.toList, ⟨0, 1⟩, none⟩

/-- `#define STR(%1) #%1` and `#define NAMED(%1) STR(new %1)`. -/
def exStr : Macros := fun x =>
  if x = "STR".toList then some ⟨0, 0, some [-1, 0], 1, [bt (.op .stringize) "#", bt (.op .percent) "%", bt .intLit "1" (some 1), bt .newline]⟩
  else if x = "NAMED".toList then
    some ⟨0, 1, some [-1, 0], 1, [bt .ident "STR", bt .lparen "(", bt .ident "new", sp (.op .percent) "%", bt .intLit "1" (some 1), bt .rparen ")", bt .newline]⟩
  else none

/-- **C27 is violated** for a string of an argument in which a parameter was replaced: `NAMED(x)` is `STR(new x)`, that is `"new x"`, and becomes `"newx"`. -/
theorem nested_string_refuted :
    ∃ fuel o, (∀ k, expandIdentifier exStr true (fuel + k) (tk .ident "NAMED").tok [tk .lparen "(", tk .ident "x", tk .rparen ")"] [] [] = some o) ∧
      o.stack.map (fun t => String.ofList t.text) = ["\"newx\""] :=
  ⟨8, _, fun k => Verif.Props.MacroTerm.expand_mono _ _ _ _ _ _ 8 k _ rfl, by decide +kernel⟩

end Verif.Props.MacroDeep
