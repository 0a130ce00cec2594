import Verif.Pre.DefineSpec
import Mathlib.Data.List.Perm.Subperm
import Verif.Props.MacroArgs
/-!
# C27, from the definition to the expansion
-/

namespace Verif.Props.Define
open Verif.Pre Verif.Pre.Spec Verif.Props.MacroArgs Verif.Props.Macros

def setAll (args : List Int) : Int → List Nat → List Int
  | _, [] => args
  | i, d :: ds => setAll (args.set d i) (i + 1) ds

theorem setAll_length (ds : List Nat) : ∀ (args : List Int) (i : Int), (setAll args i ds).length = args.length := by
  induction ds with
  | nil => intro args i; rfl
  | cons d ds ih => intro args i; rw [setAll, ih, List.length_set]

theorem setAll_other (ds : List Nat) : ∀ (args : List Int) (i : Int) (n : Nat), n ∉ ds → (setAll args i ds)[n]? = args[n]? := by
  induction ds with
  | nil => intro args i n _; rfl
  | cons d ds ih =>
    intro args i n h
    simp only [List.mem_cons, not_or] at h
    rw [setAll, ih _ _ _ h.2, List.getElem?_set_ne (Ne.symm h.1)]

theorem setAll_mem (ds : List Nat) : ∀ (args : List Int) (i : Int) (n : Nat), ds.Nodup → n ∈ ds → n < args.length →
    (setAll args i ds)[n]? = some (i + (ds.idxOf n : Int)) := by
  induction ds with
  | nil => intro args i n _ h; simp at h
  | cons d ds ih =>
    intro args i n hd h hn
    rw [List.nodup_cons] at hd
    rw [setAll]
    by_cases e : d = n
    · subst e
      rw [setAll_other _ _ _ _ hd.1, List.idxOf_cons_self, List.getElem?_set_self hn]
      simp
    · have hm : n ∈ ds := by
        rcases List.mem_cons.1 h with h | h
        · exact absurd h.symm e
        · exact h
      rw [ih _ _ _ hd.2 hm (by rw [List.length_set]; exact hn), List.idxOf_cons_ne _ e]
      congr 1
      push_cast
      omega

theorem set_count (l : List Int) : ∀ (d : Nat) (v : Int), v ≠ -1 → l[d]? = some (-1) → ((l.set d v).filter (· ≠ -1)).length = (l.filter (· ≠ -1)).length + 1 := by
  induction l with
  | nil => intro d v _ h; simp at h
  | cons a l ih =>
    intro d v hv h
    cases d with
    | zero =>
      simp only [List.getElem?_cons_zero, Option.some.injEq] at h
      subst h
      simp [hv]
    | succ d =>
      simp only [List.getElem?_cons_succ] at h
      have := ih d v hv h
      simp only [List.set_cons_succ, List.filter_cons]
      split <;> (try simp only [List.length_cons]) <;> omega

theorem setAll_count (ds : List Nat) : ∀ (args : List Int) (i : Int), 0 ≤ i → ds.Nodup → (∀ d ∈ ds, args[d]? = some (-1)) →
    ((setAll args i ds).filter (· ≠ -1)).length = (args.filter (· ≠ -1)).length + ds.length := by
  induction ds with
  | nil => intro args i _ _ _; rfl
  | cons d ds ih =>
    intro args i hi hd h
    rw [List.nodup_cons] at hd
    rw [setAll, ih _ _ (by omega) hd.2, set_count _ _ _ (by omega) (h d (by simp)), List.length_cons]
    · omega
    · intro x hx
      rw [List.getElem?_set_ne (by intro e; subst e; exact hd.1 hx)]
      exact h x (by simp [hx])

/-- The loop over one token. -/
theorem loop_cons (s : Sym) (ss : List Sym) (d d' : DSt) (st : PSt) (hp : s.inPre = true) (he : s.kind ≠ .eof) (hd : dStep s d = some d') :
    ∃ st', st'.macros = st.macros ∧ st'.idx = st.idx ∧ defineLoop (s :: ss) d st = defineLoop ss d' st' := by
  refine ⟨if s.kind = .newline then pushWs s { st with lexer := ss } else { pushWs s { st with lexer := ss } with line := (pushWs s { st with lexer := ss }).line ++ s.text },
    ?_, ?_, ?_⟩
  · split <;> rfl
  · split <;> rfl
  · simp only [defineLoop, hp, he, if_true, if_false, hd]

theorem params_run {ds : List Nat} {ps : List Sym} (h : ParamToks ds ps) : ∀ (d : DSt) (st : PSt) (rest : List Sym), d.phase = .params → (∀ x ∈ ds, x < 10) →
    (∀ s ∈ ps, s.inPre = true) → ∃ st', st'.macros = st.macros ∧ st'.idx = st.idx ∧
      defineLoop (ps ++ rest) d st = defineLoop rest { d with found := true, args := setAll d.args d.idx ds, idx := d.idx + (ds.length - 1 : Nat) } st' := by
  induction h with
  | @one x p l hp hpd hl hld hv =>
    intro d st rest hd hx hin
    have hx' := hx x (by simp)
    obtain ⟨s1, a1, b1, e1⟩ := loop_cons p (l :: rest) d d st (hin p (by simp)) (by simp [hp]) (by simp [dStep, hd, hpd, hp])
    obtain ⟨s2, a2, b2, e2⟩ := loop_cons l rest d { d with found := true, args := d.args.set x d.idx } s1 (hin l (by simp)) (by simp [hl])
      (by simp only [dStep, hd, hld, hl, hv]
          simp only [gt_iff_lt, Int.lt_irrefl, if_false, Int.toNat_natCast]
          rw [if_neg (by omega)])
    refine ⟨s2, by rw [a2, a1], by rw [b2, b1], ?_⟩
    rw [show [p, l] ++ rest = p :: l :: rest from rfl, e1, e2]
    simp [setAll]
  | @cons x ds p l c ts hp hpd hl hld hv hc hcd hts ih =>
    intro d st rest hd hx hin
    have hx' := hx x (by simp)
    obtain ⟨s1, a1, b1, e1⟩ := loop_cons p (l :: c :: (ts ++ rest)) d d st (hin p (by simp)) (by simp [hp]) (by simp [dStep, hd, hpd, hp])
    obtain ⟨s2, a2, b2, e2⟩ := loop_cons l (c :: (ts ++ rest)) d { d with found := true, args := d.args.set x d.idx } s1 (hin l (by simp)) (by simp [hl])
      (by simp only [dStep, hd, hld, hl, hv]
          simp only [gt_iff_lt, Int.lt_irrefl, if_false, Int.toNat_natCast]
          rw [if_neg (by omega)])
    obtain ⟨s3, a3, b3, e3⟩ := loop_cons c (ts ++ rest) { d with found := true, args := d.args.set x d.idx }
      { d with found := true, args := d.args.set x d.idx, idx := d.idx + 1 } s2 (hin c (by simp)) (by simp [hc]) (by simp [dStep, hd, hcd, hc])
    obtain ⟨s4, a4, b4, e4⟩ := ih { d with found := true, args := d.args.set x d.idx, idx := d.idx + 1 } s3 rest hd (fun y hy => hx y (by simp [hy])) (fun s hs => hin s (by simp [hs]))
    refine ⟨s4, by rw [a4, a3, a2, a1], by rw [b4, b3, b2, b1], ?_⟩
    rw [show (p :: l :: c :: ts) ++ rest = p :: l :: c :: (ts ++ rest) from rfl, e1, e2, e3, e4]
    have hne : ds.length ≠ 0 := by cases hts <;> simp
    have : d.idx + 1 + ((ds.length - 1 : Nat) : Int) = d.idx + (((x :: ds).length - 1 : Nat) : Int) := by
      rw [List.length_cons]; omega
    simp only [setAll, this]

theorem body_run (body : List Sym) : ∀ (d : DSt) (st : PSt) (rest : List Sym), d.phase = .body → (∀ s ∈ body, s.inPre = true ∧ s.kind ≠ .eof) →
    ∃ st', st'.macros = st.macros ∧ st'.idx = st.idx ∧ defineLoop (body ++ rest) d st = defineLoop rest { d with body := d.body ++ body.map Sym.rangeLess } st' := by
  induction body with
  | nil => intro d st rest _ _; exact ⟨st, rfl, rfl, by simp⟩
  | cons s body ih =>
    intro d st rest hd h
    obtain ⟨s1, a1, b1, e1⟩ := loop_cons s (body ++ rest) d { d with body := d.body ++ [s.rangeLess] } st (h s (by simp)).1 (h s (by simp)).2 (by simp [dStep, hd])
    obtain ⟨s2, a2, b2, e2⟩ := ih { d with body := d.body ++ [s.rangeLess] } s1 rest hd (fun x hx => h x (by simp [hx]))
    refine ⟨s2, by rw [a2, a1], by rw [b2, b1], ?_⟩
    rw [List.cons_append, e1, e2]
    simp

theorem end_run {rest : List Sym} (h : DirectiveEnds rest) (d : DSt) (st : PSt) : ∃ st', st'.macros = st.macros ∧ st'.idx = st.idx ∧ defineLoop rest d st = (some d, st') := by
  cases rest with
  | nil => exact ⟨{ st with lexer := [] }, rfl, rfl, rfl⟩
  | cons s ss =>
    by_cases hp : s.inPre = true
    · rcases h with h | h
      · exact ⟨{ st with lexer := ss }, rfl, rfl, by simp only [defineLoop, hp, h, if_true]⟩
      · rw [h] at hp; simp at hp
    · exact ⟨{ st with lexer := s :: ss }, rfl, rfl, by simp only [defineLoop, hp, if_false, Bool.false_eq_true]⟩

/-- What a definition with parameters records. -/
theorem define_records (env : Env) (s : Sym) (st : PSt) (name : Str) (ds : List Nat) (body toks rest : List Sym) (ht : DefineToks name ds body toks)
    (hnd : ds.Nodup) (hlt : ∀ x ∈ ds, x < 10) (hin : ∀ t ∈ toks, t.inPre = true) (heof : ∀ t ∈ body, t.kind ≠ .eof) (hend : DirectiveEnds rest)
    (hl : st.lexer = toks ++ rest) :
    ∃ st' params, processDefine env s st = .next st' ∧
      st'.macros = updateMacros st.macros name (some ⟨env.fileId, st.idx, some params, ds.length, body.map Sym.rangeLess⟩) ∧
      ∀ x ∈ ds, params[x]? = some (ds.idxOf x : Int) := by
  cases ht with
  | @mk n l r ps hn hname hne hlp hld hps hr hrd =>
    have hpin : ∀ s ∈ ps, s.inPre = true := fun s hs => hin s (by simp [hs])
    obtain ⟨s1, a1, b1, e1⟩ := loop_cons n (l :: ((ps ++ r :: body) ++ rest)) {} { ({} : DSt) with name := name } (pushSym s st) (hin n (by simp)) (by simp [hn])
      (by simp [dStep, hn, hname])
    obtain ⟨s2, a2, b2, e2⟩ := loop_cons l ((ps ++ r :: body) ++ rest) { ({} : DSt) with name := name } { ({} : DSt) with name := name, phase := .params } s1 (hin l (by simp)) (by simp [hlp])
      (by simp [dStep, hlp, hld])
    obtain ⟨s3, a3, b3, e3⟩ := params_run hps { ({} : DSt) with name := name, phase := .params } s2 (r :: (body ++ rest)) rfl hlt hpin
    obtain ⟨s4, a4, b4, e4⟩ := loop_cons r (body ++ rest)
      { ({} : DSt) with name := name, phase := .params, found := true, args := setAll (List.replicate 10 (-1)) 0 ds, idx := 0 + (ds.length - 1 : Nat) }
      { ({} : DSt) with name := name, phase := .body, found := true, args := setAll (List.replicate 10 (-1)) 0 ds, idx := 0 + (ds.length - 1 : Nat) } s3 (hin r (by simp)) (by simp [hr])
      (by simp [dStep, hr, hrd])
    obtain ⟨s5, a5, b5, e5⟩ := body_run body
      { ({} : DSt) with name := name, phase := .body, found := true, args := setAll (List.replicate 10 (-1)) 0 ds, idx := 0 + (ds.length - 1 : Nat) } s4 rest rfl
      (fun t ht => ⟨hin t (by simp [ht]), heof t ht⟩)
    obtain ⟨s6, a6, b6, e6⟩ := end_run hend
      { ({} : DSt) with name := name, phase := .body, found := true, args := setAll (List.replicate 10 (-1)) 0 ds, idx := 0 + (ds.length - 1 : Nat), body := body.map Sym.rangeLess } s5
    have hrun : defineLoop st.lexer {} (pushSym s st) =
        (some { ({} : DSt) with name := name, phase := .body, found := true, args := setAll (List.replicate 10 (-1)) 0 ds, idx := 0 + (ds.length - 1 : Nat), body := body.map Sym.rangeLess }, s6) := by
      rw [hl, List.cons_append, List.cons_append, e1, e2, List.append_assoc, List.cons_append]
      refine e3.trans (e4.trans (e5.trans ?_))
      rw [← e6]; rfl
    have hcount : ((setAll (List.replicate 10 (-1)) 0 ds).filter (· ≠ -1)).length = ds.length := by
      rw [setAll_count _ _ _ (by omega) hnd]
      · simp
      · intro x hx
        rw [List.getElem?_replicate, if_pos (hlt x hx)]
    have hmac : s6.macros = st.macros := by rw [a6, a5, a4, a3, a2, a1]; unfold pushSym; split <;> rfl
    have hidx : s6.idx = st.idx := by rw [b6, b5, b4, b3, b2, b1]; unfold pushSym; split <;> rfl
    refine ⟨_, setAll (List.replicate 10 (-1)) 0 ds, by simp only [processDefine, hrun]; rfl, ?_, ?_⟩
    · show updateMacros s6.macros name (some ⟨env.fileId, s6.idx, some _, _, _⟩) = _
      rw [hmac, hidx]
      congr 2
      simp only [hcount]
    · intro x hx
      rw [setAll_mem ds _ 0 x hnd hx (by simpa using hlt x hx)]
      simp

/-- **C27.** After `#define NAME(%d₁,%d₂,…)body`, the expansion of a call of `NAME` with arguments `args` is the body with every `%n`
replaced by the argument at the place where `%n` stands in the declaration, every `#%n` by that argument as a string, `%%` by `%` and
every other token kept; the line break that ends the directive is not part of it. -/
theorem declared_substitution (env : Env) (s : Sym) (st : PSt) (name : Str) (ds : List Nat) (body toks rest : List Sym) (ht : DefineToks name ds body toks)
    (hnd : ds.Nodup) (hlt : ∀ x ∈ ds, x < 10) (hin : ∀ t ∈ toks, t.inPre = true) (heof : ∀ t ∈ body, t.kind ≠ .eof) (hend : DirectiveEnds rest)
    (hl : st.lexer = toks ++ rest) :
    ∃ st' m, processDefine env s st = .next st' ∧ st'.macros name = some m ∧ (∀ y, y ≠ name → st'.macros y = st.macros y) ∧ m.nbParams = ds.length ∧
      ∀ (args : Nat → List Tok) (symbol : Sym) (delta : Delta) (depth : Nat) (ps : List Piece) (fin : List RSym), (∀ p ∈ ps, p.Over ds) →
        body.map Sym.rangeLess = ps.flatMap Piece.tokens ++ fin →
        ((∃ nl : RSym, nl.kind = .newline ∧ fin = [nl]) ∨ (fin = [] ∧ ∀ r, body.getLast? = some r → r.kind ≠ .newline)) →
        ∃ q, expandMacro args m symbol delta depth = some q ∧ q.map ofQ = ps.flatMap (Piece.result (fun n => args (ds.idxOf n))) := by
  obtain ⟨st', params, h1, h2, h3⟩ := define_records env s st name ds body toks rest ht hnd hlt hin heof hend hl
  refine ⟨st', ⟨env.fileId, st.idx, some params, ds.length, body.map Sym.rangeLess⟩, h1, by rw [h2]; simp only [updateMacros, if_true], ?_, rfl, ?_⟩
  · intro y hy
    rw [h2]; simp only [updateMacros, hy, if_false]
  · intro args symbol delta depth ps fin hov hb hfin
    have hlen : ∀ x ∈ ds, ds.idxOf x < 10 := by
      have hsub : ds ⊆ List.range 10 := fun x hx => List.mem_range.2 (hlt x hx)
      have : ds.length ≤ 10 := by simpa using (List.subperm_of_subset hnd hsub).length_le
      intro x hx
      have := List.idxOf_lt_length_of_mem hx
      omega
    have hwf : ∀ p ∈ ps, p.WF params := by
      intro p hp
      have := hov p hp
      cases p with
      | plain r => exact this
      | param p l n => exact ⟨this.1, this.2.1, this.2.2.1, ds.idxOf n, hlen n this.2.2.2, hlt n this.2.2.2, h3 n this.2.2.2⟩
      | quoted h p l n => exact ⟨this.1, this.2.1, this.2.2.1, this.2.2.2.1, ds.idxOf n, hlen n this.2.2.2.2, hlt n this.2.2.2.2, h3 n this.2.2.2.2⟩
      | escaped a b c => exact this
    obtain ⟨q, e, f⟩ := substitution args ⟨env.fileId, st.idx, some params, ds.length, body.map Sym.rangeLess⟩ params rfl symbol delta depth ps fin hwf hb (by
      rcases hfin with h | ⟨h, h'⟩
      · exact .inl h
      · refine .inr ⟨h, fun r hr => ?_⟩
        simp only [List.getLast?_map, Option.map_eq_some_iff] at hr
        obtain ⟨x, hx, rfl⟩ := hr
        exact h' x hx)
    refine ⟨q, f, ?_⟩
    rw [e]
    have : ∀ p ∈ ps, Piece.result (fun n => args (position params n)) p = Piece.result (fun n => args (ds.idxOf n)) p := by
      intro p hp
      have hov' := hov p hp
      cases p with
      | plain r => rfl
      | param p l n => simp only [Piece.result, position, h3 n hov'.2.2.2, Option.getD_some, Int.toNat_natCast]
      | quoted h p l n => simp only [Piece.result, position, h3 n hov'.2.2.2.2, Option.getD_some, Int.toNat_natCast]
      | escaped a b c => rfl
    clear e f hwf hb hov
    induction ps with
    | nil => rfl
    | cons p ps ih => rw [List.flatMap_cons, List.flatMap_cons, this p (by simp), ih (fun x hx => this x (by simp [hx]))]

def dt (k : Kind) (t : String) (v : Option Int := none) : Sym := ⟨k, t.toList, ⟨⟨0, 0⟩, ⟨0, 0⟩⟩, ⟨0, 0⟩, v, true⟩

/-- `F(%2,%1)%1+#%2%%x⏎` -/
def sampleBody : List Sym :=
  [dt (.op .percent) "%", dt .intLit "1" (some 1), dt (.op .plus) "+", dt (.op .stringize) "#", dt (.op .percent) "%", dt .intLit "2" (some 2), dt (.op .percent) "%",
   dt (.op .percent) "%", dt .ident "x", dt .newline "\n"]

def sampleDefine : List Sym :=
  dt .ident "F" :: dt .lparen "(" :: ([dt (.op .percent) "%", dt .intLit "2" (some 2), dt .comma ",", dt (.op .percent) "%", dt .intLit "1" (some 1)] ++ dt .rparen ")" :: sampleBody)

example : DefineToks "F".toList [2, 1] sampleBody sampleDefine :=
  .mk (ps := [dt (.op .percent) "%", dt .intLit "2" (some 2), dt .comma ",", dt (.op .percent) "%", dt .intLit "1" (some 1)]) rfl rfl (by decide) rfl rfl
    (.cons rfl rfl rfl rfl rfl rfl rfl (.one rfl rfl rfl rfl rfl)) rfl rfl

example : ∃ (ps : List Piece) (fin : List RSym), (∀ p ∈ ps, Piece.Over [2, 1] p) ∧ sampleBody.map Sym.rangeLess = ps.flatMap Piece.tokens ++ fin ∧ (∃ nl : RSym, nl.kind = .newline ∧ fin = [nl]) := by
  refine ⟨[.param (dt (.op .percent) "%").rangeLess (dt .intLit "1" (some 1)).rangeLess 1, .plain (dt (.op .plus) "+").rangeLess,
    .quoted (dt (.op .stringize) "#").rangeLess (dt (.op .percent) "%").rangeLess (dt .intLit "2" (some 2)).rangeLess 2,
    .escaped (dt (.op .percent) "%").rangeLess (dt (.op .percent) "%").rangeLess (dt .ident "x").rangeLess], [(dt .newline "\n").rangeLess], ?_, rfl, _, rfl, rfl⟩
  intro p hp
  simp only [List.mem_cons, List.not_mem_nil, or_false] at hp
  rcases hp with rfl | rfl | rfl | rfl
  · exact ⟨rfl, rfl, rfl, by decide⟩
  · exact ⟨by decide, by decide⟩
  · exact ⟨rfl, rfl, rfl, rfl, by decide⟩
  · exact ⟨rfl, rfl, by decide, by decide⟩

end Verif.Props.Define
