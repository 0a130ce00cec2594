import Verif.Props.MacroTerm
import Verif.Pre.MacroSpec
/-!
# Macro expansion (C24, C25, C26, C27)
-/

namespace Verif.Props.Macros
open Verif.Pre Verif.Pre.Spec Verif.Props.MacroTerm

/-! ### C24: object-like macros -/

theorem ofSym_body (prev : Rng) (b : List RSym) : (bodySyms prev b).map ofSym = b.map ofRSym := by
  induction b generalizing prev with
  | nil => rfl
  | cons r b ih => simp only [bodySyms, List.map_cons, ih]; rfl

def ofQ (q : QTok) : KT := ofTok q.tok

theorem ofQ_queue (delta : Delta) (ss : List Sym) : (bodyQueue delta ss).map ofQ = ss.map ofSym := by
  cases ss with
  | nil => rfl
  | cons s ss => simp only [bodyQueue, List.map_cons, List.map_map]; rfl

/-- The queue holds these tokens, possibly without a final line break. -/
def Holds (q : List QTok) (ks : List KT) : Prop := q.map ofQ = ks ∨ ∃ x, q.map ofQ ++ [(.newline, x)] = ks

theorem holds_body (m : Macro) (delta : Delta) (prev : Rng) : Holds (expandNonMacro m delta prev) (m.body.map ofRSym) := by
  unfold expandNonMacro
  have h0 : (bodyQueue delta (bodySyms prev m.body)).map ofQ = m.body.map ofRSym := by rw [ofQ_queue, ofSym_body]
  generalize bodyQueue delta (bodySyms prev m.body) = q at h0
  rw [← h0]
  unfold dropLastNewline
  cases hq : q.getLast? with
  | none => exact Or.inl rfl
  | some b =>
    dsimp only
    by_cases hk : b.tok.kind = .newline
    · simp only [hk, if_true]
      right
      have e : q = q.dropLast ++ [b] := by
        have hne : q ≠ [] := by intro hc; subst hc; simp at hq
        rw [List.getLast?_eq_some_getLast hne, Option.some.injEq] at hq
        rw [← hq]
        exact (List.dropLast_concat_getLast hne).symm
      refine ⟨b.tok.text, ?_⟩
      conv => rhs; rw [e]
      simp only [List.map_append, List.map_cons, List.map_nil, ofQ, ofTok, hk]
    · simp only [hk, if_false]; exact Or.inl rfl

theorem holds_cons {q : List QTok} {k : KT} {ks : List KT} (h : Holds q (k :: ks)) :
    (∃ a cur, q = a :: cur ∧ ofQ a = k ∧ Holds cur ks) ∨ (q = [] ∧ k.1 = .newline ∧ ks = []) := by
  cases q with
  | nil =>
    right
    rcases h with h | ⟨x, h⟩
    · simp at h
    · simp only [List.map_nil, List.nil_append, List.cons.injEq] at h
      obtain ⟨rfl, h⟩ := h
      exact ⟨rfl, rfl, h.symm⟩
  | cons a cur =>
    left
    rcases h with h | ⟨x, h⟩
    · simp only [List.map_cons, List.cons.injEq] at h
      exact ⟨a, cur, rfl, h.1, Or.inl h.2⟩
    · simp only [List.map_cons, List.cons_append, List.cons.injEq] at h
      exact ⟨a, cur, rfl, h.1, Or.inr ⟨x, h.2⟩⟩

theorem step_keep (macros : Macros) (allow : Bool) (token : Tok) (q : QTok) (cur : List QTok) (rest : List (List QTok)) (st : XSt)
    (h1 : q.tok.kind ≠ .ident) (h2 : ¬ Blank q.tok.kind) :
    ∃ t, ofTok t = ofQ q ∧ xStep macros allow token (q :: cur) rest st = .continue_ { st with ctxs := cur :: rest, out := st.out ++ [t] } := by
  unfold Blank at h2
  unfold xStep
  dsimp only
  split
  · rename_i h; exact absurd h h1
  · refine ⟨_, ?_, rfl⟩; rfl
  · refine ⟨_, ?_, rfl⟩; rfl
  · rename_i h; exact absurd (by simp [h]) h2
  · rename_i h; exact absurd (by simp [h]) h2
  · rename_i h; exact absurd (by simp [h]) h2
  · rename_i h; exact absurd (by simp [h]) h2
  · refine ⟨_, ?_, rfl⟩; rfl

/-- Running one context to its end. -/
theorem full_run (macros : Macros) (allow : Bool) (token : Tok) {d : Nat} {ks r : List KT} (h : Full macros d ks r) :
    (allow = true ∨ ∀ k ∈ r, k.1 ≠ .ident) →
    ∀ (top : List QTok) (rest : List (List QTok)) (st : XSt), Holds top ks → rest.length + 1 + d < 6 → st.ctxs = top :: rest →
    ∃ n out, out.map ofTok = r ∧ ∀ fuel, xLoop macros allow token (n + fuel) st = xLoop macros allow token fuel { st with ctxs := rest, out := st.out ++ out } := by
  have hnil : ∀ (rest : List (List QTok)) (st : XSt), rest.length + 1 < 6 → st.ctxs = [] :: rest →
      ∃ n out, List.map ofTok out = [] ∧ ∀ fuel, xLoop macros allow token (n + fuel) st = xLoop macros allow token fuel { st with ctxs := rest, out := st.out ++ out } := by
    intro rest st hd hst
    refine ⟨1, [], rfl, fun fuel => ?_⟩
    rw [Nat.add_comm 1 fuel]
    simp only [xLoop, hst, hd, if_true, xStep, List.append_nil]
  induction h with
  | nil =>
    intro _ top rest st htop hd hst
    have : top = [] := by
      rcases htop with htop | ⟨x, htop⟩
      · exact List.map_eq_nil_iff.1 htop
      · simp at htop
    subst this
    exact hnil rest st (by omega) hst
  | @use d x m ts b r h1 h2 _ _ ih1 ih2 =>
    intro ha top rest st htop hd hst
    rcases holds_cons htop with ⟨q, cur, rfl, hq, hcur⟩ | ⟨_, hc, _⟩
    rotate_left; · exact absurd hc (by simp)
    have hk : q.tok.kind = .ident := congrArg Prod.fst hq
    have ht : q.tok.text = x := congrArg Prod.snd hq
    have hstep : xStep macros allow token (q :: cur) rest st = .continue_ { st with ctxs := expandNonMacro m token.sym.delta q.tok.sym.range :: cur :: rest } := by
      simp only [xStep, hk, ht, h1, h2]
    have hb : allow = true ∨ ∀ k ∈ b, k.1 ≠ .ident := ha.imp id (fun h k hkb => h k (by simp [hkb]))
    have hr : allow = true ∨ ∀ k ∈ r, k.1 ≠ .ident := ha.imp id (fun h k hkb => h k (by simp [hkb]))
    obtain ⟨n1, o1, e1, f1⟩ := ih1 hb (expandNonMacro m token.sym.delta q.tok.sym.range) (cur :: rest)
      { st with ctxs := expandNonMacro m token.sym.delta q.tok.sym.range :: cur :: rest }
      (holds_body m _ _) (by simp only [List.length_cons]; omega) rfl
    obtain ⟨n2, o2, e2, f2⟩ := ih2 hr cur rest { st with ctxs := cur :: rest, out := st.out ++ o1 } hcur hd rfl
    refine ⟨1 + n1 + n2, o1 ++ o2, by rw [List.map_append, e1, e2], fun fuel => ?_⟩
    have hlt : rest.length + 1 < 6 := by omega
    rw [show 1 + n1 + n2 + fuel = (n1 + (n2 + fuel)) + 1 from by omega]
    simp only [xLoop, hst, hlt, if_true, hstep]
    rw [f1, f2]
    simp only [List.append_assoc]
  | @undefined d x ts r h1 _ ih =>
    intro ha top rest st htop hd hst
    rcases holds_cons htop with ⟨q, cur, rfl, hq, hcur⟩ | ⟨_, hc, _⟩
    rotate_left; · exact absurd hc (by simp)
    have hk : q.tok.kind = .ident := congrArg Prod.fst hq
    have ht : q.tok.text = x := congrArg Prod.snd hq
    have hall : allow = true := by
      rcases ha with ha | ha
      · exact ha
      · exact absurd rfl (ha (.ident, x) (by simp))
    have hstep : xStep macros allow token (q :: cur) rest st = .continue_ { st with ctxs := cur :: rest, out := st.out ++ [q.tok.setDelta q.delta] } := by
      simp only [xStep, hk, ht, h1, hall, if_true]
    obtain ⟨n2, o2, e2, f2⟩ := ih (Or.inl hall) cur rest { st with ctxs := cur :: rest, out := st.out ++ [q.tok.setDelta q.delta] } hcur hd rfl
    refine ⟨1 + n2, q.tok.setDelta q.delta :: o2, by rw [List.map_cons, e2]; exact congrArg (· :: r) hq, fun fuel => ?_⟩
    have hlt : rest.length + 1 < 6 := by omega
    rw [show 1 + n2 + fuel = (n2 + fuel) + 1 from by omega]
    simp only [xLoop, hst, hlt, if_true, hstep]
    rw [f2]
    simp only [List.append_assoc, List.singleton_append]
  | @blank d k x ts r h1 h2 ih =>
    intro ha top rest st htop hd hst
    rcases holds_cons htop with ⟨q, cur, rfl, hq, hcur⟩ | ⟨rfl, hc, rfl⟩
    rotate_left
    · exact ih ha [] rest st (Or.inl rfl) hd hst
    have hk : q.tok.kind = k := congrArg Prod.fst hq
    have hstep : xStep macros allow token (q :: cur) rest st = .continue_ { st with ctxs := cur :: rest } := by
      unfold Blank at h1
      rcases h1 with h1 | h1 | h1 | h1 <;> subst h1 <;> simp only [xStep, hk]
    obtain ⟨n2, o2, e2, f2⟩ := ih ha cur rest { st with ctxs := cur :: rest } hcur hd rfl
    refine ⟨1 + n2, o2, e2, fun fuel => ?_⟩
    have hlt : rest.length + 1 < 6 := by omega
    rw [show 1 + n2 + fuel = (n2 + fuel) + 1 from by omega]
    simp only [xLoop, hst, hlt, if_true, hstep]
    rw [f2]
  | @keep d k x ts r h1 h2 _ ih =>
    intro ha top rest st htop hd hst
    rcases holds_cons htop with ⟨q, cur, rfl, hq, hcur⟩ | ⟨_, hc, _⟩
    rotate_left; · exact absurd (Or.inl hc) h2
    have hk : q.tok.kind = k := congrArg Prod.fst hq
    obtain ⟨t, ht, hstep⟩ := step_keep macros allow token q cur rest st (by rw [hk]; exact h1) (by rw [hk]; exact h2)
    have hr : allow = true ∨ ∀ k ∈ r, k.1 ≠ .ident := ha.imp id (fun h k hkb => h k (by simp [hkb]))
    obtain ⟨n2, o2, e2, f2⟩ := ih hr cur rest { st with ctxs := cur :: rest, out := st.out ++ [t] } hcur hd rfl
    refine ⟨1 + n2, t :: o2, by rw [List.map_cons, e2, ht, hq], fun fuel => ?_⟩
    have hlt : rest.length + 1 < 6 := by omega
    rw [show 1 + n2 + fuel = (n2 + fuel) + 1 from by omega]
    simp only [xLoop, hst, hlt, if_true, hstep]
    rw [f2]
    simp only [List.append_assoc, List.singleton_append]

/-- What the stack of pending tokens holds after a macro use has been expanded. -/
def ExpandsTo (macros : Macros) (allow : Bool) (token : Tok) (lexer : List Sym) (stack : List Tok) (disabled : List Macro) (o : XOut) : Prop :=
  ∃ fuel, ∀ k, expandIdentifier macros allow (fuel + k) token lexer stack disabled = some o

/-- **C24 (partial).** A use of an object-like macro is replaced by its full expansion, nothing else changes: not the pending input,
not the tokens already on the stack — provided the expansion nests at most four replacements. What is missing: deeper nestings,
which the code truncates (`nested_expansion_refuted`). -/
theorem object_macro_partial (macros : Macros) (allow : Bool) (token : Tok) (lexer : List Sym) (stack : List Tok) (disabled : List Macro)
    (d : Nat) (r : List KT) (hd : d ≤ 4) (h : Full macros d [ofTok token] r) (ha : allow = true ∨ ∀ k ∈ r, k.1 ≠ .ident) :
    ∃ out, out.map ofTok = r ∧ ExpandsTo macros allow token lexer stack disabled ⟨lexer, out ++ stack, disabled, .ok 0⟩ := by
  obtain ⟨n, out, h1, h2⟩ := full_run macros allow token h ha [⟨token, token.sym.delta⟩] []
    ⟨[[⟨token, token.sym.delta⟩]], [], lexer, [], disabled, 0⟩ (Or.inl rfl) (by simp only [List.length_nil]; omega) rfl
  refine ⟨out, h1, n + 1, fun k => ?_⟩
  unfold expandIdentifier
  rw [show n + 1 + k = n + (k + 1) from by omega, h2]
  simp only [xLoop, List.nil_append, List.reverse_nil, List.append_nil]

/-- A token and a body token for examples. -/
def tk (k : Kind) (text : String := "") (v : Option Int := none) : Sym := ⟨k, text.toList, ⟨⟨0, 0⟩, ⟨0, 0⟩⟩, ⟨0, 0⟩, v, false⟩
def bt (k : Kind) (text : String := "") (v : Option Int := none) : RSym := ⟨k, text.toList, ⟨0, 0⟩, v⟩

/-- `#define A B + C`, `#define B (1)`; `C` is not defined. -/
def exMacros : Macros := fun x =>
  if x = "A".toList then some ⟨0, 0, none, 0, [bt .ident "B", bt (.op .plus) "+", bt .ident "C", bt .newline]⟩
  else if x = "B".toList then some ⟨0, 1, none, 0, [bt .lparen "(", bt .intLit "1", bt .rparen ")", bt .newline]⟩
  else none

/-- Non-vacuity. -/
example : Full exMacros 2 [(.ident, "A".toList)]
    [(.lparen, "(".toList), (.intLit, "1".toList), (.rparen, ")".toList), (.op .plus, "+".toList), (.ident, "C".toList)] := by
  refine .use (b := [(.lparen, "(".toList), (.intLit, "1".toList), (.rparen, ")".toList), (.op .plus, "+".toList), (.ident, "C".toList)]) (r := [])
    (m := ⟨0, 0, none, 0, [bt .ident "B", bt (.op .plus) "+", bt .ident "C", bt .newline]⟩) (by decide) rfl ?_ .nil
  refine .use (b := [(.lparen, "(".toList), (.intLit, "1".toList), (.rparen, ")".toList)]) (m := ⟨0, 1, none, 0, [bt .lparen "(", bt .intLit "1", bt .rparen ")", bt .newline]⟩)
    (by decide) rfl ?_ ?_
  · exact .keep (by decide) (by decide) (.keep (by decide) (by decide) (.keep (by decide) (by decide) (.blank (Or.inl rfl) .nil)))
  · exact .keep (by decide) (by decide) (.undefined (by decide) (.blank (Or.inl rfl) .nil))

/-- `#define A1 A2`, …, `#define A5 1`. -/
def chain : Macros := fun x =>
  if x = "A1".toList then some ⟨0, 0, none, 0, [bt .ident "A2"]⟩
  else if x = "A2".toList then some ⟨0, 1, none, 0, [bt .ident "A3"]⟩
  else if x = "A3".toList then some ⟨0, 2, none, 0, [bt .ident "A4"]⟩
  else if x = "A4".toList then some ⟨0, 3, none, 0, [bt .ident "A5"]⟩
  else if x = "A5".toList then some ⟨0, 4, none, 0, [bt .intLit "1"]⟩
  else none

/-- **C24 is violated** for five nested replacements: `A1`, whose full expansion is `1`, expands to nothing. -/
theorem nested_expansion_refuted :
    Full chain 5 [(.ident, "A1".toList)] [(.intLit, "1".toList)] ∧
    ExpandsTo chain true (tk .ident "A1").tok [] [] [] ⟨[], [], [], .ok 0⟩ := by
  constructor
  · refine .use (b := [(.intLit, "1".toList)]) (r := []) (m := ⟨0, 0, none, 0, [bt .ident "A2"]⟩) (by decide) rfl ?_ .nil
    refine .use (b := [(.intLit, "1".toList)]) (r := []) (m := ⟨0, 1, none, 0, [bt .ident "A3"]⟩) (by decide) rfl ?_ .nil
    refine .use (b := [(.intLit, "1".toList)]) (r := []) (m := ⟨0, 2, none, 0, [bt .ident "A4"]⟩) (by decide) rfl ?_ .nil
    refine .use (b := [(.intLit, "1".toList)]) (r := []) (m := ⟨0, 3, none, 0, [bt .ident "A5"]⟩) (by decide) rfl ?_ .nil
    refine .use (b := [(.intLit, "1".toList)]) (r := []) (m := ⟨0, 4, none, 0, [bt .intLit "1"]⟩) (by decide) rfl ?_ .nil
    exact .keep (by decide) (by decide) .nil
  · exact ⟨6, fun k => expand_mono _ _ _ _ _ _ 6 k _ rfl⟩

end Verif.Props.Macros
