import Verif.Props.Macros
import Mathlib.Data.List.Forall2
/-!
# Function-like macros (C25, C26, C27)
-/

namespace Verif.Props.MacroArgs
open Verif.Pre Verif.Pre.Spec Verif.Props.MacroTerm Verif.Props.Macros

/-! ### C25: a name without an argument list -/

/-- **C25 (partial).** If the token after the name of a function-like macro is neither an opening parenthesis on the same line nor a
block comment, the name and that token come out unchanged and in order, before everything already pending; the macro is marked so
that the name is not looked at again. What is missing: block comments between the name and the next token, and names inside macro
bodies, where the code reorders tokens (`lone_name_comment_refuted`, `lone_name_body_refuted`). -/
theorem lone_name_partial (macros : Macros) (allow : Bool) (token : Tok) (m : Macro) (ps : List Int) (t : Sym) (rest : List Sym)
    (stack : List Tok) (disabled : List Macro) (hk : token.kind = .ident) (hm : macros token.text = some m) (hp : m.params = some ps)
    (h1 : t.kind ≠ .blockComment) (h2 : t.kind = .lparen → t.range.s.line ≠ token.sym.range.e.line) :
    ExpandsTo macros allow token (t :: rest) stack disabled ⟨rest, token :: t.tok :: stack, insertMacro m disabled, .ok 0⟩ := by
  have hopen : scanOpen token.sym.range.e.line [] (Src.avail ⟨[], [], t :: rest⟩) = .absent [t.tok] := by
    simp only [Src.avail, List.map_nil, List.nil_append, List.map_cons, scanOpen]
    have e : t.tok.kind = t.kind := rfl
    rw [e]
    by_cases hl : t.kind = .lparen
    · have : t.tok.sym.range.s.line ≠ token.sym.range.e.line := h2 hl
      simp only [hl, if_true, this, ne_eq, not_false_eq_true]
    · simp only [hl, if_false, h1]
  have hcol : collectArguments ⟨[], [], t :: rest⟩ token.sym.range.e.line m.nbParams = (⟨[], [t.tok], rest⟩, none) := by
    unfold collectArguments
    rw [hopen]
    rfl
  refine ⟨3, fun k => expand_mono _ _ _ _ _ _ 3 k _ ?_⟩
  simp only [expandIdentifier, xLoop, List.length_nil, Nat.zero_add, Nat.reduceLT, if_true, xStep, hk, hm, hp, hcol]
  rfl

def fooMacro : Macro := ⟨0, 0, some [-1, 0, -1, -1, -1, -1, -1, -1, -1, -1], 1, [bt (.op .percent) "%", bt .intLit "1" (some 1)]⟩
def barMacro : Macro := ⟨0, 1, none, 0, [bt .ident "FOO", bt (.op .plus) "+", bt .intLit "1"]⟩

/-- `#define FOO(%1) %1`, `#define BAR FOO + 1`. -/
def fooBar : Macros := fun x => if x = "FOO".toList then some fooMacro else if x = "BAR".toList then some barMacro else none

/-- Non-vacuity of `lone_name_partial`: `FOO;`. -/
example : ExpandsTo fooBar true (tk .ident "FOO").tok [tk .semicolon ";", tk .eof] [] []
    ⟨[tk .eof], [(tk .ident "FOO").tok, (tk .semicolon ";").tok], [fooMacro], .ok 0⟩ :=
  lone_name_partial _ _ _ fooMacro [-1, 0, -1, -1, -1, -1, -1, -1, -1, -1] _ _ _ _ rfl (by decide) rfl (by decide) (by decide)

/-- **C25 is violated** by a comment: in `FOO /* c */ x` the comment and `x` change places. -/
theorem lone_name_comment_refuted :
    ExpandsTo fooBar true (tk .ident "FOO").tok [tk .blockComment "/* c */", tk .ident "x"] [] []
      ⟨[], [(tk .ident "FOO").tok, (tk .ident "x").tok, (tk .blockComment "/* c */").tok], [fooMacro], .ok 0⟩ :=
  ⟨6, fun k => expand_mono _ _ _ _ _ _ 6 k _ rfl⟩

/-- **C25 is violated** inside a macro body: the use of `BAR`, whose body is `FOO + 1`, becomes `FOO 1 +`. -/
theorem lone_name_body_refuted :
    ∃ o, ExpandsTo fooBar true (tk .ident "BAR").tok [tk .semicolon ";"] [] [] o ∧
      o.stack.map (fun t => String.ofList t.text) = ["FOO", "1", "+"] :=
  ⟨_, ⟨9, fun k => expand_mono _ _ _ _ _ _ 9 k _ rfl⟩, by decide⟩

/-! ### C26: splitting the arguments -/

def addArgs (args : Nat → List Tok) (idx : Nat) (ts : List Tok) : Nat → List Tok := fun i => if i = idx then args i ++ ts else args i

theorem addArgs_nil (args : Nat → List Tok) (idx : Nat) : addArgs args idx [] = args := by
  funext i; unfold addArgs; split <;> simp

theorem addArg_addArgs (args : Nat → List Tok) (idx : Nat) (t : Tok) (ts : List Tok) :
    addArgs (addArg args idx t) idx ts = addArgs args idx (t :: ts) := by
  funext i; unfold addArgs addArg
  by_cases h : i = idx <;> simp [h]

theorem addArgs_addArgs (args : Nat → List Tok) (idx : Nat) (ts us : List Tok) :
    addArgs (addArgs args idx ts) idx us = addArgs args idx (ts ++ us) := by
  funext i; unfold addArgs
  by_cases h : i = idx <;> simp [h]

theorem addArg_eq (args : Nat → List Tok) (idx : Nat) (t : Tok) : addArg args idx t = addArgs args idx [t] := rfl

/-- Balanced tokens inside parentheses, or where no further split is possible, all go to the current argument. -/
theorem scan_balanced (nb : Nat) {ts : List Tok} (h : Balanced ts) : ∀ (depth idx : Nat) (args : Nat → List Tok) (n : Nat) (rest : List Tok),
    1 ≤ depth → (depth = 1 → nb ≤ idx + 1) →
    scanArgs nb depth idx args n (ts ++ rest) = scanArgs nb depth idx (addArgs args idx ts) (n + ts.length) rest := by
  induction h with
  | nil => intro depth idx args n rest _ _; rw [addArgs_nil]; rfl
  | @tok t ts h1 h2 _ ih =>
    intro depth idx args n rest hd hc
    have hstep : scanArgs nb depth idx args n (t :: (ts ++ rest)) = scanArgs nb depth idx (addArg args idx t) (n + 1) (ts ++ rest) := by
      rw [scanArgs]
      split
      · rename_i h; exact absurd h h1
      · rename_i h; exact absurd h h2
      · by_cases hd1 : depth = 1
        · have : ¬ (idx + 1 < nb) := by have := hc hd1; omega
          simp only [hd1, if_true, this, if_false]
        · simp only [hd1, if_false]
      · rfl
    rw [List.cons_append, hstep, ih depth idx _ _ rest hd hc, addArg_addArgs, List.length_cons]
    congr 1; omega
  | @group l r ts us h1 h2 _ _ ih1 ih2 =>
    intro depth idx args n rest hd hc
    have hl : scanArgs nb depth idx args n (l :: (ts ++ r :: us ++ rest)) = scanArgs nb (depth + 1) idx (addArg args idx l) (n + 1) (ts ++ r :: us ++ rest) := by
      rw [scanArgs, h1]
    rw [List.cons_append, List.cons_append, hl, List.append_assoc, ih1 (depth + 1) idx _ _ _ (by omega) (by omega)]
    rw [List.cons_append, scanArgs, h2]
    have : depth + 1 > 1 := by omega
    simp only [this, if_true, Nat.add_sub_cancel]
    rw [ih2 depth idx _ _ rest hd hc]
    congr 1
    · simp only [addArg_eq, addArgs_addArgs, List.cons_append, List.nil_append, List.append_assoc]
    · simp only [List.length_cons, List.length_append]; omega

/-- One argument at the top level. -/
theorem scan_argument (nb : Nat) {ts : List Tok} (h : Argument ts) : ∀ (idx : Nat) (args : Nat → List Tok) (n : Nat) (rest : List Tok),
    scanArgs nb 1 idx args n (ts ++ rest) = scanArgs nb 1 idx (addArgs args idx ts) (n + ts.length) rest := by
  induction h with
  | nil => intro idx args n rest; rw [addArgs_nil]; rfl
  | @tok t ts h1 h2 h3 _ ih =>
    intro idx args n rest
    have hstep : scanArgs nb 1 idx args n (t :: (ts ++ rest)) = scanArgs nb 1 idx (addArg args idx t) (n + 1) (ts ++ rest) := by
      rw [scanArgs]
      split
      · rename_i h; exact absurd h h1
      · rename_i h; exact absurd h h2
      · rename_i h; exact absurd h h3
      · rfl
    rw [List.cons_append, hstep, ih idx _ _ rest, addArg_addArgs, List.length_cons]
    congr 1; omega
  | @group l r ts us h1 h2 hb _ ih2 =>
    intro idx args n rest
    have hl : scanArgs nb 1 idx args n (l :: (ts ++ r :: us ++ rest)) = scanArgs nb 2 idx (addArg args idx l) (n + 1) (ts ++ r :: us ++ rest) := by
      rw [scanArgs, h1]
    rw [List.cons_append, List.cons_append, hl, List.append_assoc, scan_balanced nb hb 2 idx _ _ _ (by omega) (by omega)]
    rw [List.cons_append, scanArgs, h2]
    simp only [gt_iff_lt, Nat.reduceLT, if_true, Nat.add_one_sub_one]
    rw [ih2 idx _ _ rest]
    congr 1
    · simp only [addArg_eq, addArgs_addArgs, List.cons_append, List.nil_append, List.append_assoc]
    · simp only [List.length_cons, List.length_append]; omega

/-- The arguments, one after the other. -/
theorem scan_separated (nb : Nat) {as : List (List Tok)} {ts : List Tok} (h : Separated as ts) : ∀ (idx : Nat) (args : Nat → List Tok) (n : Nat)
    (rp : Tok) (rest : List Tok), rp.kind = .rparen → idx + as.length ≤ nb →
    (∀ (i : Nat) (a : List Tok), as[i]? = some a → Argument a ∨ (idx + i + 1 = nb ∧ Balanced a)) →
    scanArgs nb 1 idx args n (ts ++ rp :: rest) =
      (fun i => if idx ≤ i then args i ++ as.getD (i - idx) [] else args i, n + ts.length + 1, some rp.sym.range.e.char) := by
  have one : ∀ (a : List Tok) (idx : Nat) (args : Nat → List Tok) (n : Nat) (rest : List Tok), idx < nb → (Argument a ∨ (idx + 1 = nb ∧ Balanced a)) →
      scanArgs nb 1 idx args n (a ++ rest) = scanArgs nb 1 idx (addArgs args idx a) (n + a.length) rest := by
    intro a idx args n rest hi ha
    rcases ha with ha | ⟨hi2, ha⟩
    · exact scan_argument nb ha idx args n rest
    · exact scan_balanced nb ha 1 idx args n rest (by omega) (by omega)
  induction h with
  | @one a =>
    intro idx args n rp rest hr hlen ha
    have ha0 := ha 0 a rfl
    simp only [List.length_singleton] at hlen
    rw [one a idx args n _ (by omega) (by simpa using ha0), scanArgs, hr]
    simp only [gt_iff_lt, Nat.lt_irrefl, if_false, Prod.mk.injEq, and_true]
    funext i
    unfold addArgs
    by_cases h : i = idx
    · subst h; simp
    · simp only [h, if_false]
      by_cases h2 : idx ≤ i
      · have : i - idx = (i - idx - 1) + 1 := by omega
        rw [this]; simp
      · simp only [h2, if_false]
  | @cons a ts as c hc _ ih =>
    intro idx args n rp rest hr hlen ha
    simp only [List.length_cons] at hlen
    have hpos : 1 ≤ as.length := by
      rename_i hs
      cases hs <;> simp
    have ha0 := ha 0 a rfl
    rw [List.append_assoc, one a idx args n _ (by omega) (by simpa using ha0), List.cons_append, scanArgs, hc]
    have h1 : idx + 1 < nb := by omega
    simp only [if_true, h1]
    rw [ih (idx + 1) _ _ rp rest hr (by omega) (fun i b hb => by
      have := ha (i + 1) b (by simpa using hb)
      rcases this with h | ⟨h, h'⟩
      · exact Or.inl h
      · exact Or.inr ⟨by omega, h'⟩)]
    simp only [Prod.mk.injEq, and_true]
    constructor
    · funext i
      unfold addArgs
      by_cases h : i = idx
      · subst h
        have : ¬ (i + 1 ≤ i) := by omega
        simp only [this, if_false, if_true, Nat.le_refl, Nat.sub_self, List.getD_cons_zero]
      · simp only [h, if_false]
        by_cases h2 : idx + 1 ≤ i
        · have h3 : idx ≤ i := by omega
          have h4 : i - idx = (i - (idx + 1)) + 1 := by omega
          simp only [h2, h3, if_true]
          rw [h4, List.getD_cons_succ]
        · have h3 : ¬ idx ≤ i := by omega
          simp only [h2, h3, if_false]
    · simp only [List.length_append, List.length_cons]; omega

/-- **C26 (partial).** For a call `NAME(a₁, …, aₖ)` of a macro with at least `k` parameters, the arguments collected are exactly
`a₁, …, aₖ`, the columns from the opening to the closing parenthesis are counted, and the input continues right after it. Each `aᵢ` is balanced and has no comma outside parentheses;
the argument of the last parameter may contain such commas. What is missing: commas inside brackets and braces, at which the code
splits as well (`bracket_commas_refuted`). -/
theorem arguments_partial (line nb : Nat) (l r : Sym) (as : List (List Tok)) (ts rest : List Sym) (hl : l.kind = .lparen)
    (hline : l.range.s.line = line) (hr : r.kind = .rparen) (hs : Separated as (ts.map Sym.tok)) (hlen : as.length ≤ nb)
    (ha : ∀ (i : Nat) (a : List Tok), as[i]? = some a → Argument a ∨ (i + 1 = nb ∧ Balanced a)) :
    ∃ args, collectArguments ⟨[], [], l :: ts ++ r :: rest⟩ line nb = (⟨[], [], rest⟩, some (args, r.range.e.char - l.range.s.char)) ∧
      ∀ i, args i = as.getD i [] := by
  have hopen : scanOpen line [] (Src.avail ⟨[], [], l :: ts ++ r :: rest⟩) = .found 1 l.range.s.char := by
    have e : l.tok.kind = .lparen := hl
    have e2 : l.tok.sym.range.s.line = line := hline
    simp only [Src.avail, List.map_nil, List.nil_append, List.cons_append, List.map_cons, scanOpen, e, if_true, e2, ne_eq, not_true_eq_false, if_false, List.length_nil]
    rfl
  have hdrop : List.drop 1 (Src.avail ⟨[], [], l :: ts ++ r :: rest⟩) = ts.map Sym.tok ++ r.tok :: rest.map Sym.tok := by
    simp [Src.avail]
  have hscan := scan_separated nb hs 0 (fun _ => []) 0 r.tok (rest.map Sym.tok) hr (by omega) (fun i a h => by
    rcases ha i a h with h | ⟨h, h'⟩
    · exact Or.inl h
    · exact Or.inr ⟨by omega, h'⟩)
  unfold collectArguments
  rw [hopen]
  dsimp only
  rw [hdrop, hscan]
  refine ⟨fun i => as.getD i [], ?_, fun _ => rfl⟩
  simp only [Prod.mk.injEq, Option.some.injEq]
  refine ⟨?_, ?_, rfl⟩
  · simp only [Src.take, List.drop_nil, List.length_nil, Nat.sub_zero, List.length_map, Src.mk.injEq, true_and]
    rw [List.cons_append, show 1 + (0 + ts.length + 1) = (ts.length + 1) + 1 from by omega, List.drop_succ_cons,
      ← List.drop_drop, List.drop_left, List.drop_succ_cons, List.drop_zero]
  · funext i; simp

/-- Non-vacuity: the arguments of `F(a, (b, c))`. -/
example : ∃ as, Separated as ([tk .ident "a", tk .comma ",", tk .lparen "(", tk .ident "b", tk .comma ",", tk .ident "c", tk .rparen ")"].map Sym.tok) ∧
    as.length = 2 ∧ ∀ a ∈ as, Argument a := by
  refine ⟨[[(tk .ident "a").tok], [tk .lparen "(", tk .ident "b", tk .comma ",", tk .ident "c", tk .rparen ")"].map Sym.tok], ?_, rfl, ?_⟩
  · exact .cons (a := [(tk .ident "a").tok]) rfl .one
  · intro a ha
    simp only [List.mem_cons, List.not_mem_nil, or_false] at ha
    rcases ha with rfl | rfl
    · exact .tok (by decide) (by decide) (by decide) .nil
    · exact .group (l := (tk .lparen "(").tok) (r := (tk .rparen ")").tok) (ts := [(tk .ident "b").tok, (tk .comma ",").tok, (tk .ident "c").tok]) (us := []) rfl rfl
        (.tok (by decide) (by decide) (.tok (by decide) (by decide) (.tok (by decide) (by decide) .nil))) .nil

/-- **C26 is violated** for brackets and braces: of `F({1, 2}, 3)` with two parameters, the first argument is `{1` and the second
`2}, 3`. -/
theorem bracket_commas_refuted :
    ∃ s args d, collectArguments ⟨[], [], [tk .lparen "(", tk .lbrace "{", tk .intLit "1", tk .comma ",", tk .intLit "2", tk .rbrace "}", tk .comma ",",
        tk .intLit "3", tk .rparen ")"]⟩ 0 2 = (s, some (args, d)) ∧
      (args 0).map (fun t => String.ofList t.text) = ["{", "1"] ∧ (args 1).map (fun t => String.ofList t.text) = ["2", "}", ",", "3"] :=
  ⟨_, _, _, rfl, by decide, by decide⟩

/-! ### C27: substitution of the parameters -/

/-- A token with the kind, text and value of a body token. -/
def Like (s : Sym) (r : RSym) : Prop := s.kind = r.kind ∧ s.text = r.text ∧ s.val = r.val

theorem like_body (prev : Rng) (b : List RSym) : List.Forall₂ Like (bodySyms prev b) b := by
  induction b generalizing prev with
  | nil => exact .nil
  | cons r b ih => exact .cons ⟨rfl, rfl, rfl⟩ (ih _)

theorem stringize_eq (ts : List Tok) : stringizeText ts = '"' :: (quotedText ts ++ ['"']) := by
  have hrep : ∀ u : Tok, (if u.sym.delta.col > 0 then List.replicate u.sym.delta.col.toNat ' ' else []) = List.replicate u.sym.delta.col.toNat ' ' := by
    intro u
    by_cases h : u.sym.delta.col > 0
    · simp only [h, if_true]
    · have : u.sym.delta.col.toNat = 0 := by omega
      simp only [h, if_false, this, List.replicate_zero]
  unfold stringizeText
  cases ts with
  | nil => rfl
  | cons t ts =>
    rw [List.mapIdx_cons]
    simp only [quotedText, gt_iff_lt, Nat.lt_irrefl, false_and, if_false, List.nil_append, List.flatten_cons, Nat.zero_lt_succ, true_and,
      List.cons.injEq, List.append_assoc, List.append_cancel_left_eq, Nat.lt_add_left_iff_pos]
    congr 2
    apply List.ext_getElem
    · simp
    · intro i h1 h2
      simp only [List.getElem_mapIdx, List.getElem_map]
      have := hrep (ts[i]'(by simpa using h2))
      simp only [gt_iff_lt] at this
      rw [this]

theorem bodyLoop_append (args : Nat → List Tok) (m : Macro) (symbol : Sym) (delta : Delta) (depth : Nat) (a b : List Sym) : ∀ (i : Nat) (st : MSt),
    bodyLoop args m symbol delta depth i (a ++ b) st = (bodyLoop args m symbol delta depth i a st).bind (bodyLoop args m symbol delta depth (i + a.length) b) := by
  induction a with
  | nil => intro i st; rfl
  | cons c a ih =>
    intro i st
    simp only [List.cons_append, bodyLoop]
    cases bodyStep args m symbol delta depth i c st with
    | none => rfl
    | some st' =>
      dsimp only
      rw [ih, List.length_cons]
      congr 2; omega

/-- An ordinary token that is not the final line break is kept. -/
theorem step_plain (args : Nat → List Tok) (m : Macro) (symbol : Sym) (delta : Delta) (depth i : Nat) (c : Sym) (st : MSt)
    (h1 : c.kind ≠ .op .percent) (h2 : c.kind ≠ .op .stringize) (h3 : c.kind = .newline → i + 1 ≠ m.body.length) (h4 : st.percents ≠ 1)
    (h5 : st.stringize = none) :
    ∃ q, ofQ q = ofSym c ∧ bodyStep args m symbol delta depth i c st = some ⟨st.ctx ++ [q], 0, none⟩ := by
  unfold bodyStep
  split
  · rename_i h; exact absurd h h1
  · rename_i h; exact absurd h h2
  · simp only [h4, if_false, h5]
    exact ⟨_, rfl, rfl⟩
  · rename_i h
    have : ¬ (c.kind = .newline ∧ i + 1 = m.body.length) := fun hc => h3 hc.1 hc.2
    simp only [this, if_false]
    refine ⟨_, ?_, rfl⟩; rfl

theorem step_subst (args : Nat → List Tok) (m : Macro) (params : List Int) (hm : m.params = some params) (symbol : Sym) (delta : Delta) (depth i : Nat) (c : Sym)
    (ctx : List QTok) (pct : QTok) (n a : Nat) (hk : c.kind = .intLit) (hv : c.val = some (n : Int)) (hn : n < 10) (ha : a < 10)
    (hp : params[n]? = some (a : Int)) :
    ∃ q, q.map ofQ = (args a).map ofTok ∧ bodyStep args m symbol delta depth i c ⟨ctx ++ [pct], 1, none⟩ = some ⟨ctx ++ q, 0, none⟩ := by
  have c1 : ¬ ((n : Int) < 0 ∨ 10 ≤ (n : Int)) := by omega
  have c2 : ¬ ((a : Int) < 0 ∨ 10 ≤ (a : Int)) := by omega
  simp only [bodyStep, hk, if_true, substParam, List.getLast?_concat, hv, c1, if_false, hm, Option.getD_some, Int.toNat_natCast, hp, c2,
    List.dropLast_concat]
  refine ⟨_, ?_, rfl⟩
  apply List.ext_getElem
  · simp
  · intro j h1 h2
    simp only [List.getElem_map, List.getElem_mapIdx, ofQ]
    split <;> rfl

theorem step_quote (args : Nat → List Tok) (m : Macro) (params : List Int) (hm : m.params = some params) (symbol : Sym) (delta d : Delta) (depth i : Nat) (c : Sym)
    (ctx : List QTok) (hash pct : QTok) (n a : Nat) (hk : c.kind = .intLit) (hv : c.val = some (n : Int)) (hn : n < 10) (ha : a < 10)
    (hp : params[n]? = some (a : Int)) :
    ∃ q, ofQ q = (.strLit, '"' :: (quotedText (args a) ++ ['"'])) ∧
      bodyStep args m symbol delta depth i c ⟨ctx ++ [hash] ++ [pct], 1, some d⟩ = some ⟨ctx ++ [q], 0, none⟩ := by
  have c1 : ¬ ((n : Int) < 0 ∨ 10 ≤ (n : Int)) := by omega
  have c2 : ¬ ((a : Int) < 0 ∨ 10 ≤ (a : Int)) := by omega
  simp only [bodyStep, hk, if_true, substParam, List.getLast?_concat, hv, c1, if_false, hm, Option.getD_some, Int.toNat_natCast, hp, c2,
    List.dropLast_concat]
  refine ⟨_, ?_, rfl⟩
  simp only [ofQ, ofTok, Tok.kind, Tok.text, Sym.tok, stringize_eq]

/-- The position of parameter `%n`. -/
def position (params : List Int) (n : Nat) : Nat := ((params[n]?).getD 0).toNat

/-- One piece of the body. -/
theorem piece_run (args : Nat → List Tok) (m : Macro) (params : List Int) (hm : m.params = some params) (symbol : Sym) (delta : Delta) (depth : Nat)
    (p : Piece) (hwf : p.WF params) (cs : List Sym) (hcs : List.Forall₂ Like cs p.tokens) (i : Nat) (ctx : List QTok)
    (hnl : ∀ c, cs.getLast? = some c → c.kind = .newline → i + cs.length ≠ m.body.length) :
    ∃ q, q.map ofQ = p.result (fun n => args (position params n)) ∧
      bodyLoop args m symbol delta depth i cs ⟨ctx, 0, none⟩ = some ⟨ctx ++ q, 0, none⟩ := by
  cases p with
  | plain r =>
    simp only [Piece.tokens] at hcs
    cases hcs with
    | @cons c _ cs _ hc hnil =>
      cases hnil
      obtain ⟨q, e1, e2⟩ := step_plain args m symbol delta depth i c ⟨ctx, 0, none⟩ (by rw [hc.1]; exact hwf.1) (by rw [hc.1]; exact hwf.2)
        (fun h => hnl c rfl h) (by simp) rfl
      refine ⟨[q], ?_, ?_⟩
      · simp only [List.map_cons, List.map_nil, e1, Piece.result, ofSym, ofRSym, hc.1, hc.2.1]
      · simp only [bodyLoop, e2]
  | param pc l n =>
    simp only [Piece.tokens] at hcs
    obtain ⟨w1, w2, w3, a, ha, hn, hp⟩ := hwf
    cases hcs with
    | @cons c1 _ cs _ hc1 hrest =>
      cases hrest with
      | @cons c2 _ cs _ hc2 hnil =>
        cases hnil
        have hstep1 : bodyStep args m symbol delta depth i c1 ⟨ctx, 0, none⟩ = some ⟨ctx ++ [⟨c1.tok, c1.delta⟩], 1, none⟩ := by
          simp only [bodyStep, hc1.1, w1]; rfl
        obtain ⟨q, e1, e2⟩ := step_subst args m params hm symbol delta depth (i + 1) c2 ctx ⟨c1.tok, c1.delta⟩ n a (by rw [hc2.1, w2]) (by rw [hc2.2.2, w3]) hn ha hp
        refine ⟨q, ?_, ?_⟩
        · rw [e1]
          simp only [Piece.result, position, hp, Option.getD_some, Int.toNat_natCast]
        · simp only [bodyLoop, hstep1, e2]
  | quoted h pc l n =>
    simp only [Piece.tokens] at hcs
    obtain ⟨w0, w1, w2, w3, a, ha, hn, hp⟩ := hwf
    cases hcs with
    | @cons c0 _ cs _ hc0 hrest =>
      cases hrest with
      | @cons c1 _ cs _ hc1 hrest =>
        cases hrest with
        | @cons c2 _ cs _ hc2 hnil =>
          cases hnil
          have hstep0 : bodyStep args m symbol delta depth i c0 ⟨ctx, 0, none⟩ = some ⟨ctx ++ [⟨c0.tok, c0.delta⟩], 0, some c0.delta⟩ := by
            simp only [bodyStep, hc0.1, w0]
          have hstep1 : bodyStep args m symbol delta depth (i + 1) c1 ⟨ctx ++ [⟨c0.tok, c0.delta⟩], 0, some c0.delta⟩ =
              some ⟨ctx ++ [⟨c0.tok, c0.delta⟩] ++ [⟨c1.tok, c1.delta⟩], 1, some c0.delta⟩ := by
            simp only [bodyStep, hc1.1, w1]; rfl
          obtain ⟨q, e1, e2⟩ := step_quote args m params hm symbol delta c0.delta depth (i + 1 + 1) c2 ctx ⟨c0.tok, c0.delta⟩ ⟨c1.tok, c1.delta⟩ n a
            (by rw [hc2.1, w2]) (by rw [hc2.2.2, w3]) hn ha hp
          refine ⟨[q], ?_, ?_⟩
          · simp only [List.map_cons, List.map_nil, e1, Piece.result, position, hp, Option.getD_some, Int.toNat_natCast]
          · simp only [bodyLoop, hstep0, hstep1, e2]
  | escaped p1 p2 x =>
    simp only [Piece.tokens] at hcs
    obtain ⟨w1, w2, w3⟩ := hwf
    cases hcs with
    | @cons c0 _ cs _ hc0 hrest =>
      cases hrest with
      | @cons c1 _ cs _ hc1 hrest =>
        cases hrest with
        | @cons c2 _ cs _ hc2 hnil =>
          cases hnil
          have hstep0 : bodyStep args m symbol delta depth i c0 ⟨ctx, 0, none⟩ = some ⟨ctx ++ [⟨c0.tok, c0.delta⟩], 1, none⟩ := by
            simp only [bodyStep, hc0.1, w1]; rfl
          have hstep1 : bodyStep args m symbol delta depth (i + 1) c1 ⟨ctx ++ [⟨c0.tok, c0.delta⟩], 1, none⟩ = some ⟨ctx ++ [⟨c0.tok, c0.delta⟩], 2, none⟩ := by
            simp only [bodyStep, hc1.1, w2]; rfl
          obtain ⟨q, e1, e2⟩ := step_plain args m symbol delta depth (i + 1 + 1) c2 ⟨ctx ++ [⟨c0.tok, c0.delta⟩], 2, none⟩ (by rw [hc2.1]; exact w3.1)
            (by rw [hc2.1]; exact w3.2) (fun h => by have := hnl c2 rfl h; simp only [List.length_cons, List.length_nil] at this; omega) (by simp) rfl
          refine ⟨[⟨c0.tok, c0.delta⟩, q], ?_, ?_⟩
          · simp only [List.map_cons, List.map_nil, e1, Piece.result, ofSym, ofRSym, hc2.1, hc2.2.1, List.cons.injEq, and_true]
            simp only [ofQ, ofTok, Tok.kind, Tok.text, Sym.tok, hc0.1, hc0.2.1]
          · simp only [bodyLoop, hstep0, hstep1, e2, List.append_assoc, List.cons_append, List.nil_append]

theorem forall2_append_split {cs : List Sym} {a b : List RSym} (h : List.Forall₂ Like cs (a ++ b)) :
    ∃ c1 c2, cs = c1 ++ c2 ∧ List.Forall₂ Like c1 a ∧ List.Forall₂ Like c2 b := by
  induction a generalizing cs with
  | nil => exact ⟨[], cs, rfl, .nil, h⟩
  | cons r a ih =>
    cases h with
    | cons hc hrest =>
      obtain ⟨c1, c2, rfl, h1, h2⟩ := ih hrest
      exact ⟨_ :: c1, c2, rfl, .cons hc h1, h2⟩

theorem pieces_run (args : Nat → List Tok) (m : Macro) (params : List Int) (hm : m.params = some params) (symbol : Sym) (delta : Delta) (depth : Nat)
    (ps : List Piece) : ∀ (cs : List Sym) (i : Nat) (ctx : List QTok), (∀ p ∈ ps, p.WF params) → List.Forall₂ Like cs (ps.flatMap Piece.tokens) →
    (∀ c, cs.getLast? = some c → c.kind = .newline → i + cs.length ≠ m.body.length) → i + cs.length ≤ m.body.length →
    ∃ q, q.map ofQ = ps.flatMap (Piece.result (fun n => args (position params n))) ∧
      bodyLoop args m symbol delta depth i cs ⟨ctx, 0, none⟩ = some ⟨ctx ++ q, 0, none⟩ := by
  induction ps with
  | nil =>
    intro cs i ctx _ hcs _ _
    cases hcs
    exact ⟨[], rfl, by simp [bodyLoop]⟩
  | cons p ps ih =>
    intro cs i ctx hwf hcs hnl hlen
    rw [List.flatMap_cons] at hcs
    obtain ⟨c1, c2, rfl, h1, h2⟩ := forall2_append_split hcs
    rw [List.length_append] at hlen
    obtain ⟨q1, e1, f1⟩ := piece_run args m params hm symbol delta depth p (hwf p (by simp)) c1 h1 i ctx (by
      intro c hc hk
      cases c2 with
      | nil => simp only [List.append_nil] at hnl; exact hnl c hc hk
      | cons x c2 => simp only [List.length_cons] at hlen; omega)
    obtain ⟨q2, e2, f2⟩ := ih c2 (i + c1.length) (ctx ++ q1) (fun p hp => hwf p (by simp [hp])) h2 (by
      intro c hc hk
      have := hnl c (by rw [List.getLast?_append, hc]; rfl) hk
      rw [List.length_append] at this
      omega) (by omega)
    refine ⟨q1 ++ q2, ?_, ?_⟩
    · rw [List.map_append, e1, e2, List.flatMap_cons]
    · rw [bodyLoop_append, f1]
      simp only [Option.bind_some]
      rw [f2, List.append_assoc]

/-- **C27.** The expansion of a call is the body with every `%n` replaced by the argument at the position of the parameter declared
as `%n`, every `#%n` by that argument as a string, `%%` by `%`, and all other tokens kept in order; a final line break is dropped. -/
theorem substitution (args : Nat → List Tok) (m : Macro) (params : List Int) (hm : m.params = some params) (symbol : Sym) (delta : Delta) (depth : Nat)
    (ps : List Piece) (fin : List RSym) (hwf : ∀ p ∈ ps, p.WF params) (hbody : m.body = ps.flatMap Piece.tokens ++ fin)
    (hfin : (∃ nl : RSym, nl.kind = .newline ∧ fin = [nl]) ∨ (fin = [] ∧ ∀ r, m.body.getLast? = some r → r.kind ≠ .newline)) :
    ∃ q, q.map ofQ = ps.flatMap (Piece.result (fun n => args (position params n))) ∧ expandMacro args m symbol delta depth = some q := by
  have hlike := like_body symbol.range m.body
  have hlen0 : (bodySyms symbol.range m.body).length = m.body.length := hlike.length_eq
  unfold expandMacro
  generalize bodySyms symbol.range m.body = cs at hlike hlen0
  conv at hlike => rw [hbody]
  obtain ⟨c1, c2, rfl, h1, h2⟩ := forall2_append_split hlike
  rw [List.length_append] at hlen0
  obtain ⟨q, e, f⟩ := pieces_run args m params hm symbol delta depth ps c1 0 [] hwf h1 (by
    intro c hc hk
    rcases hfin with ⟨nl, hnl, rfl⟩ | ⟨rfl, hlast⟩
    · have := h2.length_eq
      simp only [List.length_singleton] at this
      omega
    · exfalso
      have hb : m.body = ps.flatMap Piece.tokens := by rw [hbody, List.append_nil]
      rw [← hb] at h1
      have hne : c1 ≠ [] := by intro h; subst h; simp at hc
      have hl : c1.length = m.body.length := h1.length_eq
      have hne2 : m.body ≠ [] := by intro h; rw [h] at hl; exact hne (List.length_eq_zero_iff.1 hl)
      rw [List.getLast?_eq_some_getLast hne, Option.some.injEq] at hc
      have hr := hlast _ (List.getLast?_eq_some_getLast hne2)
      have hlk : Like (c1.getLast hne) (m.body.getLast hne2) := by
        rw [List.getLast_eq_getElem, List.getLast_eq_getElem]
        have := List.forall₂_iff_get.1 h1
        have h3 := this.2 (c1.length - 1) (by have := List.length_pos_iff.2 hne; omega) (by have := List.length_pos_iff.2 hne; omega)
        simp only [List.get_eq_getElem] at h3
        simpa only [hl] using h3
      exact hr (by rw [← hlk.1, hc]; exact hk)) (by omega)
  refine ⟨q, e, ?_⟩
  rw [bodyLoop_append, f]
  simp only [Option.bind_some, List.nil_append, Nat.zero_add]
  rcases hfin with ⟨nl, hnl, rfl⟩ | ⟨rfl, _⟩
  · cases h2 with
    | @cons c _ _ _ hc hnil =>
      cases hnil
      have hstep : bodyStep args m symbol delta depth c1.length c ⟨q, 0, none⟩ = some ⟨q, 0, none⟩ := by
        have hk : c.kind = .newline := by rw [hc.1, hnl]
        have hl : c1.length + 1 = m.body.length := by simpa using hlen0
        simp only [bodyStep, hk, hl, and_self, if_true]
      simp only [bodyLoop, hstep, Option.map_some]
  · cases h2
    rfl

end Verif.Props.MacroArgs
