import Verif.Ide.Goto
import Verif.Props.Hover
/-!
# C80: go-to-definition underlines the name and leads to the name of the definition
-/

namespace Verif.Props.Goto

open Verif.Pre Verif.Pre.Spec Verif.Ide.Goto Verif.Ide.Goto.Spec Verif.Props.Position Verif.Props.Offsets

/-! ### The node at a position -/

theorem le_trans {a b c : Pos} (h : Pos.le a b) (h' : Pos.le b c) : Pos.le a c := by simp only [Pos.le] at *; omega

theorem le_refl (a : Pos) : Pos.le a a := .inr ⟨rfl, Nat.le_refl _⟩

theorem before_iff {a b : Pos} : before a b = true ↔ ¬ Pos.le b a := by simp only [before, Pos.le, decide_eq_true_eq]; omega

mutual
theorem leaf_within : ∀ (t : Node), Ordered t → Pos.le t.range.s t.range.e ∧ ∀ l ∈ leaves t, Pos.le t.range.s l.range.s ∧ Pos.le l.range.e t.range.e
  | .mk k r f [], h => by
    refine ⟨h, fun l hl => ?_⟩
    simp only [leaves, List.mem_singleton] at hl
    subst hl; exact ⟨le_refl _, le_refl _⟩
  | .mk k r f (c :: cs), h => by
    have h' : OrderedIn r.s (c :: cs) r.e := h
    obtain ⟨h1, h2⟩ := leaf_within_in (c :: cs) r.s r.e h'
    exact ⟨h1, fun l hl => h2 l (by simpa [leaves, leavesIn] using hl)⟩

theorem leaf_within_in : ∀ (cs : List Node) (lo hi : Pos), OrderedIn lo cs hi → Pos.le lo hi ∧ ∀ l ∈ leavesIn cs, Pos.le lo l.range.s ∧ Pos.le l.range.e hi
  | [], lo, hi, h => ⟨h, by simp [leavesIn]⟩
  | c :: cs, lo, hi, h => by
    obtain ⟨h1, h2, h3⟩ := h
    obtain ⟨h4, h5⟩ := leaf_within c h2
    obtain ⟨h6, h7⟩ := leaf_within_in cs _ hi h3
    refine ⟨le_trans h1 (le_trans h4 h6), fun l hl => ?_⟩
    simp only [leavesIn, List.mem_append] at hl
    rcases hl with hl | hl
    · exact ⟨le_trans h1 (h5 l hl).1, le_trans (h5 l hl).2 h6⟩
    · exact ⟨le_trans h1 (le_trans h4 (h7 l hl).1), (h7 l hl).2⟩
end

mutual
theorem node_at_leaf {p : Pos} {l : Node} (hs : Pos.le l.range.s p) (he : before p l.range.e = true) : ∀ (t : Node), Ordered t → l ∈ leaves t → nodeAt p t = l
  | .mk k r f [], h, hl => by
    simp only [leaves, List.mem_singleton] at hl
    subst hl; rfl
  | .mk k r f (c :: cs), h, hl => by
    have h' : OrderedIn r.s (c :: cs) r.e := h
    rw [nodeAt, node_in_leaf hs he (c :: cs) r.s r.e h' (by simpa [leaves, leavesIn] using hl)]
    rfl

theorem node_in_leaf {p : Pos} {l : Node} (hs : Pos.le l.range.s p) (he : before p l.range.e = true) :
    ∀ (cs : List Node) (lo hi : Pos), OrderedIn lo cs hi → l ∈ leavesIn cs → nodeIn p cs = some l
  | [], lo, hi, h, hl => by simp [leavesIn] at hl
  | c :: cs, lo, hi, h, hl => by
    obtain ⟨h1, h2, h3⟩ := h
    obtain ⟨h4, h5⟩ := leaf_within c h2
    simp only [leavesIn, List.mem_append] at hl
    rcases hl with hl | hl
    · have hb : before p c.range.e = true := by
        rw [before_iff] at he ⊢
        exact fun hc => he (le_trans (h5 l hl).2 hc)
      have hb' : before p c.range.s = false := by
        rw [← Bool.not_eq_true, before_iff, not_not]
        exact le_trans (h5 l hl).1 hs
      rw [nodeIn, hb, if_neg (by simp), hb', if_neg (by simp), node_at_leaf hs he c h2 hl]
    · have h7 := (leaf_within_in cs _ hi h3).2 l hl
      have hb : before p c.range.e = false := by
        rw [← Bool.not_eq_true, before_iff, not_not]
        exact le_trans h7.1 hs
      rw [nodeIn, hb, if_pos rfl]
      exact node_in_leaf hs he cs _ hi h3 hl
end

/-! ### The name of a definition -/

theorem find_filter {α : Type} {p : α → Bool} {l : List α} {g : α} (h : l.filter p = [g]) : l.find? p = some g := by
  rw [← List.head?_filter, h]; rfl

theorem named {n : Node} {r : Rng} (h : Ide.Goto.Spec.Named n r) : n.name = some r := by
  obtain ⟨g, h1, h2⟩ := h
  rw [Node.name, find_filter h1, Option.map_some, h2]

theorem accessor_none {c : Node} (h : ¬ (c.kind = .methodmap_property_getter ∨ c.kind = .methodmap_property_setter)) : accessorName c = none := by
  simp only [accessorName, h, if_false]

theorem accessor_filter {r : Rng} : ∀ (l : List Node) (c : Node),
    l.filter (fun c => c.kind = .methodmap_property_getter ∨ c.kind = .methodmap_property_setter) = [c] → c.name = some r → l.findSome? accessorName = some r
  | [], c, h, _ => by simp at h
  | x :: l, c, h, hc => by
    by_cases hx : x.kind = .methodmap_property_getter ∨ x.kind = .methodmap_property_setter
    · rw [List.filter_cons_of_pos (by simpa using hx)] at h
      simp only [List.cons.injEq] at h
      obtain ⟨rfl, -⟩ := h
      simp only [List.findSome?_cons, accessorName, hx, if_true, hc]
    · rw [List.filter_cons_of_neg (by simpa using hx)] at h
      rw [List.findSome?_cons, accessor_none hx]
      exact accessor_filter l c h hc

theorem name_of {n : Node} {r : Rng} (h : NameOf n r) : innerName n = r := by
  unfold NameOf at h
  unfold innerName
  split at h
  · rename_i hk
    rw [if_pos hk]
    rcases h with ⟨c, h1, h2⟩ | ⟨h1, rfl⟩
    · rw [accessor_filter _ c h1 (named h2)]; rfl
    · rw [List.findSome?_eq_none_iff.2 fun c hc => accessor_none fun h => h.elim (h1 c hc).1 (h1 c hc).2]; rfl
  · rename_i hk
    rw [if_neg hk]
    rcases h with h | ⟨h1, rfl⟩
    · rw [named h]; rfl
    · rw [Node.name, List.find?_eq_none.2 (fun c hc => by simp [h1 c hc])]; rfl

/-! ### Words of a line -/

/-- The column of the preprocessed line for a column of the source. -/
def placeOf (r : PSt) (n a : Nat) : Nat := (uToS r.argsMap r.offsets ⟨n, a⟩).1.char

theorem word_places {line : Line} {ofs : List (Nat × Offset)} {am : List (Rng × Rng)} {n L a b : Nat} {txt : Str} {segs : List Seg}
    (hok : LineOk line.macros line.uses n L line.src txt segs (onLine ofs n) am) (hab : a < b) (hb : b ≤ line.src.length)
    (hout : ∀ w ∈ line.uses, w.stop ≤ a ∨ b ≤ w.name.range.s.char) :
    ∃ a', ∀ j ≤ b - a, SamePlace segs (a + j) (a' + j) := by
  have inText : ∀ u, a ≤ u → u < b → ∃ pre k post i, segs = pre ++ .text k :: post ∧ i < k ∧ u = userLen pre + i := by
    intro u h1 h2
    have hul : u < userLen segs := by rw [hok.same.1]; omega
    rcases column_cases segs 0 _ u hok.describes hul with h | ⟨pre, k, m, o, post, e, e1, e2⟩
    · exact h
    · exfalso
      obtain ⟨w, hw, -, hr, hstop, -⟩ := hok.spans pre k m o post e
      have := hout w hw
      rw [hr, hstop] at this
      dsimp only at this
      omega
  have uniq : ∀ u s s', SamePlace segs u s → SamePlace segs u s' → s = s' := by
    intro u s s' h h'
    have e1 := to_server [] ofs n segs u s hok.describes hok.named h (by simp [onLine])
    have e2 := to_server [] ofs n segs u s' hok.describes hok.named h' (by simp [onLine])
    rw [e1] at e2
    simpa using e2
  obtain ⟨pre, k, post, i, e, hi, hu⟩ := inText a (Nat.le_refl _) hab
  refine ⟨serverLen pre + i, fun j => ?_⟩
  induction j with
  | zero =>
    intro _
    exact ⟨pre, k, post, i, e, by omega, hu, rfl⟩
  | succ j ih =>
    intro hj
    have ihp := ih (by omega)
    obtain ⟨pre1, k1, post1, i1, e1, hi1, hu1⟩ := inText (a + j) (by omega) (by omega)
    have hsame : SamePlace segs (a + (j + 1)) (serverLen pre1 + i1 + 1) := ⟨pre1, k1, post1, i1 + 1, e1, by omega, by omega, by omega⟩
    have h1 := uniq _ _ _ ihp ⟨pre1, k1, post1, i1, e1, by omega, hu1, rfl⟩
    rw [show serverLen pre + i + (j + 1) = serverLen pre1 + i1 + 1 by omega]
    exact hsame

/-- What the run of the preprocessor gives for words. -/
theorem words {env : Env} {ms : Macros} {tokens : List Sym} {lines : List Line} (hf : File env 0 ⟨ms, 0, []⟩ tokens lines) (hb : Unbroken lines) :
    ∃ r, Gives env ms tokens (.result r) ∧ SameText lines (textLines r.out) (placeOf r) ∧
      (∀ n a b, Word lines n a b → Apart lines n a → ∀ u, a ≤ u → u < b → uToS r.argsMap r.offsets ⟨n, u⟩ = (⟨n, placeOf r n a + (u - a)⟩, none) ∧
        (onLine r.offsets n).find? (·.contains ⟨n, u⟩) = none) ∧
      ∀ n a b, Word lines n a b → sToU r.offsets (wordRange n (placeOf r n a) (placeOf r n a + (b - a))) = wordRange n a b := by
  obtain ⟨f, r, outs, ofs, am, h1, h2, h3, h4, h6, h7, h8⟩ := file_text hf hb
  have away : ∀ {n L : Nat} {line : Line} {txt : Str} {a b : Nat}, lines[n]? = some line → ArgsOk line.uses L txt (onLine am n) →
      (∀ w ∈ line.uses, w.stop ≤ a ∨ b ≤ w.name.range.s.char) → a < b → ∀ j ≤ b - a, ∀ x ∈ onLine r.argsMap n, ¬ In ⟨n, a + j⟩ x.1 := by
    intro n L line txt a b hl hargs hout hab j hj x hx hin
    have harr := file_lines hf n line hl
    rw [Nat.zero_add] at harr
    rw [h2] at hx
    obtain ⟨w, hw, y, -, -, -, g, -⟩ := entry_token harr hargs hx ((contains_correct _ _).2 hin)
    have := (harr.each w hw).name
    have := hout w hw
    omega
  have key : ∀ n a b, Word lines n a b → ∃ line txt segs a', lines[n]? = some line ∧ outs[n]? = some txt ∧
      LineOk line.macros line.uses n (counted (lines.take n)) line.src txt segs (onLine ofs n) (onLine am n) ∧
      (∀ w ∈ line.uses, w.stop ≤ a ∨ b ≤ w.name.range.s.char) ∧ a < b ∧
      (∀ j ≤ b - a, SamePlace segs (a + j) (a' + j)) ∧
      ∀ j ≤ b - a, uToS r.argsMap r.offsets ⟨n, a + j⟩ = (⟨n, a' + j⟩, none) := by
    rintro n a b ⟨line, hl, hk, hab, hb, hout⟩
    obtain ⟨txt, ht, hok⟩ := h7 n line hl
    obtain ⟨segs, hok, -⟩ := hok hk
    obtain ⟨a', ha'⟩ := word_places hok hab hb hout
    refine ⟨line, txt, segs, a', hl, ht, hok, hout, hab, ha', fun j hj => ?_⟩
    exact to_server _ _ n segs _ _ (by rw [h4]; exact hok.describes) hok.named (ha' j hj) (away hl hok.args hout hab j hj)
  have place : ∀ n a a', uToS r.argsMap r.offsets ⟨n, a + 0⟩ = (⟨n, a' + 0⟩, none) → placeOf r n a = a' := by
    intro n a a' h
    have h : uToS r.argsMap r.offsets ⟨n, a⟩ = (⟨n, a'⟩, none) := h
    simp only [placeOf, h]
  refine ⟨r, Verif.Props.Conditional.gives_of f h1, ?_, ?_, ?_⟩
  · intro n line hl hk
    obtain ⟨txt, ht, hok⟩ := h7 n line hl
    obtain ⟨segs, hok, -⟩ := hok hk
    refine ⟨txt, segs, by rw [h3]; exact ht, ⟨hok.same.1, hok.same.2.1, hok.same.2.2, fun pre k a o post e => ?_⟩, fun a b hw => ?_⟩
    · obtain ⟨s, hs, -, hr, hstop, -⟩ := hok.spans pre k a o post e
      exact ⟨s, hs, hr, hstop⟩
    · obtain ⟨line', hl', hk', hab, hb, hout⟩ := hw
      rw [hl] at hl'; cases hl'
      obtain ⟨a', ha'⟩ := word_places hok hab hb hout
      have := to_server r.argsMap r.offsets n segs _ _ (by rw [h4]; exact hok.describes) hok.named (ha' 0 (by omega))
        (away hl hok.args hout hab 0 (by omega))
      rw [place n a a' this]
      exact ha'
  · intro n a b hw hap u hu1 hu2
    obtain ⟨line, txt, segs, a', hl, ht, hok, hout, hab, h9, h10⟩ := key n a b hw
    have hp := place n a a' (h10 0 (by omega))
    have := h10 (u - a) (by omega)
    rw [show a + (u - a) = u by omega] at this
    refine ⟨by rw [hp]; exact this, ?_⟩
    rw [List.find?_eq_none]
    intro x hx hc
    rw [h4] at hx
    obtain ⟨s, hs, -, hr, -⟩ := hok.uses x hx
    obtain ⟨w1, w2, -⟩ := Verif.Props.Hover.describes_within _ _ _ hok.describes hok.named x hx
    have := (Verif.Props.Hover.contains_line w1 w2).1 hc
    have h11 := hout s hs
    have h12 := hap line hl s hs
    have h13 := ((file_lines hf n line hl).each s hs).name
    rw [← hr] at h11 h12 h13
    omega
  · intro n a b hw
    obtain ⟨line, txt, segs, a', hl, ht, hok, hout, hab, h9, h10⟩ := key n a b hw
    have hp := place n a a' (h10 0 (by omega))
    have e1 := h9 0 (by omega)
    have e2 := h9 (b - a) (by omega)
    have := to_user_partial r.offsets n segs _ _ _ _ (by rw [h4]; exact hok.describes) hok.nonEmpty e1 e2
    rw [show a + (b - a) = b by omega] at this
    rw [hp]
    exact this

/-! ### The answer -/

theorem gives_det {env : Env} {ms : Macros} {tokens : List Sym} {a b : Final} (h : Gives env ms tokens a) (h' : Gives env ms tokens b) : a = b := by
  obtain ⟨f, hf⟩ := h
  obtain ⟨g, hg⟩ := h'
  have h1 := hf (f + g) (by omega)
  rw [hg (f + g) (by omega)] at h1
  simpa using h1.symm

/-- **C80 (for files of a class)**: the files are of code, definitions, includes, conditional directives and code that is not compiled (`File`). There are
results of preprocessing both files, in which every word has its place. If the position is on a word of the file which is a token of the syntax tree and
has a definition, then exactly this word is underlined, and the name that is selected in the target is the name of the definition, where it is in the
source; if the definition is on one line, from the start of a word to the end of a word, the whole range of the target is where the definition is in the
source. What is missing: definitions with a name in an expansion, and the end of definitions over several lines. -/
theorem goto_partial (env env' : Env) (ms ms' : Macros) (tokens tokens' : List Sym) (lines lines' : List Line)
    (hf : File env 0 ⟨ms, 0, []⟩ tokens lines) (hb : Unbroken lines) (hf' : File env' 0 ⟨ms', 0, []⟩ tokens' lines') (hb' : Unbroken lines') :
    ∃ r r' place place', Gives env ms tokens (.result r) ∧ Gives env' ms' tokens' (.result r') ∧ SameText lines (textLines r.out) place ∧ SameText lines' (textLines r'.out) place' ∧
      ∀ {Def : Type} (S : Sema Def) (file : Nat), S.results file = r → Ordered (S.trees file) →
      ∀ n a b, Word lines n a b → Apart lines n a → ∀ leaf ∈ leaves (S.trees file), leaf.range = wordRange n (place n a) (place n a + (b - a)) →
      ∀ d node, S.findDef file leaf = some d → S.source d (S.trees (S.fileOf d)) = some node → S.results (S.fileOf d) = r' →
      ∀ n' a' b', Word lines' n' a' b' → NameOf node (wordRange n' (place' n' a') (place' n' a' + (b' - a'))) →
      ∀ u, a ≤ u → u < b → ∃ full, goto S file ⟨n, u⟩ = some (wordRange n a b, ⟨S.fileOf d, full, wordRange n' a' b'⟩) ∧
        ∀ m x y x' y', Word lines' m x y → Word lines' m x' y' → node.range = ⟨⟨m, place' m x⟩, ⟨m, place' m x' + (y' - x')⟩⟩ → full = ⟨⟨m, x⟩, ⟨m, y'⟩⟩ := by
  obtain ⟨r, g1, t1, w1, b1⟩ := words hf hb
  obtain ⟨r', g2, t2, w2, b2⟩ := words hf' hb'
  refine ⟨r, r', placeOf r, placeOf r', g1, g2, t1, t2, ?_⟩
  intro Def S file hr hord n a b hw hap leaf hleaf hlr d node hd hsrc hr' n' a' b' hw' hname u hu1 hu2
  obtain ⟨e1, e2⟩ := w1 n a b hw hap u hu1 hu2
  have hm : macroAt S (S.results file).offsets ⟨n, u⟩ = none := by
    simp only [macroAt, hr]
    rw [e2]; rfl
  have hnode : nodeAt ⟨n, placeOf r n a + (u - a)⟩ (S.trees file) = leaf := by
    refine node_at_leaf ?_ ?_ _ hord hleaf
    · rw [hlr]; exact .inr ⟨rfl, by simp only [wordRange]; omega⟩
    · rw [hlr, before_iff]; simp only [Pos.le, wordRange]; omega
  refine ⟨sToU r'.offsets node.range, ?_, ?_⟩
  swap
  · intro m x y x' y' hx hx' hnr
    have h1 := b2 m x y hx
    have h2 := b2 m x' y' hx'
    simp only [sToU, wordRange, Rng.mk.injEq, Pos.mk.injEq, true_and] at h1 h2
    simp only [hnr, sToU, h1.1, h2.2]
  rw [goto, hm]
  simp only [toOther, hr, e1, hnode, hd, hsrc, hr', Option.bind_eq_bind, Option.bind_some, Option.getD_none, hlr, b1 n a b hw, name_of hname, b2 n' a' b' hw']

/-- **C80 in arguments (for files of a class)**: if the position is on a token of an argument that is passed on, on a line above which no condition was
evaluated and no comment or definition has several lines, this token is underlined and the target is that of a copy of the token in the preprocessed text. -/
theorem goto_argument_partial (env env' : Env) (ms ms' : Macros) (tokens tokens' : List Sym) (lines lines' : List Line)
    (hf : File env 0 ⟨ms, 0, []⟩ tokens lines) (hb : Unbroken lines) (hf' : File env' 0 ⟨ms', 0, []⟩ tokens' lines') (hb' : Unbroken lines') :
    ∃ r r' place', Gives env ms tokens (.result r) ∧ Gives env' ms' tokens' (.result r') ∧ SameText lines' (textLines r'.out) place' ∧
      ∀ (n : Nat) (line : Line), lines[n]? = some line → line.kept → (∀ l ∈ lines.take n, l.kind ≠ .cond ∧ l.kind ≠ .more) → ∀ w ∈ line.uses, ∀ x ∈ w.inner, Copied line.macros w x →
      ∀ u, x.range.s.char ≤ u → u < x.range.e.char → (∀ y ∈ w.inner, y.range.e.char ≠ u) → ∃ txt c, (textLines r.out)[n]? = some txt ∧ Found txt c x.text ∧
      ∀ {Def : Type} (S : Sema Def) (file : Nat), S.results file = r → Ordered (S.trees file) →
      ∀ leaf ∈ leaves (S.trees file), leaf.range = wordRange n c (c + x.text.length) →
      ∀ d node, S.findDef file leaf = some d → S.source d (S.trees (S.fileOf d)) = some node → S.results (S.fileOf d) = r' →
      ∀ n' a' b', Word lines' n' a' b' → NameOf node (wordRange n' (place' n' a') (place' n' a' + (b' - a'))) →
      ∃ full, goto S file ⟨n, u⟩ = some (x.range, ⟨S.fileOf d, full, wordRange n' a' b'⟩) := by
  obtain ⟨r, g1, w1⟩ := argument_partial env ms tokens lines hf hb
  obtain ⟨f, r0, -, -, ofs, am, h1, -, -, h4, -, -, -, -, -, h8⟩ := file_result hf
  have hr0 : r0 = r := by
    have := Verif.Props.Conditional.gives_of f h1
    have := gives_det this g1
    simpa using this
  subst hr0
  simp only [List.nil_append] at h4
  obtain ⟨r', g2, t2, w2, b2⟩ := words hf' hb'
  refine ⟨r0, r', placeOf r', g1, g2, t2, ?_⟩
  intro n line hl hk hc w hw x hx hcop u hu1 hu2 hends
  obtain ⟨txt, c, e1, e2, e3⟩ := w1 n line hl hk hc w hw x hx hcop u hu1 hu2 hends
  refine ⟨txt, c, e1, e3, ?_⟩
  intro Def S file hr hord leaf hleaf hlr d node hd hsrc hr' n' a' b' hw' hname
  have harr := file_lines hf n line hl
  rw [Nat.zero_add] at harr
  obtain ⟨q1, q2, q3, q4, q5, q6⟩ := (harr.each w hw).inner x hx
  have hm : macroAt S (S.results file).offsets ⟨n, u⟩ = none := by
    have : (onLine r0.offsets n).find? (·.contains ⟨n, u⟩) = none := by
      rw [List.find?_eq_none]
      intro y hy hcon
      have hmark := Verif.Props.Hover.line_marks hf h8 hl
      rw [h4] at hy
      obtain ⟨v, hv, hvm⟩ := List.mem_map.1 (show mark y ∈ line.uses.map (fun u => useMark line.macros u.name) by rw [← hmark]; exact List.mem_map.2 ⟨y, hy, rfl⟩)
      have hyr : y.range = v.name.range := (Prod.mk.inj hvm).1.symm
      have hvl := (harr.each v hv).line
      have hvn := (harr.each v hv).name
      have hwn := (harr.each w hw).name
      have hin := (Verif.Props.Hover.contains_line (by rw [hyr]; exact hvl.1) (by rw [hyr]; exact hvl.2)).1 hcon
      rw [hyr] at hin
      rcases pairwise_cases harr.order v hv w hw with e | e | e
      · rw [e] at hin; omega
      · omega
      · omega
    simp only [macroAt, hr]
    rw [this]; rfl
  have hlen : 0 < x.text.length := by omega
  have hnode : nodeAt ⟨n, c⟩ (S.trees file) = leaf := by
    refine node_at_leaf ?_ ?_ _ hord hleaf
    · rw [hlr]; exact .inr ⟨rfl, Nat.le_refl _⟩
    · rw [hlr, before_iff]; simp only [Pos.le, wordRange]; omega
  refine ⟨sToU r'.offsets node.range, ?_⟩
  rw [goto, hm]
  simp only [toOther, hr, e2, hnode, hd, hsrc, hr', Option.bind_eq_bind, Option.bind_some, Option.getD_some, name_of hname, b2 n' a' b' hw']

/-- **C80 for macros (for files of a class)**: on every name of a macro in code (in calls as well) and in conditions, the name is underlined and the
definition in force is the target. The definition is not mapped back to the source; see `definition_place`. -/
theorem goto_macro_partial (env : Env) (ms : Macros) (tokens : List Sym) (lines : List Line) (hf : File env 0 ⟨ms, 0, []⟩ tokens lines) :
    ∃ r, Gives env ms tokens (.result r) ∧ ∀ {Def : Type} (S : Sema Def) (file : Nat), S.results file = r →
      ∀ (n : Nat) (line : Line), lines[n]? = some line → ∀ w ∈ line.uses, ∀ m, line.macros w.name.text = some m →
      (∀ w' ∈ line.uses, w'.name.range.e ≠ w.name.range.s) → ∀ u, w.name.range.s.char ≤ u → u ≤ w.name.range.e.char →
      ∀ d node, S.macroDef m.fileId m.idx = some d → S.source d (S.trees (S.fileOf d)) = some node → ∀ name, NameOf node name →
      goto S file ⟨n, u⟩ = some (w.name.range, ⟨S.fileOf d, node.range, name⟩) := by
  obtain ⟨f, r, -, -, ofs, am, h1, -, -, h4, -, -, -, -, -, h8⟩ := file_result hf
  simp only [List.nil_append] at h4
  refine ⟨r, Verif.Props.Conditional.gives_of f h1, ?_⟩
  intro Def S file hr n line hl w hw m hm hadj u hu1 hu2 d node hd hsrc name hname
  have harr := file_lines hf n line hl
  rw [Nat.zero_add] at harr
  obtain ⟨o, -, ho, hom⟩ := Verif.Props.Hover.find_use harr (Verif.Props.Hover.line_marks hf h8 hl) hw hu1 hu2 hadj
  simp only [mark, useMark, hm, Option.map_some, Prod.mk.injEq, Option.some.injEq] at hom
  have hat : macroAt S ofs ⟨n, u⟩ = some (o, d) := by
    simp only [macroAt, ho, hom.2.1, hom.2.2, hd, Option.bind_eq_bind, Option.bind_some]
  rw [goto, hr, h4, hat]
  simp only [toMacro, hsrc, Option.bind_eq_bind, Option.bind_some, hom.1, name_of hname]

/-- On a line without macro uses, as those of definitions, places are the columns of the source. -/
theorem definition_place {lines : List Line} {out : List Str} {place : Nat → Nat → Nat} (h : SameText lines out place) {n a b : Nat} (hw : Word lines n a b)
    (hu : ∀ line, lines[n]? = some line → line.uses = []) : place n a = a := by
  have hw' := hw
  obtain ⟨line, hl, hk, -, -, -⟩ := hw
  obtain ⟨txt, segs, -, ⟨-, -, -, hs⟩, hp⟩ := h n line hl hk
  obtain ⟨pre, k, post, i, e, -, e1, e2⟩ := hp a b hw' 0 (by omega)
  have same : ∀ l : List Seg, (∀ x ∈ l, ∃ k, x = .text k) → userLen l = serverLen l := by
    intro l hl
    induction l with
    | nil => rfl
    | cons x l ih =>
      obtain ⟨k, rfl⟩ := hl x (by simp)
      have := ih fun y hy => hl y (by simp [hy])
      simpa [userLen, serverLen, Seg.user, Seg.server] using this
  have := same pre fun x hx => by
    cases x with
    | text k => exact ⟨k, rfl⟩
    | use k a' o =>
      obtain ⟨p, q, hq⟩ := List.append_of_mem hx
      obtain ⟨s, hs', -⟩ := hs p k a' o (q ++ .text _ :: post) (by rw [e, hq]; simp; rfl)
      rw [hu line hl] at hs'
      simp at hs'
  simp only [Nat.add_zero] at e1 e2
  omega

/-! ### Examples

The file `y = A;⏎⇥B z`, as if `z` were declared by the first line: `y = 1 + 2;⏎ x 1 + 2 z`. -/

def sampleNode (k : Hir.Kind) (n a b : Nat) (name : Bool := false) (cs : List Node := []) : Node := .mk k (wordRange n a b) name cs

def sampleDecl : Node := sampleNode .variable_declaration 0 0 10 false [sampleNode (.other 0) 0 0 1 true, sampleNode (.other 1) 0 4 5, sampleNode (.other 1) 0 8 9]

def sampleTree : Node := .mk .source_file ⟨⟨0, 0⟩, ⟨1, 10⟩⟩ false
  [sampleDecl, .mk .global_variable_declaration ⟨⟨1, 1⟩, ⟨1, 10⟩⟩ false [sampleNode (.other 0) 1 1 2, sampleNode (.other 0) 1 9 10]]

def sampleLines : List Line :=
  [⟨"y = A;".toList, sampleMacros, [⟨sampleTok .ident "A" 0 4 1, []⟩], .shown⟩, ⟨"\tB z".toList, sampleMacros, [⟨sampleTok .ident "B" 1 1 1, []⟩], .shown⟩]

def sampleEnv : Env := ⟨.debug, 0, fun _ ms => ms⟩

/-- With `r` the result of preprocessing. -/
def sampleSema (r : PSt) : Sema Unit where
  trees := fun _ => sampleTree
  results := fun _ => r
  macroDef := fun _ _ => none
  findDef := fun _ l => if l.range = wordRange 1 9 10 then some () else none
  fileOf := fun _ => 0
  source := fun _ _ => some sampleDecl

example : ∃ r, preprocess sampleEnv 60 sampleMacros sampleTokens = some (.result r) ∧
    goto (sampleSema r) 0 ⟨1, 3⟩ = some (wordRange 1 3 4, ⟨0, wordRange 0 0 6, wordRange 0 0 1⟩) ∧ goto (sampleSema r) 0 ⟨0, 0⟩ = none :=
  ⟨_, rfl, by decide +kernel, by decide +kernel⟩

theorem sample_words : Word sampleLines 1 3 4 ∧ Word sampleLines 0 0 1 ∧ Word sampleLines 0 5 6 := by
  refine ⟨⟨_, rfl, .inl rfl, by decide, by decide, ?_⟩, ⟨_, rfl, .inl rfl, by decide, by decide, ?_⟩, ⟨_, rfl, .inl rfl, by decide, by decide, ?_⟩⟩ <;> decide

theorem sample_apart : Apart sampleLines 1 3 := by
  intro line h
  simp only [sampleLines, List.getElem?_cons_succ, List.getElem?_cons_zero, Option.some.injEq] at h
  subst h
  decide

theorem sample_ordered : Ordered sampleTree := by
  simp [sampleTree, sampleDecl, sampleNode, Ordered, OrderedIn, wordRange, Node.range, Pos.le]

/-- The hypotheses of `goto_partial` hold together, for the place the theorem gives: from the second line of one file to the first of another. -/
example : ∃ (S : Sema Unit) (full : Rng), Gives sampleEnv sampleMacros sampleTokens (.result (S.results 0)) ∧
    goto S 0 ⟨1, 3⟩ = some (wordRange 1 3 4, ⟨1, full, wordRange 0 0 1⟩) := by
  obtain ⟨r, r', place, place', g, -, -, -, h⟩ := goto_partial sampleEnv sampleEnv _ _ _ _ _ _ (sample_file _) sample_unbroken (sample_file _) sample_unbroken
  let leaf : Node := sampleNode (.other 0) 1 (place 1 3) (place 1 3 + (4 - 3))
  let name : Node := sampleNode (.other 0) 0 (place' 0 0) (place' 0 0 + (1 - 0)) true
  let decl : Node := sampleNode .variable_declaration 0 (place' 0 0) (place' 0 5 + (6 - 5)) false [name]
  let S : Sema Unit := ⟨fun i => if i = 0 then leaf else decl, fun i => if i = 0 then r else r', fun _ _ => none, fun _ _ => some (), fun _ => 1,
    fun _ n => some n⟩
  obtain ⟨full, e, -⟩ := h S 0 rfl (by simp [S, leaf, sampleNode, Ordered, OrderedIn, wordRange, Pos.le]) 1 3 4 sample_words.1 sample_apart leaf
    (by simp [S, leaf, sampleNode, leaves]) rfl () decl rfl rfl rfl 0 0 1 sample_words.2.1 (by simp [NameOf, Ide.Goto.Spec.Named, decl, name, sampleNode, Node.kind, Node.children, Node.isName, Node.range]) 3 (by decide) (by decide)
  exact ⟨S, full, g, e⟩

/-- The hypotheses of `goto_macro_partial` hold for `A` on the first line. -/
example : ∃ (S : Sema Unit), Gives sampleEnv sampleMacros sampleTokens (.result (S.results 0)) ∧
    goto S 0 ⟨0, 4⟩ = some (wordRange 0 4 5, ⟨0, wordRange 0 0 10, wordRange 0 0 1⟩) := by
  obtain ⟨r, g, h⟩ := goto_macro_partial sampleEnv _ _ _ (sample_file _)
  refine ⟨{ sampleSema r with macroDef := fun _ _ => some () }, g, ?_⟩
  exact h { sampleSema r with macroDef := fun _ _ => some () } 0 rfl 0 _ rfl ⟨sampleTok .ident "A" 0 4 1, []⟩ (by simp) _ rfl (by decide) 4 (by decide) (by decide)
    () sampleDecl rfl rfl _ (by simp [NameOf, Ide.Goto.Spec.Named, sampleDecl, sampleNode, Node.kind, Node.children, Node.isName, Node.range])

/-! ### Arguments -/

/-- The hypotheses of `goto_argument_partial` hold for `ab` in `y = F(ab,A) z`; the definition is `y` in the first line of the other sample. -/
example : ∃ (S : Sema Unit) (full : Rng), Gives callEnv callMacros callTokens (.result (S.results 0)) ∧
    goto S 0 ⟨0, 7⟩ = some (wordRange 0 6 8, ⟨1, full, wordRange 0 0 1⟩) := by
  obtain ⟨r, r', place', g, -, -, h⟩ := goto_argument_partial callEnv sampleEnv _ _ _ _ _ _ (call_file _) call_unbroken (sample_file _) sample_unbroken
  obtain ⟨txt, c, -, -, h⟩ := h 0 _ rfl (.inl rfl) (by simp) callUse (by simp) (sampleTok .ident "ab" 0 6) (by decide) call_copied 7 (by decide) (by decide) (by decide)
  let leaf : Node := sampleNode (.other 0) 0 c (c + 2)
  let name : Node := sampleNode (.other 0) 0 (place' 0 0) (place' 0 0 + (1 - 0)) true
  let decl : Node := sampleNode .variable_declaration 0 (place' 0 0) (place' 0 5 + (6 - 5)) false [name]
  let S : Sema Unit := ⟨fun i => if i = 0 then leaf else decl, fun i => if i = 0 then r else r', fun _ _ => none, fun _ _ => some (), fun _ => 1,
    fun _ n => some n⟩
  obtain ⟨full, e⟩ := h S 0 rfl (by simp [S, leaf, sampleNode, Ordered, OrderedIn, wordRange, Pos.le]) leaf (by simp [S, leaf, sampleNode, leaves]) rfl
    () decl rfl rfl rfl 0 0 1 sample_words.2.1 (by simp [NameOf, Ide.Goto.Spec.Named, decl, name, sampleNode, Node.kind, Node.children, Node.isName, Node.range])
  exact ⟨S, full, g, e⟩

/-- A leaf for every token of `⏎⏎y = foo(ab) + 1 + 2 z`, as far as needed. -/
def belowSema (r : PSt) : Sema Unit where
  trees := fun _ => .mk .source_file ⟨⟨2, 0⟩, ⟨2, 21⟩⟩ false [sampleNode (.other 0) 2 4 7, sampleNode (.other 0) 2 8 10, sampleNode (.other 0) 2 20 21]
  results := fun _ => r
  macroDef := fun _ _ => none
  findDef := fun _ l => if l.range = wordRange 2 8 10 then some () else none
  fileOf := fun _ => 0
  source := fun _ t => some t

/-- **C80 is violated** in arguments below a condition: for `ab` on line 2, `find_def` is asked about what is on line 1. Nothing is found, although `ab` in
the preprocessed text has a definition. -/
theorem goto_argument_refuted : ∃ r, Gives callEnv callMacros belowTokens (.result r) ∧ r.out = [[], [], "y = foo(ab) + 1 + 2 z".toList] ∧
    (∃ leaf ∈ leaves ((belowSema r).trees 0), leaf.range = wordRange 2 8 10 ∧ (belowSema r).findDef 0 leaf = some ()) ∧ goto (belowSema r) 0 ⟨2, 7⟩ = none := by
  refine ⟨_, Verif.Props.Conditional.gives_of 60 (r := _) rfl, by decide +kernel, ⟨sampleNode (.other 0) 2 8 10, ?_, rfl, rfl⟩, by decide +kernel⟩
  simp [belowSema, leaves, leavesIn, sampleNode]

/-- **C80 is violated** in arguments below a comment of two lines, in the same way. -/
theorem goto_comment_refuted : ∃ r, Gives callEnv callMacros belowComment (.result r) ∧
    textLines r.out = ["/*".toList, "*/".toList, "y = foo(ab) + 1 + 2 z".toList] ∧
    (∃ leaf ∈ leaves ((belowSema r).trees 0), leaf.range = wordRange 2 8 10 ∧ (belowSema r).findDef 0 leaf = some ()) ∧ goto (belowSema r) 0 ⟨2, 7⟩ = none := by
  refine ⟨_, Verif.Props.Conditional.gives_of 60 (r := _) rfl, by decide +kernel, ⟨sampleNode (.other 0) 2 8 10, ?_, rfl, rfl⟩, by decide +kernel⟩
  simp [belowSema, leaves, leavesIn, sampleNode]

/-! ### Definitions over several lines -/

/-- `f A x⏎longer`, preprocessed `f 1 + 2 x⏎longer`. -/
def twoTokens : List Sym :=
  [sampleTok .ident "f" 0 0, sampleTok .ident "A" 0 2 1, sampleTok .ident "x" 0 4 1] ++ sampleEnd 0 5 :: ([sampleTok .ident "longer" 1 0] ++ [sampleTok .eof "" 1 6])

def twoLines : List Line :=
  [⟨"f A x".toList, sampleMacros, [⟨sampleTok .ident "A" 0 2 1, []⟩], .shown⟩, ⟨"longer".toList, sampleMacros, [], .shown⟩]

theorem two_file (env : Env) : File env 0 ⟨sampleMacros, 0, []⟩ twoTokens twoLines := by
  refine .code (ws := []) (src := "f A x".toList) rfl ?_ ?_ ⟨rfl, rfl, rfl, by simp [Blanks], rfl⟩ (.last (ws := []) (src := "longer".toList) rfl ?_ ?_ rfl rfl (by simp [Blanks]) rfl)
  · exact .cons (ws := []) (by simp [Blanks]) (by decide) rfl rfl (.cons (ws := [' ']) (by simp [Blanks, shown]) (by decide) rfl rfl
      (.cons (ws := [' ']) (by simp [Blanks, shown]) (by decide) rfl rfl .nil))
  · refine code_of _ fun s hs => ?_
    refine ⟨?_, fun hu => ⟨sample_simple _, ?_⟩⟩
    · simp only [List.mem_cons, List.not_mem_nil, or_false] at hs
      rcases hs with rfl | rfl | rfl <;> trivial
    · simp only [List.mem_cons, List.not_mem_nil, or_false] at hs
      rcases hs with rfl | rfl | rfl
      · exact absurd hu (by decide)
      · exact sample_starts.1
      · exact absurd hu (by decide)
  · exact .cons (ws := []) (by simp [Blanks]) (by decide) rfl rfl .nil
  · refine code_of _ fun s hs => ?_
    refine ⟨?_, fun hu => ⟨sample_simple _, ?_⟩⟩
    · simp only [List.mem_cons, List.not_mem_nil, or_false] at hs
      subst hs; trivial
    · simp only [List.mem_cons, List.not_mem_nil, or_false] at hs
      subst hs
      exact absurd hu (by decide)

/-- A definition over the two lines; its name is on the first. -/
def twoSema (r : PSt) : Sema Unit where
  trees := fun _ => .mk .function_definition ⟨⟨0, 0⟩, ⟨1, 6⟩⟩ false [sampleNode (.other 0) 0 0 1 true, sampleNode (.other 0) 1 0 6]
  results := fun _ => r
  macroDef := fun _ _ => none
  findDef := fun _ _ => some ()
  fileOf := fun _ => 0
  source := fun _ t => some t

/-- **C80 fails for the whole definition**: of a definition over two lines with a macro on the first, the end is given in the wrong column: 2 and not 6. -/
theorem goto_full_refuted : ∃ r, Gives sampleEnv sampleMacros twoTokens (.result r) ∧ File sampleEnv 0 ⟨sampleMacros, 0, []⟩ twoTokens twoLines ∧
    r.out = ["f 1 + 2 x".toList, "longer".toList] ∧ Word twoLines 0 0 1 ∧ Word twoLines 1 0 6 ∧
    ((twoSema r).trees 0).range = ⟨⟨0, 0⟩, ⟨1, 6⟩⟩ ∧
    goto (twoSema r) 0 ⟨1, 0⟩ = some (wordRange 1 0 6, ⟨0, ⟨⟨0, 0⟩, ⟨1, 2⟩⟩, wordRange 0 0 1⟩) := by
  refine ⟨_, Verif.Props.Conditional.gives_of 60 (r := _) rfl, two_file _, by decide +kernel, ?_, ?_, rfl, by decide +kernel⟩
  · exact ⟨_, rfl, .inl rfl, by decide, by decide, by decide⟩
  · exact ⟨_, rfl, .inl rfl, by decide, by decide, by decide⟩

end Verif.Props.Goto
