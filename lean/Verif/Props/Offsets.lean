import Verif.Props.OffsetsText
/-!
# C29, from the source to the answer
-/

namespace Verif.Props.Offsets
open Verif.Pre Verif.Pre.Spec Verif.Props.Position

theorem describes_line {n : Nat} : ∀ (l : List Seg) (c : Nat) (os : List Offset), Describes n c l os → ∀ x ∈ os, x.range.s.line = n
  | [], c, os, h, x, hx => by simp only [Describes] at h; subst h; simp at hx
  | .text k :: l, c, os, h, x, hx => describes_line l (c + k) os h x hx
  | .use k a o :: l, c, os, h, x, hx => by
    obtain ⟨y, os', rfl, h1, -, -, h4⟩ := h
    rcases List.mem_cons.1 hx with rfl | hx
    · rw [h1]
    · exact describes_line l _ _ h4 x hx

/-- The entries of a line are for tokens of the arguments of its uses. -/
theorem entry_token {n L : Nat} {line : Line} {txt : Str} {am : List (Rng × Rng)} (ha : Arranged line.macros n 0 line.uses) (h : ArgsOk line.uses L txt am)
    {e : Rng × Rng} (he : e ∈ am) {c : Nat} (hin : rangeContains e.1 ⟨n, c⟩ = true) : ∃ u ∈ line.uses, ∃ x ∈ u.inner, e.1 = x.range ∧
      (x.range.s.char ≤ c ∧ c ≤ x.range.e.char) ∧ (u.name.range.e.char < c ∧ c < u.stop) ∧ e.2.s.line = L ∧ Found txt e.2.s.char x.text := by
  obtain ⟨u, hu, x, hx, h1, h2, h3⟩ := h e he
  obtain ⟨a1, a2, a3, a4, a5, -⟩ := (ha.each u hu).inner x hx
  have : x.range.s.char ≤ c ∧ c ≤ x.range.e.char := by
    rw [h1, contains_correct] at hin
    simp only [In, Pos.le, a1, a2] at hin
    omega
  exact ⟨u, hu, x, hx, h1, this, ⟨by omega, by omega⟩, h2, h3⟩

/-- **C29, from the source to the answer (for files of a class)**: files of code, definitions, includes, conditional directives and code that is not
compiled (`File`). On every line whose text is kept, every position outside of the uses of macros (with their arguments) is taken to a position of the
preprocessed text that has the same character (a tab becomes a space), and back to itself. What is missing: uses of macros that expand to nothing,
calls with a blank before the parenthesis, of macros that start with a number or with a call that starts with its argument, or over several lines, expansions
nested too deep (C24) or with line breaks, directives other than `#define` over several lines, and uses of macros after a comment of several lines that
started on the same line as code. -/
theorem positions_partial (env : Env) (ms : Macros) (tokens : List Sym) (lines : List Line) (hf : File env 0 ⟨ms, 0, []⟩ tokens lines) (hb : Unbroken lines) :
    ∃ r, Gives env ms tokens (.result r) ∧ (textLines r.out).length = lines.length ∧
      ∀ (n : Nat) (line : Line) (u : Nat), lines[n]? = some line → line.kept → u < line.src.length →
        (∀ w ∈ line.uses, ¬ (w.name.range.s.char ≤ u ∧ u < w.stop)) →
        ∃ txt s, (textLines r.out)[n]? = some txt ∧ s < txt.length ∧ uToS r.argsMap r.offsets ⟨n, u⟩ = (⟨n, s⟩, none) ∧
          (txt[s]?).map shown = (line.src[u]?).map shown ∧ sToU r.offsets ⟨⟨n, s⟩, ⟨n, s⟩⟩ = ⟨⟨n, u⟩, ⟨n, u⟩⟩ := by
  obtain ⟨f, r, outs, ofs, am, h1, h2, h3, h4, h6, h7, -⟩ := file_text hf hb
  refine ⟨r, Verif.Props.Conditional.gives_of f h1, by rw [h3, h6], ?_⟩
  intro n line u hs hkept hu hout
  obtain ⟨txt, ht, hok⟩ := h7 n line hs
  obtain ⟨segs, hok, -⟩ := hok hkept
  have harr := file_lines hf n line hs
  rw [Nat.zero_add] at harr
  have hul : u < userLen segs := by rw [hok.same.1]; exact hu
  rcases column_cases segs 0 _ u hok.describes hul with ⟨pre, k, post, i, e, hi, he⟩ | ⟨pre, k, a, o, post, e, e1, e2⟩
  · have hsame : SamePlace segs u (serverLen pre + i) := ⟨pre, k, post, i, e, by omega, he, rfl⟩
    refine ⟨txt, serverLen pre + i, by rw [h3]; exact ht, ?_, ?_, ?_, ?_⟩
    · rw [← hok.same.2.1, e, serverLen_append]
      simp only [serverLen, List.map_cons, List.sum_cons, Seg.server]; omega
    · refine to_server _ _ n segs u _ (by rw [h4]; exact hok.describes) hok.named hsame ?_
      rw [h2]
      intro x hx hin
      obtain ⟨w, hw, y, -, -, -, g, -⟩ := entry_token harr hok.args hx ((contains_correct _ _).2 hin)
      have := (harr.each w hw).name
      exact hout w hw ⟨by omega, by omega⟩
    · rw [he]; exact (hok.same.2.2 pre k post i e hi).symm
    · exact to_user_partial _ n segs u _ u _ (by rw [h4]; exact hok.describes) hok.nonEmpty hsame hsame
  · exfalso
    obtain ⟨w, hw, -, hr, hstop, -⟩ := hok.spans pre k a o post e
    exact hout w hw (by rw [hr, hstop]; exact ⟨e1, e2⟩)

/-- **C29 in arguments (for files of a class)**: on a line above which no condition was evaluated and no comment or definition has several lines, a position on a token of an argument that is passed on
(and that is not the end of another token) is taken to a copy of this token in the preprocessed text, and the range of the token is reported. What is missing:
what `positions_partial` lacks, and the lines below a condition that is evaluated (`argument_line_refuted`), a comment or a definition of several lines
(`argument_comment_refuted`). -/
theorem argument_partial (env : Env) (ms : Macros) (tokens : List Sym) (lines : List Line) (hf : File env 0 ⟨ms, 0, []⟩ tokens lines) (hb : Unbroken lines) :
    ∃ r, Gives env ms tokens (.result r) ∧ ∀ (n : Nat) (line : Line), lines[n]? = some line → line.kept → (∀ l ∈ lines.take n, l.kind ≠ .cond ∧ l.kind ≠ .more) →
      ∀ w ∈ line.uses, ∀ x ∈ w.inner, Copied line.macros w x → ∀ c, x.range.s.char ≤ c → c < x.range.e.char → (∀ y ∈ w.inner, y.range.e.char ≠ c) →
        ∃ txt s, (textLines r.out)[n]? = some txt ∧ uToS r.argsMap r.offsets ⟨n, c⟩ = (⟨n, s⟩, some x.range) ∧ Found txt s x.text := by
  obtain ⟨f, r, outs, ofs, am, h1, h2, h3, h4, h6, h7, -⟩ := file_text hf hb
  refine ⟨r, Verif.Props.Conditional.gives_of f h1, ?_⟩
  intro n line hs hkept hconds w hw x hx hcop c hc1 hc2 hends
  obtain ⟨txt, ht, hok⟩ := h7 n line hs
  obtain ⟨segs, hok, hall⟩ := hok hkept
  have harr := file_lines hf n line hs
  rw [Nat.zero_add] at harr
  have hcount : counted (lines.take n) = n := by
    have hlt := (List.getElem?_eq_some_iff.1 hs).1
    rw [counted, List.filter_eq_self.2 (fun l hl => by simpa using hconds l hl), List.length_take]; omega
  rw [hcount] at hok
  obtain ⟨e, he, her⟩ := hall w hw x hcop
  obtain ⟨a1, a2, a3, a4, a5, -⟩ := (harr.each w hw).inner x hx
  have hin : rangeContains e.1 ⟨n, c⟩ = true := by
    rw [contains_correct, her]
    exact ⟨.inr ⟨a1, hc1⟩, .inr ⟨a2.symm, Nat.le_of_lt hc2⟩⟩
  cases hfind : (onLine am n).find? (fun a => rangeContains a.1 ⟨n, c⟩) with
  | none => exact absurd hin (List.find?_eq_none.1 hfind e he)
  | some e' =>
    have hmem := List.mem_of_find?_eq_some hfind
    have hin' : rangeContains e'.1 ⟨n, c⟩ = true := List.find?_some (p := fun a : Rng × Rng => rangeContains a.1 ⟨n, c⟩) hfind
    obtain ⟨w', hw', y, hy, g1, g2, g3, g4, g5⟩ := entry_token harr hok.args hmem hin'
    have hww : w' = w := by
      have n1 := (harr.each w hw).name
      have n2 := (harr.each w' hw').name
      exact arranged_unique harr hw' hw (x := c) ⟨by omega, by omega⟩ ⟨by omega, by omega⟩
    subst hww
    have hyx : y = x := by
      have hne := hends y hy
      obtain ⟨b1, b2, b3, b4, b5, -⟩ := (harr.each w' hw).inner y hy
      rcases pairwise_cases (harr.each w' hw).order y hy x hx with e | e | e
      · exact e
      · omega
      · omega
    subst hyx
    refine ⟨txt, e'.2.s.char, by rw [h3]; exact ht, ?_, g5⟩
    have hs' : e'.2.s = ⟨n, e'.2.s.char⟩ := by rw [← g4]
    simp only [uToS, h2, hfind]
    rw [hs', g1]

/-! ### Examples -/

/-- `A` is `1 + 2`, `B` is `A`'s neighbour: `x A`. -/
def sampleMacros : Macros := fun x =>
  if x = "A".toList then some ⟨0, 0, none, 0, [⟨.intLit, "1".toList, ⟨0, 1⟩, some 1⟩, ⟨.op .plus, "+".toList, ⟨0, 1⟩, none⟩, ⟨.intLit, "2".toList, ⟨0, 1⟩, some 2⟩]⟩
  else if x = "B".toList then some ⟨0, 1, none, 0, [⟨.ident, "x".toList, ⟨0, 1⟩, none⟩, ⟨.ident, "A".toList, ⟨0, 1⟩, none⟩]⟩
  else none

def sampleTok (k : Kind) (t : String) (n c : Nat) (w : Nat := 0) : Sym := ⟨k, t.toList, ⟨⟨n, c⟩, ⟨n, c + t.length⟩⟩, ⟨0, w⟩, none, false⟩

/-- The line break after column `c` of line `n`. -/
def sampleEnd (n c : Nat) (pre : Bool := false) : Sym := ⟨.newline, "\n".toList, ⟨⟨n, c⟩, ⟨n + 1, 0⟩⟩, ⟨0, 0⟩, none, pre⟩

/-- `y = A;⏎⇥B z` -/
def sampleTokens : List Sym :=
  [sampleTok .ident "y" 0 0, sampleTok (.op (.other 0)) "=" 0 2 1, sampleTok .ident "A" 0 4 1, sampleTok .semicolon ";" 0 5] ++
  sampleEnd 0 6 :: ([sampleTok .ident "B" 1 1 1, sampleTok .ident "z" 1 3 1] ++ [sampleTok .eof "" 1 4])

theorem simple_all {K : Kind → Prop} {ms : Macros} (h : ∀ y m, ms y = some m → m.params = none ∧ ∀ r ∈ m.body, 0 ≤ r.delta.col ∧ (K r.kind ∨ Dropped r.kind))
    (x : Str) : Simple K ms x := fun y m _ hm => h y m hm

theorem sample_simple (x : Str) : Simple PlainKind sampleMacros x := by
  refine simple_all (fun y m h => ?_) x
  unfold sampleMacros at h
  split at h
  · simp only [Option.some.injEq] at h; subst h
    refine ⟨rfl, by simp [PlainKind]⟩
  · split at h
    · simp only [Option.some.injEq] at h; subst h
      exact ⟨rfl, by simp [PlainKind]⟩
    · simp at h

theorem sample_starts : Starts sampleMacros 4 "A".toList ∧ Starts sampleMacros 4 "B".toList :=
  ⟨⟨_, _, _, rfl, rfl, id, by simp, by simp⟩, ⟨_, _, _, rfl, rfl, id, by simp, fun _ h => absurd rfl h⟩⟩

theorem sample_file (env : Env) : File env 0 ⟨sampleMacros, 0, []⟩ sampleTokens
    [⟨"y = A;".toList, sampleMacros, [⟨sampleTok .ident "A" 0 4 1, []⟩], .shown⟩, ⟨"\tB z".toList, sampleMacros, [⟨sampleTok .ident "B" 1 1 1, []⟩], .shown⟩] := by
  refine .code (ws := []) (src := "y = A;".toList) rfl ?_ ?_ ⟨rfl, rfl, rfl, by simp [Blanks], rfl⟩ (.last (ws := []) (src := "\tB z".toList) rfl ?_ ?_ rfl rfl (by simp [Blanks]) rfl)
  · exact .cons (ws := []) (by simp [Blanks]) (by decide) rfl rfl (.cons (ws := [' ']) (by simp [Blanks, shown]) (by decide) rfl rfl
      (.cons (ws := [' ']) (by simp [Blanks, shown]) (by decide) rfl rfl (.cons (ws := []) (by simp [Blanks]) (by decide) rfl rfl .nil)))
  · refine code_of _ fun s hs => ?_
    refine ⟨?_, fun hu => ⟨sample_simple _, ?_⟩⟩
    · simp only [List.mem_cons, List.not_mem_nil, or_false] at hs
      rcases hs with rfl | rfl | rfl | rfl <;> trivial
    · simp only [List.mem_cons, List.not_mem_nil, or_false] at hs
      rcases hs with rfl | rfl | rfl | rfl
      · exact absurd hu (by decide)
      · exact absurd hu (by decide)
      · exact sample_starts.1
      · exact absurd hu (by decide)
  · exact .cons (ws := ['\t']) (by simp [Blanks, shown]) (by decide) rfl rfl (.cons (ws := [' ']) (by simp [Blanks, shown]) (by decide) rfl rfl .nil)
  · refine code_of _ fun s hs => ?_
    refine ⟨?_, fun hu => ⟨sample_simple _, ?_⟩⟩
    · simp only [List.mem_cons, List.not_mem_nil, or_false] at hs
      rcases hs with rfl | rfl <;> trivial
    · simp only [List.mem_cons, List.not_mem_nil, or_false] at hs
      rcases hs with rfl | rfl
      · exact sample_starts.2
      · exact absurd hu (by decide)

def sampleSum : List KT := [(.intLit, "1".toList), (.op .plus, "+".toList), (.intLit, "2".toList)]

theorem sample_full {ms : Macros} {d : Nat} (h : ms "A".toList = sampleMacros "A".toList) : Full ms (d + 1) [(.ident, "A".toList)] sampleSum := by
  refine .use (b := sampleSum) (r := []) (by rw [h]; rfl) rfl ?_ .nil
  exact .keep (by decide) (by decide) (.keep (by decide) (by decide) (.keep (by decide) (by decide) .nil))

theorem sample_unbroken :
    Unbroken [⟨"y = A;".toList, sampleMacros, [⟨sampleTok .ident "A" 0 4 1, []⟩], .shown⟩, ⟨"\tB z".toList, sampleMacros, [⟨sampleTok .ident "B" 1 1 1, []⟩], .shown⟩] := by
  intro l hl _
  simp only [List.mem_cons, List.not_mem_nil, or_false] at hl
  rcases hl with rfl | rfl
  · refine ⟨by decide, fun u hu => ⟨sampleSum, ?_, by decide⟩⟩
    simp only [List.mem_cons, List.not_mem_nil, or_false] at hu; subst hu
    exact .name (d := 1) (by decide) (sample_full rfl)
  · refine ⟨by decide, fun u hu => ⟨(.ident, "x".toList) :: sampleSum, ?_, by decide⟩⟩
    simp only [List.mem_cons, List.not_mem_nil, or_false] at hu; subst hu
    exact .name (d := 2) (by decide) (.use (b := (.ident, "x".toList) :: sampleSum) (r := []) rfl rfl (.undefined rfl (sample_full rfl)) .nil)

/-- The second line becomes ` x 1 + 2 z`: column 3 goes to column 9 and back. -/
example : ∃ r, preprocess ⟨.debug, 0, fun _ ms => ms⟩ 60 sampleMacros sampleTokens = some (.result r) ∧ r.out = ["y = 1 + 2;".toList, " x 1 + 2 z".toList] ∧
    uToS r.argsMap r.offsets ⟨1, 3⟩ = (⟨1, 9⟩, none) ∧ sToU r.offsets ⟨⟨1, 9⟩, ⟨1, 10⟩⟩ = ⟨⟨1, 3⟩, ⟨1, 4⟩⟩ := by
  exact ⟨_, rfl, by decide, by decide, by decide⟩

/-- The hypotheses of `positions_partial` hold of it. -/
example : ∃ r, Gives ⟨.debug, 0, fun _ ms => ms⟩ sampleMacros sampleTokens (.result r) ∧ (textLines r.out).length = 2 :=
  let ⟨r, h, e, _⟩ := positions_partial _ _ _ _ (sample_file _) sample_unbroken
  ⟨r, h, e⟩

/-! #### A file with directives -/

def inPre (s : Sym) (v : Option Int := none) : Sym := { s with inPre := true, val := v }

/-- `#define A 12⏎` -/
def dirDefine : List Sym := [inPre (sampleTok .ident "A" 0 8 1), inPre (sampleTok .intLit "12" 0 10 1) (some 12)]

/-- `#if A > 2⏎` -/
def dirCond : List Sym := [inPre (sampleTok .ident "A" 1 4 1), inPre (sampleTok (.op .gt) ">" 1 6 1), inPre (sampleTok .intLit "2" 1 8 1) (some 2)]

/-- ```
#define A 12
#if A > 2
A z
#else
z
#endif
 A
``` -/
def dirTokens : List Sym :=
  sampleTok (.dir .define) "#define" 0 0 :: (dirDefine ++ sampleEnd 0 12 true ::
  (sampleTok (.dir .if_) "#if" 1 0 :: (dirCond ++ sampleEnd 1 9 true ::
  ([sampleTok .ident "A" 2 0, sampleTok .ident "z" 2 2 1] ++ sampleEnd 2 3 ::
  (sampleTok (.dir .else_) "#else" 3 0 :: ([] ++ sampleEnd 3 5 ::
  ([sampleTok .ident "z" 4 0] ++ sampleEnd 4 1 ::
  (sampleTok (.dir .endif) "#endif" 5 0 :: ([] ++ sampleEnd 5 6 ::
  ([sampleTok .ident "A" 6 1 1] ++ [sampleTok .eof "" 6 2]))))))))))

def dirMacro : Macro := ⟨0, 0, none, 0, [⟨.intLit, "12".toList, ⟨0, 1⟩, some 12⟩, ⟨.newline, "\n".toList, ⟨0, 0⟩, none⟩]⟩

def dirMacros : Macros := updateMacros (fun _ => none) "A".toList (some dirMacro)

def dirEnv : Env := ⟨.debug, 0, fun _ ms => ms⟩

theorem dir_simple (x : Str) : Simple PlainKind dirMacros x ∧ Simple CondBody dirMacros x := by
  constructor <;> refine simple_all (fun y m h => ?_) x <;>
  · unfold dirMacros updateMacros at h
    split at h
    · simp only [Option.some.injEq] at h; subst h
      exact ⟨rfl, by simp [dirMacro, PlainKind, CondBody, CondKind, Dropped]⟩
    · simp at h

theorem dir_starts : Starts dirMacros 4 "A".toList := ⟨_, _, _, rfl, rfl, id, by simp, by simp⟩

def dirLines : List Line :=
  [⟨"#define A 12".toList, fun _ => none, [], .shown⟩, ⟨"#if A > 2".toList, dirMacros, [⟨inPre (sampleTok .ident "A" 1 4 1), []⟩], .cond⟩,
   ⟨"A z".toList, dirMacros, [⟨sampleTok .ident "A" 2 0, []⟩], .shown⟩, ⟨"#else".toList, dirMacros, [], .hidden⟩, ⟨"z".toList, dirMacros, [], .hidden⟩,
   ⟨"#endif".toList, dirMacros, [], .hidden⟩, ⟨" A".toList, dirMacros, [⟨sampleTok .ident "A" 6 1 1, []⟩], .shown⟩]

theorem dir_file : File dirEnv 0 ⟨fun _ => none, 0, []⟩ dirTokens dirLines := by
  have hb : Blanks [] := by simp [Blanks]
  have hb1 : Blanks [' '] := by simp [Blanks, shown]
  refine .define (ws := []) (src := "#define A 12".toList) (name := "A".toList) (m := dirMacro) rfl rfl ?_ ?_ ⟨rfl, rfl, rfl, hb, rfl⟩ ?_ ?_ ?_ ?_
  · exact .cons (ws := []) hb (by decide) rfl rfl (.cons (ws := [' ']) hb1 (by decide) rfl rfl (.cons (ws := [' ']) hb1 (by decide) rfl rfl .nil))
  · decide
  · intro s hs
    simp only [dirDefine, List.cons_append, List.nil_append, List.mem_cons, List.not_mem_nil, or_false] at hs
    rcases hs with rfl | rfl | rfl <;> rfl
  · exact .object rfl (by decide) (by decide)
  · intro s hs; simp at hs; subst hs; rfl
  refine .«if» (ws := []) (src := "#if A > 2".toList) (b := true) rfl rfl ?_ ⟨rfl, rfl, rfl, hb, rfl⟩ ?_ ⟨?_, 20, ?_⟩ ?_ ?_
  · exact .cons (ws := []) hb (by decide) rfl rfl (.cons (ws := [' ']) hb1 (by decide) rfl rfl (.cons (ws := [' ']) hb1 (by decide) rfl rfl
      (.cons (ws := [' ']) hb1 (by decide) rfl rfl .nil)))
  · intro s hs
    simp only [dirCond, List.cons_append, List.nil_append, List.mem_cons, List.not_mem_nil, or_false] at hs
    rcases hs with rfl | rfl | rfl | rfl <;> rfl
  · exact ⟨trivial, fun _ _ _ => (dir_simple _).2, trivial, (fun h => nomatch h), trivial, (fun h => nomatch h), trivial⟩
  · decide +kernel
  · intro s hs; simp at hs; subst hs; rfl
  refine .code (ws := []) (src := "A z".toList) rfl ?_ ?_ ⟨rfl, rfl, rfl, hb, rfl⟩ ?_
  · exact .cons (ws := []) hb (by decide) rfl rfl (.cons (ws := [' ']) hb1 (by decide) rfl rfl .nil)
  · refine code_of _ fun s hs => ?_
    refine ⟨?_, fun hu => ⟨(dir_simple _).1, ?_⟩⟩ <;> simp only [List.mem_cons, List.not_mem_nil, or_false] at hs
    · rcases hs with rfl | rfl <;> trivial
    · rcases hs with rfl | rfl
      · exact dir_starts
      · exact absurd hu (by decide)
  refine .«else» (ws := []) (c := .active) (cs := []) rfl rfl (by simp) ⟨rfl, rfl, rfl, hb, rfl⟩ ?_
  refine .skipped (ws := []) rfl ?_ ⟨rfl, rfl, rfl, hb, rfl⟩ ?_
  · intro s hs
    simp at hs; subst hs; trivial
  refine .«endif» (ws := []) (c := .activated) (cs := []) rfl rfl (by simp) ⟨rfl, rfl, rfl, hb, rfl⟩ ?_
  refine .last (ws := []) (src := " A".toList) rfl ?_ ?_ rfl rfl hb rfl
  · exact .cons (ws := [' ']) hb1 (by decide) rfl rfl .nil
  · refine code_of _ fun s hs => ?_
    simp at hs; subst hs
    exact ⟨trivial, fun _ => ⟨(dir_simple _).1, dir_starts⟩⟩

theorem dir_unbroken : Unbroken dirLines := by
  have hm : ∀ s : Sym, ofSym s = (.ident, "A".toList) → Means dirMacros ⟨s, []⟩ [(.intLit, "12".toList)] := fun s hs =>
    .name (d := 1) (by decide) (by
      rw [hs]
      exact .use (b := [(.intLit, "12".toList)]) (r := []) (m := dirMacro) rfl rfl (.keep (by decide) (by decide) (.blank (by decide) .nil)) .nil)
  intro l hl _
  simp only [dirLines, List.mem_cons, List.not_mem_nil, or_false] at hl
  rcases hl with rfl | rfl | rfl | rfl | rfl | rfl | rfl <;> refine ⟨by decide, fun u hu => ⟨[(.intLit, "12".toList)], ?_, by decide⟩⟩ <;>
    simp only [List.mem_cons, List.not_mem_nil, or_false] at hu <;> subst hu <;> exact hm _ rfl

/-- The hypotheses of `positions_partial` hold of it; the lines are as expected. -/
example : ∃ r, Gives dirEnv (fun _ => none) dirTokens (.result r) ∧ (textLines r.out).length = 7 :=
  let ⟨r, h, e, _⟩ := positions_partial _ _ _ _ dir_file dir_unbroken
  ⟨r, h, e⟩

example : ∃ r, preprocess dirEnv 60 (fun _ => none) dirTokens = some (.result r) ∧
    r.out = ["#define A 12".toList, [], "12 z".toList, [], [], [], " 12".toList] ∧ uToS r.argsMap r.offsets ⟨2, 2⟩ = (⟨2, 3⟩, none) :=
  ⟨_, rfl, by decide, by decide⟩

/-! #### A file with a call -/

def callParams : List Int := [-1, 0, 1, -1, -1, -1, -1, -1, -1, -1]

/-- `F(%1,%2)` is `foo(%1) + %2`. -/
def callPieces : List Piece :=
  [.plain ⟨.ident, "foo".toList, ⟨0, 1⟩, none⟩, .plain ⟨.lparen, "(".toList, ⟨0, 0⟩, none⟩,
   .param ⟨.op .percent, "%".toList, ⟨0, 0⟩, none⟩ ⟨.intLit, "1".toList, ⟨0, 0⟩, some 1⟩ 1, .plain ⟨.rparen, ")".toList, ⟨0, 0⟩, none⟩,
   .plain ⟨.op .plus, "+".toList, ⟨0, 1⟩, none⟩, .param ⟨.op .percent, "%".toList, ⟨0, 1⟩, none⟩ ⟨.intLit, "2".toList, ⟨0, 0⟩, some 2⟩ 2]

def callMacro : Macro := ⟨0, 2, some callParams, 2, callPieces.flatMap Piece.tokens⟩

def callMacros : Macros := fun x => if x = "F".toList then some callMacro else sampleMacros x

def callArgs : List Sym := [sampleTok .lparen "(" 0 5, sampleTok .ident "ab" 0 6, sampleTok .comma "," 0 8, sampleTok .ident "A" 0 9, sampleTok .rparen ")" 0 10]

def callUse : Use := ⟨sampleTok .ident "F" 0 4 1, callArgs⟩

/-- `y = F(ab,A) z` -/
def callTokens : List Sym :=
  ([sampleTok .ident "y" 0 0, sampleTok (.op (.other 0)) "=" 0 2 1] ++ (callUse.name :: (callUse.args ++ [sampleTok .ident "z" 0 12 1]))) ++ [sampleTok .eof "" 0 13]

def callGiven : List (List Tok) := [[(sampleTok .ident "ab" 0 6).tok], [(sampleTok .ident "A" 0 9).tok]]

theorem call_needs {x y : Str} (h : Needs callMacros x y) (hx : x ≠ "F".toList) : y ≠ "F".toList := by
  induction h with
  | self => exact hx
  | @body y m r _ hm hr _ ih =>
    unfold callMacros at hm
    rw [if_neg ih] at hm
    unfold sampleMacros at hm
    split at hm
    · simp only [Option.some.injEq] at hm; subst hm
      simp at hr
      rcases hr with rfl | rfl | rfl <;> decide
    · split at hm
      · simp only [Option.some.injEq] at hm; subst hm
        simp at hr
        rcases hr with rfl | rfl <;> decide
      · simp at hm

theorem call_simple {x : Str} (hx : x ≠ "F".toList) : Simple PlainKind callMacros x := by
  intro y m hn hm
  have hy := call_needs hn hx
  have hm' : sampleMacros y = some m := by
    unfold callMacros at hm
    rwa [if_neg hy] at hm
  exact sample_simple y y m .self hm'

theorem call_call : Call callMacros callUse.name callUse.args callMacro callParams callGiven callPieces where
  kind := rfl
  isMacro := rfl
  isParams := rfl
  tokens := by
    refine ⟨_, [sampleTok .ident "ab" 0 6, sampleTok .comma "," 0 8, sampleTok .ident "A" 0 9], _, rfl, rfl, rfl, rfl, ?_, ?_⟩
    · exact Separated.cons (a := [(sampleTok .ident "ab" 0 6).tok]) rfl (.one (a := [(sampleTok .ident "A" 0 9).tok]))
    · intro x hx
      simp only [List.mem_cons, List.not_mem_nil, or_false] at hx
      rcases hx with rfl | rfl | rfl <;> exact ⟨trivial, fun _ => call_simple (by decide)⟩
  enough := by decide
  arguments := by
    intro i a ha
    have : a ∈ callGiven := List.mem_of_getElem? ha
    simp only [callGiven, List.mem_cons, List.not_mem_nil, or_false] at this
    rcases this with rfl | rfl <;> exact .inl (.tok (by decide) (by decide) (by decide) .nil)
  wf := by
    intro p hp
    simp only [callPieces, List.mem_cons, List.not_mem_nil, or_false] at hp
    rcases hp with rfl | rfl | rfl | rfl | rfl | rfl
    · exact ⟨by decide, by decide⟩
    · exact ⟨by decide, by decide⟩
    · exact ⟨rfl, rfl, rfl, 0, by decide, by decide, rfl⟩
    · exact ⟨by decide, by decide⟩
    · exact ⟨by decide, by decide⟩
    · exact ⟨rfl, rfl, rfl, 1, by decide, by decide, rfl⟩
  body := ⟨[], by simp [callMacro], .inr ⟨rfl, by decide⟩⟩
  plain := by
    intro r hr
    simp only [callMacro, callPieces, List.flatMap_cons, Piece.tokens, List.cons_append, List.nil_append, List.flatMap_nil, List.mem_cons, List.not_mem_nil, or_false] at hr
    rcases hr with rfl | rfl | rfl | rfl | rfl | rfl | rfl | rfl <;> exact ⟨by decide, .inl trivial, fun _ => call_simple (by decide)⟩
  opens := ⟨by decide, by simp [Dropped], by simp, fun _ h => absurd rfl h⟩

theorem call_fits {x : Str} (hx : x = "A".toList ∨ callMacros x = none) : Fits callMacros 3 x := by
  have hn : ∀ d (y : Str), callMacros y = none → Fits callMacros d y := by
    intro d y hy
    cases d with
    | zero => exact hy
    | succ d => intro m hm; rw [hy] at hm; cases hm
  rcases hx with rfl | h
  · intro m hm r hr hk
    have : callMacros "A".toList = some ⟨0, 0, none, 0, [⟨.intLit, "1".toList, ⟨0, 1⟩, some 1⟩, ⟨.op .plus, "+".toList, ⟨0, 1⟩, none⟩, ⟨.intLit, "2".toList, ⟨0, 1⟩, some 2⟩]⟩ := rfl
    rw [this, Option.some.injEq] at hm; subst hm
    simp only [List.mem_cons, List.not_mem_nil, or_false] at hr
    rcases hr with rfl | rfl | rfl <;> cases hk
  · exact hn 3 x h

/-- `ab` appears in the expansion. -/
theorem call_copied : Copied callMacros callUse (sampleTok .ident "ab" 0 6) := by
  refine ⟨_, _, _, _, call_call, ⟨?_, ?_⟩, ⟨⟨.op .percent, "%".toList, ⟨0, 0⟩, none⟩, ⟨.intLit, "1".toList, ⟨0, 0⟩, some 1⟩, 1, by simp [callPieces], ?_⟩, ⟨?_, ?_, ?_, fun _ => rfl⟩⟩
  · intro r hr hk
    refine call_fits (.inr ?_)
    simp only [callMacro, callPieces, List.flatMap_cons, Piece.tokens, List.cons_append, List.nil_append, List.flatMap_nil, List.mem_cons, List.not_mem_nil, or_false] at hr
    rcases hr with rfl | rfl | rfl | rfl | rfl | rfl | rfl | rfl <;> rfl
  · intro a ha t ht _
    simp only [callGiven, List.mem_cons, List.not_mem_nil, or_false] at ha
    rcases ha with rfl | rfl <;> (simp only [List.mem_cons, List.not_mem_nil, or_false] at ht; subst ht)
    · exact call_fits (.inr rfl)
    · exact call_fits (.inl rfl)
  · simp [given, callParams, callGiven]
  · exact id
  · decide
  · decide

def callLines : List Line := [⟨"y = F(ab,A) z".toList, callMacros, [callUse], .shown⟩]

theorem call_file (env : Env) : File env 0 ⟨callMacros, 0, []⟩ callTokens callLines := by
  have hb : Blanks [] := by simp [Blanks]
  have hb1 : Blanks [' '] := by simp [Blanks, shown]
  refine .last (ws := []) (src := "y = F(ab,A) z".toList) rfl ?_ ?_ rfl rfl hb rfl
  · exact .cons (ws := []) hb (by decide) rfl rfl (.cons (ws := [' ']) hb1 (by decide) rfl rfl (.cons (ws := [' ']) hb1 (by decide) rfl rfl
      (.cons (ws := []) hb (by decide) rfl rfl (.cons (ws := []) hb (by decide) rfl rfl (.cons (ws := []) hb (by decide) rfl rfl
      (.cons (ws := []) hb (by decide) rfl rfl (.cons (ws := []) hb (by decide) rfl rfl (.cons (ws := [' ']) hb1 (by decide) rfl rfl .nil))))))))
  · exact .plain trivial (by decide) (.plain trivial (by decide) (.call call_call (.plain trivial (by decide) .nil)))

theorem call_means : Means callMacros callUse
    ((.ident, "foo".toList) :: (.lparen, "(".toList) :: (.ident, "ab".toList) :: (.rparen, ")".toList) :: (.op .plus, "+".toList) :: sampleSum) := by
  refine .call (d := 1) call_call (by decide) ?_
  exact .undefined rfl (.keep (by decide) (by decide) (.undefined rfl (.keep (by decide) (by decide) (.keep (by decide) (by decide) (sample_full rfl)))))

theorem call_unbroken : Unbroken callLines := by
  intro l hl _
  simp only [callLines, List.mem_cons, List.not_mem_nil, or_false] at hl
  subst hl
  refine ⟨by decide, fun u hu => ?_⟩
  simp only [List.mem_cons, List.not_mem_nil, or_false] at hu
  subst hu
  exact ⟨_, call_means, by decide⟩

def callEnv : Env := ⟨.debug, 0, fun _ ms => ms⟩

/-- `ab` (column 6) is taken to column 8, `z` (column 12) to column 20 and back. -/
example : ∃ r, preprocess callEnv 60 callMacros callTokens = some (.result r) ∧ r.out = ["y = foo(ab) + 1 + 2 z".toList] ∧
    uToS r.argsMap r.offsets ⟨0, 7⟩ = (⟨0, 8⟩, some ⟨⟨0, 6⟩, ⟨0, 8⟩⟩) ∧
    uToS r.argsMap r.offsets ⟨0, 12⟩ = (⟨0, 20⟩, none) ∧ sToU r.offsets ⟨⟨0, 20⟩, ⟨0, 21⟩⟩ = ⟨⟨0, 12⟩, ⟨0, 13⟩⟩ :=
  ⟨_, rfl, by decide, by decide, by decide, by decide⟩

/-- The hypotheses of `positions_partial` and `argument_partial` hold of it. -/
example : ∃ r, Gives callEnv callMacros callTokens (.result r) ∧ ∃ txt s, (textLines r.out)[0]? = some txt ∧
    uToS r.argsMap r.offsets ⟨0, 7⟩ = (⟨0, s⟩, some ⟨⟨0, 6⟩, ⟨0, 8⟩⟩) ∧ Found txt s "ab".toList :=
  let ⟨r, h, e⟩ := argument_partial _ _ _ _ (call_file callEnv) call_unbroken
  ⟨r, h, e 0 _ rfl (.inl rfl) (by simp) callUse (by simp) (sampleTok .ident "ab" 0 6) (by decide) call_copied 7 (by decide) (by decide) (by decide)⟩

/-! #### A file with a call of a macro that calls another one -/

section Deep
open Verif.Props.MacroDeep (exSq exInc exDeep incPieces inc_made inc_deep)

def deepUse : Use := ⟨sampleTok .ident "INC" 0 2, [sampleTok .lparen "(" 0 5, sampleTok .ident "a" 0 6, sampleTok .rparen ")" 0 7]⟩

/-- `y=INC(a) z`, where `INC(%1)` is `SQ(%1+ONE)`, `SQ(%1)` is `(%1*%1)` and `ONE` is `1`. -/
def deepTokens : List Sym :=
  ([sampleTok .ident "y" 0 0, sampleTok (.op (.other 0)) "=" 0 1] ++ (deepUse.name :: (deepUse.args ++ [sampleTok .ident "z" 0 9 1]))) ++ [sampleTok .eof "" 0 10]

theorem deep_call : DeepCall exDeep deepUse.name deepUse.args exInc [-1, 0] [[(sampleTok .ident "a" 0 6).tok]] incPieces where
  kind := rfl
  isMacro := by decide
  isParams := rfl
  oneLine := by decide
  tokens := ⟨_, [sampleTok .ident "a" 0 6], _, rfl, rfl, rfl, rfl, .one⟩
  enough := by decide
  arguments := by
    intro i a ha
    have : a ∈ [[(sampleTok .ident "a" 0 6).tok]] := List.mem_of_getElem? ha
    simp only [List.mem_cons, List.not_mem_nil, or_false] at this
    subst this
    exact .inl (.tok (by decide) (by decide) (by decide) .nil)
  made := inc_made
  plain := ⟨2, _, by decide, inc_deep, by
    intro k hk
    simp only [List.mem_cons, List.not_mem_nil, or_false] at hk
    rcases hk with rfl | rfl | rfl | rfl | rfl | rfl | rfl | rfl | rfl <;> trivial⟩
  opens := ⟨by decide, .body (m := exSq) (by decide) rfl (fun _ => ⟨⟨by decide, by decide⟩, by decide⟩) (.stays (by decide) (by decide) (fun h => nomatch h))⟩

def deepLines : List Line := [⟨"y=INC(a) z".toList, exDeep, [deepUse], .shown⟩]

theorem deep_file (env : Env) : File env 0 ⟨exDeep, 0, []⟩ deepTokens deepLines := by
  have hb : Blanks [] := by simp [Blanks]
  have hb1 : Blanks [' '] := by simp [Blanks, shown]
  refine .last (ws := []) (src := "y=INC(a) z".toList) rfl ?_ ?_ rfl rfl hb rfl
  · exact .cons (ws := []) hb (by decide) rfl rfl (.cons (ws := []) hb (by decide) rfl rfl (.cons (ws := []) hb (by decide) rfl rfl
      (.cons (ws := []) hb (by decide) rfl rfl (.cons (ws := []) hb (by decide) rfl rfl (.cons (ws := []) hb (by decide) rfl rfl
      (.cons (ws := [' ']) hb1 (by decide) rfl rfl .nil))))))
  · exact .plain trivial (by decide) (.plain trivial (by decide) (.deepCall deep_call (.plain trivial (by decide) .nil)))

theorem deep_unbroken : Unbroken deepLines := by
  intro l hl _
  simp only [deepLines, List.mem_cons, List.not_mem_nil, or_false] at hl
  subst hl
  refine ⟨by decide, fun u hu => ?_⟩
  simp only [List.mem_cons, List.not_mem_nil, or_false] at hu
  subst hu
  exact ⟨_, .deepCall (d := 2) deep_call (by decide) inc_deep, by decide⟩

/-- `z` (column 9) is taken to column 12 and back. -/
example : ∃ r, Gives callEnv exDeep deepTokens (.result r) ∧ ∃ txt s, (textLines r.out)[0]? = some txt ∧ s < txt.length ∧ uToS r.argsMap r.offsets ⟨0, 9⟩ = (⟨0, s⟩, none) ∧
    (txt[s]?).map shown = some 'z' ∧ sToU r.offsets ⟨⟨0, s⟩, ⟨0, s⟩⟩ = ⟨⟨0, 9⟩, ⟨0, 9⟩⟩ :=
  let ⟨r, h, _, e⟩ := positions_partial _ _ _ _ (deep_file callEnv) deep_unbroken
  ⟨r, h, e 0 _ 9 rfl (.inl rfl) (by decide) (by intro w hw; simp at hw; subst hw; decide)⟩

example : ∃ r, preprocess callEnv 60 exDeep deepTokens = some (.result r) ∧ r.out = ["y=(a+1*a+1) z".toList] ∧ uToS r.argsMap r.offsets ⟨0, 9⟩ = (⟨0, 12⟩, none) :=
  ⟨_, rfl, by decide, by decide⟩

end Deep

/-! #### A file with a definition and comments of several lines -/

/-- `A 1 + \⏎ 2` -/
def longDefine : List Sym :=
  [inPre (sampleTok .ident "A" 0 8 1), inPre (sampleTok .intLit "1" 0 10 1) (some 1), inPre (sampleTok (.op .plus) "+" 0 12 1),
   ⟨.lineContinuation, "\\\n".toList, ⟨⟨0, 14⟩, ⟨1, 0⟩⟩, ⟨0, 1⟩, none, true⟩, inPre (sampleTok .intLit "2" 1 1 1) (some 2)]

/-- `/* c⏎ d */` -/
def longFirst : Sym := ⟨.blockComment, "/* c\n d */".toList, ⟨⟨2, 0⟩, ⟨3, 5⟩⟩, ⟨0, 0⟩, none, false⟩

/-- `/* u⏎v */` -/
def longSecond : Sym := ⟨.blockComment, "/* u\nv */".toList, ⟨⟨4, 6⟩, ⟨5, 4⟩⟩, ⟨0, 1⟩, none, false⟩

/-- ```
#define A 1 + \
 2
/* c
 d */ z
y = A /* u
v */ w
A w
``` -/
def longTokens : List Sym :=
  sampleTok (.dir .define) "#define" 0 0 :: (longDefine ++ sampleEnd 1 2 true ::
  ([] ++ longFirst :: ([sampleTok .ident "z" 3 6 1] ++ sampleEnd 3 7 ::
  ([sampleTok .ident "y" 4 0, sampleTok (.op (.other 0)) "=" 4 2 1, sampleTok .ident "A" 4 4 1] ++ longSecond :: ([sampleTok .ident "w" 5 5 1] ++ sampleEnd 5 6 ::
  ([sampleTok .ident "A" 6 0, sampleTok .ident "w" 6 2 1] ++ [sampleTok .eof "" 6 3]))))))

def longMacro : Macro := ⟨0, 0, none, 0, [⟨.intLit, "1".toList, ⟨0, 1⟩, some 1⟩, ⟨.op .plus, "+".toList, ⟨0, 1⟩, none⟩, ⟨.lineContinuation, "\\\n".toList, ⟨0, 1⟩, none⟩,
  ⟨.intLit, "2".toList, ⟨0, 1⟩, some 2⟩, ⟨.newline, "\n".toList, ⟨0, 0⟩, none⟩]⟩

def longMacros : Macros := updateMacros (fun _ => none) "A".toList (some longMacro)

theorem long_simple (x : Str) : Simple PlainKind longMacros x := by
  refine simple_all (fun y m h => ?_) x
  unfold longMacros updateMacros at h
  split at h
  · simp only [Option.some.injEq] at h; subst h
    exact ⟨rfl, by simp [longMacro, PlainKind, Dropped]⟩
  · simp at h

theorem long_starts : Starts longMacros 4 "A".toList := ⟨_, _, _, rfl, rfl, id, by simp, by simp⟩

def longLines : List Line :=
  [⟨"#define A 1 + \\".toList, fun _ => none, [], .shown⟩, ⟨" 2".toList, fun _ => none, [], .more⟩,
   ⟨"/* c".toList, longMacros, [], .shown⟩, ⟨" d */ z".toList, longMacros, [], .more⟩,
   ⟨"y = A /* u".toList, longMacros, [⟨sampleTok .ident "A" 4 4 1, []⟩], .shown⟩, ⟨"v */ w".toList, longMacros, [], .more⟩,
   ⟨"A w".toList, longMacros, [⟨sampleTok .ident "A" 6 0, []⟩], .shown⟩]

theorem long_file : File dirEnv 0 ⟨fun _ => none, 0, []⟩ longTokens longLines := by
  have hb : Blanks [] := by simp [Blanks]
  have hb1 : Blanks [' '] := by simp [Blanks, shown]
  refine .defineLong (ws := []) (text := "#define A 1 + \\\n 2".toList) (name := "A".toList) (m := longMacro)
    (ls := [⟨"/* c".toList, longMacros, [], .shown⟩, ⟨" d */ z".toList, longMacros, [], .more⟩,
      ⟨"y = A /* u".toList, longMacros, [⟨sampleTok .ident "A" 4 4 1, []⟩], .shown⟩, ⟨"v */ w".toList, longMacros, [], .more⟩,
      ⟨"A w".toList, longMacros, [⟨sampleTok .ident "A" 6 0, []⟩], .shown⟩]) rfl rfl ?_ ?_ ⟨rfl, rfl, rfl, hb, rfl⟩ ?_ ?_ ?_ ?_
  · exact .cons (ws := []) hb rfl (.cons (ws := [' ']) hb1 rfl (.cons (ws := [' ']) hb1 rfl (.cons (ws := [' ']) hb1 rfl (.cons (ws := [' ']) hb1 rfl
      (.cons (ws := [' ']) hb1 rfl .nil)))))
  · decide
  · intro s hs
    simp only [longDefine, List.cons_append, List.nil_append, List.mem_cons, List.not_mem_nil, or_false] at hs
    rcases hs with rfl | rfl | rfl | rfl | rfl | rfl <;> rfl
  · exact .object rfl (by decide) (by decide)
  · intro s hs; simp at hs; subst hs; rfl
  refine .comment (ws := []) (src := []) (us := []) (text := "/* c\n d */ z".toList) (ls := [⟨"y = A /* u".toList, longMacros, [⟨sampleTok .ident "A" 4 4 1, []⟩], .shown⟩,
    ⟨"v */ w".toList, longMacros, [], .more⟩, ⟨"A w".toList, longMacros, [⟨sampleTok .ident "A" 6 0, []⟩], .shown⟩]) rfl .nil .nil rfl rfl ?_ ?_ ⟨rfl, rfl, rfl, hb, rfl⟩ ?_
  · exact .cons (ws := []) hb rfl (.cons (ws := [' ']) hb1 rfl .nil)
  · intro s hs
    simp only [List.mem_cons, List.not_mem_nil, or_false] at hs
    rcases hs with rfl | rfl
    · exact ⟨trivial, by decide⟩
    · exact ⟨trivial, by decide⟩
  refine .comment (ws := []) (src := "y = A".toList) (us := [⟨sampleTok .ident "A" 4 4 1, []⟩]) (text := " /* u\nv */ w".toList)
    (ls := [⟨"A w".toList, longMacros, [⟨sampleTok .ident "A" 6 0, []⟩], .shown⟩]) rfl ?_ ?_ rfl rfl ?_ ?_ ⟨rfl, rfl, rfl, hb, rfl⟩ ?_
  · exact .cons (ws := []) hb (by decide) rfl rfl (.cons (ws := [' ']) hb1 (by decide) rfl rfl (.cons (ws := [' ']) hb1 (by decide) rfl rfl .nil))
  · refine code_of _ fun s hs => ?_
    refine ⟨?_, fun hu => ⟨long_simple _, ?_⟩⟩ <;> simp only [List.mem_cons, List.not_mem_nil, or_false] at hs
    · rcases hs with rfl | rfl | rfl <;> trivial
    · rcases hs with rfl | rfl | rfl
      · exact absurd hu (by decide)
      · exact absurd hu (by decide)
      · exact long_starts
  · exact .cons (ws := [' ']) hb1 rfl (.cons (ws := [' ']) hb1 rfl .nil)
  · intro s hs
    simp only [List.mem_cons, List.not_mem_nil, or_false] at hs
    rcases hs with rfl | rfl
    · exact ⟨trivial, by decide⟩
    · exact ⟨trivial, by decide⟩
  refine .last (ws := []) (src := "A w".toList) rfl ?_ ?_ rfl rfl hb rfl
  · exact .cons (ws := []) hb (by decide) rfl rfl (.cons (ws := [' ']) hb1 (by decide) rfl rfl .nil)
  · refine code_of _ fun s hs => ?_
    refine ⟨?_, fun hu => ⟨long_simple _, ?_⟩⟩ <;> simp only [List.mem_cons, List.not_mem_nil, or_false] at hs
    · rcases hs with rfl | rfl <;> trivial
    · rcases hs with rfl | rfl
      · exact long_starts
      · exact absurd hu (by decide)

theorem long_unbroken : Unbroken longLines := by
  have hm : ∀ s : Sym, ofSym s = (.ident, "A".toList) → Means longMacros ⟨s, []⟩ sampleSum := fun s hs =>
    .name (d := 1) (by decide) (by
      rw [hs]
      exact .use (b := sampleSum) (r := []) (m := longMacro) rfl rfl
        (.keep (by decide) (by decide) (.keep (by decide) (by decide) (.blank (by decide) (.keep (by decide) (by decide) (.blank (by decide) .nil))))) .nil)
  intro l hl _
  simp only [longLines, List.mem_cons, List.not_mem_nil, or_false] at hl
  rcases hl with rfl | rfl | rfl | rfl | rfl | rfl | rfl <;> refine ⟨by decide, fun u hu => ⟨sampleSum, ?_, by decide⟩⟩ <;>
    simp only [List.mem_cons, List.not_mem_nil, or_false] at hu <;> subst hu <;> exact hm _ rfl

/-- The hypotheses of `positions_partial` hold of it; `w` after the comment (line 5, column 5) and after the use of the macro (line 6, column 2). -/
example : ∃ r, Gives dirEnv (fun _ => none) longTokens (.result r) ∧ (textLines r.out).length = 7 ∧
    (∃ txt s, (textLines r.out)[5]? = some txt ∧ s < txt.length ∧ uToS r.argsMap r.offsets ⟨5, 5⟩ = (⟨5, s⟩, none) ∧
      (txt[s]?).map shown = some 'w' ∧ sToU r.offsets ⟨⟨5, s⟩, ⟨5, s⟩⟩ = ⟨⟨5, 5⟩, ⟨5, 5⟩⟩) ∧
    ∃ txt s, (textLines r.out)[6]? = some txt ∧ s < txt.length ∧ uToS r.argsMap r.offsets ⟨6, 2⟩ = (⟨6, s⟩, none) ∧
      (txt[s]?).map shown = some 'w' ∧ sToU r.offsets ⟨⟨6, s⟩, ⟨6, s⟩⟩ = ⟨⟨6, 2⟩, ⟨6, 2⟩⟩ :=
  let ⟨r, h, l, e⟩ := positions_partial _ _ _ _ long_file long_unbroken
  ⟨r, h, l, e 5 _ 5 rfl (.inr rfl) (by decide) (by simp), e 6 _ 2 rfl (.inl rfl) (by decide) (by intro w hw; simp at hw; subst hw; decide)⟩

example : ∃ r, preprocess dirEnv 60 (fun _ => none) longTokens = some (.result r) ∧
    textLines r.out = ["#define A 1 + \\".toList, " 2".toList, "/* c".toList, " d */ z".toList, "y = 1 + 2 /* u".toList, "v */ w".toList, "1 + 2 w".toList] ∧
    uToS r.argsMap r.offsets ⟨6, 2⟩ = (⟨6, 6⟩, none) :=
  ⟨_, rfl, by decide +kernel, by decide +kernel⟩

/-! ### Where it fails -/

/-- `x E y;` with `E` empty. -/
def emptyTokens : List Sym :=
  [sampleTok .ident "x" 0 0, sampleTok .ident "E" 0 2 1, sampleTok .ident "y" 0 4 1, sampleTok .semicolon ";" 0 5, sampleTok .eof "" 0 6]

/-- **C29 is violated**: the blank before a macro with an empty body is left out but not counted. The preprocessed text is `x y;`;
`y` (column 4) is taken to column 3, where the text has `;`. -/
theorem positions_empty_refuted : ∃ r, Gives ⟨.debug, 0, fun _ ms => ms⟩ (fun x => if x = "E".toList then some ⟨0, 0, none, 0, []⟩ else none) emptyTokens (.result r) ∧
    r.out = ["x y;".toList] ∧ uToS r.argsMap r.offsets ⟨0, 4⟩ = (⟨0, 3⟩, none) :=
  ⟨_, Verif.Props.Conditional.gives_of 40 rfl, by decide, by decide⟩

/-- `#if 1⏎#endif⏎y = F(ab,A) z` -/
def belowTokens : List Sym :=
  [sampleTok (.dir .if_) "#if" 0 0, inPre (sampleTok .intLit "1" 0 4 1) (some 1), sampleEnd 0 5 true, sampleTok (.dir .endif) "#endif" 1 0, sampleEnd 1 6,
   sampleTok .ident "y" 2 0, sampleTok (.op (.other 0)) "=" 2 2 1, sampleTok .ident "F" 2 4 1, sampleTok .lparen "(" 2 5, sampleTok .ident "ab" 2 6,
   sampleTok .comma "," 2 8, sampleTok .ident "A" 2 9, sampleTok .rparen ")" 2 10, sampleTok .ident "z" 2 12 1, sampleTok .eof "" 2 13]

/-- **C29 is violated** in arguments below a condition: `ab` on line 2 is taken to line 1. -/
theorem argument_line_refuted : ∃ r, Gives callEnv callMacros belowTokens (.result r) ∧ r.out = [[], [], "y = foo(ab) + 1 + 2 z".toList] ∧
    uToS r.argsMap r.offsets ⟨2, 7⟩ = (⟨1, 8⟩, some ⟨⟨2, 6⟩, ⟨2, 8⟩⟩) :=
  ⟨_, Verif.Props.Conditional.gives_of 60 rfl, by decide, by decide⟩

/-- `/*⏎*/⏎y = F(ab,A) z` -/
def belowComment : List Sym :=
  [⟨.blockComment, "/*\n*/".toList, ⟨⟨0, 0⟩, ⟨1, 2⟩⟩, ⟨0, 0⟩, none, false⟩, sampleEnd 1 2,
   sampleTok .ident "y" 2 0, sampleTok (.op (.other 0)) "=" 2 2 1, sampleTok .ident "F" 2 4 1, sampleTok .lparen "(" 2 5, sampleTok .ident "ab" 2 6,
   sampleTok .comma "," 2 8, sampleTok .ident "A" 2 9, sampleTok .rparen ")" 2 10, sampleTok .ident "z" 2 12 1, sampleTok .eof "" 2 13]

/-- **C29 is violated** in arguments below a comment of two lines: `ab` on line 2 is taken to line 1. -/
theorem argument_comment_refuted : ∃ r, Gives callEnv callMacros belowComment (.result r) ∧
    textLines r.out = ["/*".toList, "*/".toList, "y = foo(ab) + 1 + 2 z".toList] ∧ uToS r.argsMap r.offsets ⟨2, 7⟩ = (⟨1, 8⟩, some ⟨⟨2, 6⟩, ⟨2, 8⟩⟩) :=
  ⟨_, Verif.Props.Conditional.gives_of 60 rfl, by decide +kernel, by decide⟩

/-- `F(b+c,1) z`, where `+` directly follows `b`. -/
def touchTokens : List Sym :=
  [sampleTok .ident "F" 0 0, sampleTok .lparen "(" 0 1, sampleTok .ident "b" 0 2, sampleTok (.op .plus) "+" 0 3, sampleTok .ident "c" 0 4,
   sampleTok .comma "," 0 5, sampleTok .intLit "1" 0 6, sampleTok .rparen ")" 0 7, sampleTok .ident "z" 0 9 1, sampleTok .eof "" 0 10]

/-- **C29 is violated** where tokens of an argument touch: the position of `c` (column 4) is taken to `+`. -/
theorem argument_touch_refuted : ∃ r, Gives callEnv callMacros touchTokens (.result r) ∧ r.out = ["foo(b+c) + 1 z".toList] ∧
    uToS r.argsMap r.offsets ⟨0, 4⟩ = (⟨0, 5⟩, some ⟨⟨0, 3⟩, ⟨0, 4⟩⟩) :=
  ⟨_, Verif.Props.Conditional.gives_of 60 rfl, by decide, by decide⟩

/-- `F (b,1) z`, with a blank before the parenthesis. -/
def blankTokens : List Sym :=
  [sampleTok .ident "F" 0 0, sampleTok .lparen "(" 0 2 1, sampleTok .ident "b" 0 3,
   sampleTok .comma "," 0 4, sampleTok .intLit "1" 0 5, sampleTok .rparen ")" 0 6, sampleTok .ident "z" 0 8 1, sampleTok .eof "" 0 9]

/-- **C29 is violated** after a call with a blank before the parenthesis: the preprocessed text is `foo(b) + 1 z`, and `z` (column 8) is taken to column
12, which is behind it. -/
theorem call_blank_refuted : ∃ r, Gives callEnv callMacros blankTokens (.result r) ∧ r.out = ["foo(b) + 1 z".toList] ∧
    uToS r.argsMap r.offsets ⟨0, 8⟩ = (⟨0, 12⟩, none) :=
  ⟨_, Verif.Props.Conditional.gives_of 60 rfl, by decide, by decide⟩

/-- `I(%1)` is `1+%1`. -/
def intMacros : Macros := fun x =>
  if x = "I".toList then some ⟨0, 0, some callParams, 1, [⟨.intLit, "1".toList, ⟨0, 1⟩, some 1⟩, ⟨.op .plus, "+".toList, ⟨0, 0⟩, none⟩,
    ⟨.op .percent, "%".toList, ⟨0, 0⟩, none⟩, ⟨.intLit, "1".toList, ⟨0, 0⟩, some 1⟩]⟩
  else none

/-- `y=I(2);z` -/
def intTokens : List Sym :=
  [sampleTok .ident "y" 0 0, sampleTok (.op (.other 0)) "=" 0 1, sampleTok .ident "I" 0 2, sampleTok .lparen "(" 0 3, sampleTok .intLit "2" 0 4,
   sampleTok .rparen ")" 0 5, sampleTok .semicolon ";" 0 6, sampleTok .ident "z" 0 7, sampleTok .eof "" 0 8]

/-- **C29 is violated** after a call of a macro that starts with a number: the blank before the number in the definition is written, but not counted. The
preprocessed text is `y= 1+2;z`, and `z` (column 7) is taken to `;`. -/
theorem call_number_refuted : ∃ r, Gives callEnv intMacros intTokens (.result r) ∧ r.out = ["y= 1+2;z".toList] ∧
    uToS r.argsMap r.offsets ⟨0, 7⟩ = (⟨0, 6⟩, none) :=
  ⟨_, Verif.Props.Conditional.gives_of 60 rfl, by decide, by decide⟩

/-- `F(%1)` is `G(%1)`, `G(%1)` is `%1+1`. -/
def innerMacros : Macros := fun x =>
  if x = "F".toList then some ⟨0, 0, some callParams, 1, [⟨.ident, "G".toList, ⟨0, 1⟩, none⟩, ⟨.lparen, "(".toList, ⟨0, 0⟩, none⟩,
    ⟨.op .percent, "%".toList, ⟨0, 0⟩, none⟩, ⟨.intLit, "1".toList, ⟨0, 0⟩, some 1⟩, ⟨.rparen, ")".toList, ⟨0, 0⟩, none⟩]⟩
  else if x = "G".toList then some ⟨0, 1, some callParams, 1, [⟨.op .percent, "%".toList, ⟨0, 1⟩, none⟩, ⟨.intLit, "1".toList, ⟨0, 0⟩, some 1⟩,
    ⟨.op .plus, "+".toList, ⟨0, 0⟩, none⟩, ⟨.intLit, "1".toList, ⟨0, 0⟩, some 1⟩]⟩
  else none

/-- `y=F(2);z` -/
def innerTokens : List Sym :=
  [sampleTok .ident "y" 0 0, sampleTok (.op (.other 0)) "=" 0 1, sampleTok .ident "F" 0 2, sampleTok .lparen "(" 0 3, sampleTok .intLit "2" 0 4,
   sampleTok .rparen ")" 0 5, sampleTok .semicolon ";" 0 6, sampleTok .ident "z" 0 7, sampleTok .eof "" 0 8]

/-- **C29 is violated** after a call of a macro that starts with a call that starts with its argument: the blank before the inner call in the definition is
written, but not counted. The preprocessed text is `y= 2+1;z`, and `z` (column 7) is taken to `;`. -/
theorem inner_call_refuted : ∃ r, Gives callEnv innerMacros innerTokens (.result r) ∧ r.out = ["y= 2+1;z".toList] ∧
    uToS r.argsMap r.offsets ⟨0, 7⟩ = (⟨0, 6⟩, none) :=
  ⟨_, Verif.Props.Conditional.gives_of 60 rfl, by decide, by decide⟩

end Verif.Props.Offsets
