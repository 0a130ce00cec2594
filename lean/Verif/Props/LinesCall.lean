import Verif.Props.Offsets
/-!
# C19 for files with calls of macros
-/

namespace Verif.Props.LinesCall
open Verif.Pre Verif.Pre.Spec Verif.Props.Offsets

theorem spread_length (ms : Macros) (us : List Use) (ts : List Str) : (spread ms us ts).length = ts.length := by
  cases ts with
  | nil => rfl
  | cons t ts => simp [spread]

/-- The lines of a file of the class are its lines: the end of the file is on the last one. -/
theorem last_line {env : Env} {n : Nat} {fr : Front} {toks : List Sym} {lines : List Line} (h : File env n fr toks lines) :
    ∃ e, toks.getLast? = some e ∧ e.kind = .eof ∧ e.range.s.line + 1 = n + lines.length := by
  have step : ∀ {m k : Nat} {rest : List Sym} (pre : List Sym) {a b : List Line}, (∃ e, rest.getLast? = some e ∧ e.kind = .eof ∧ e.range.s.line + 1 = m + b.length) →
      m + b.length = k + (a ++ b).length → ∃ e, (pre ++ rest).getLast? = some e ∧ e.kind = .eof ∧ e.range.s.line + 1 = k + (a ++ b).length := by
    rintro m k rest pre a b ⟨e, h1, h2, h3⟩ hk
    exact ⟨e, by rw [List.getLast?_append, h1]; rfl, h2, h3.trans hk⟩
  have one : ∀ {n : Nat} {rest : List Sym} (pre : List Sym) {l : Line} {b : List Line}, (∃ e, rest.getLast? = some e ∧ e.kind = .eof ∧ e.range.s.line + 1 = n + 1 + b.length) →
      ∃ e, (pre ++ rest).getLast? = some e ∧ e.kind = .eof ∧ e.range.s.line + 1 = n + (l :: b).length := by
    intro n rest pre l b ih
    exact step pre (a := [l]) ih (by simp; omega)
  induction h with
  | last _ _ _ he hl _ _ => exact ⟨_, by simp, he, by rw [hl]; rfl⟩
  | @code _ _ toks _ _ _ _ e _ _ _ _ _ _ ih => rw [List.append_cons]; exact one _ ih
  | @comment n fr toks more rest x us src text ws e ls _ _ _ hs _ _ _ he _ ih =>
    have : toks ++ x :: (more ++ e :: rest) = (toks ++ x :: (more ++ [e])) ++ rest := by simp
    rw [this]
    refine step _ ih ?_
    have hw : breaks ws = 0 := breaks_blank he.blanks
    rw [List.length_append, spread_length, splitLines_length, Verif.Props.Lines.breaks_append, Verif.Props.Lines.breaks_append, hs, hw]
    omega
  | skipped _ _ _ _ ih => rw [List.append_cons]; exact one _ ih
  | @define _ _ d toks rest _ _ e _ _ _ _ _ _ _ _ _ _ _ _ ih =>
    have : d :: (toks ++ e :: rest) = (d :: (toks ++ [e])) ++ rest := by simp
    rw [this]; exact one _ ih
  | @defineLong n fr d toks rest text ws e ls _ _ _ _ _ _ he _ _ _ _ ih =>
    have : d :: (toks ++ e :: rest) = (d :: (toks ++ [e])) ++ rest := by simp
    rw [this]
    refine step _ ih ?_
    have hw : breaks ws = 0 := breaks_blank he.blanks
    rw [List.length_append, spread_length, splitLines_length, Verif.Props.Lines.breaks_append, hw]
    omega
  | @undef _ _ d x rest _ _ e _ _ _ _ _ _ _ _ ih => exact one [d, x, e] ih
  | @«include» _ _ d _ _ _ _ _ _ _ _ _ _ _ _ ih => exact one [d] ih
  | @«if» _ _ d toks rest _ _ e _ _ _ _ _ _ _ _ _ _ ih =>
    have : d :: (toks ++ e :: rest) = (d :: (toks ++ [e])) ++ rest := by simp
    rw [this]; exact one _ ih
  | @ifSkipped _ _ d toks rest _ _ e _ _ _ _ _ _ ih =>
    have : d :: (toks ++ e :: rest) = (d :: (toks ++ [e])) ++ rest := by simp
    rw [this]; exact one _ ih
  | @elseif _ _ _ d toks rest _ _ e _ _ _ _ _ _ _ _ _ _ ih =>
    have : d :: (toks ++ e :: rest) = (d :: (toks ++ [e])) ++ rest := by simp
    rw [this]; exact one _ ih
  | @elseifSkipped _ _ _ _ d toks rest _ _ e _ _ _ _ _ _ _ ih =>
    have : d :: (toks ++ e :: rest) = (d :: (toks ++ [e])) ++ rest := by simp
    rw [this]; exact one _ ih
  | @«else» _ _ _ _ d toks rest _ _ e _ _ _ _ _ _ ih =>
    have : d :: (toks ++ e :: rest) = (d :: (toks ++ [e])) ++ rest := by simp
    rw [this]; exact one _ ih
  | @«endif» _ _ _ _ d toks rest _ _ e _ _ _ _ _ _ ih =>
    have : d :: (toks ++ e :: rest) = (d :: (toks ++ [e])) ++ rest := by simp
    rw [this]; exact one _ ih

/-- **C19, with calls of macros.** Files of code, comments and definitions over any number of lines, includes and conditional directives, with uses of
macros and calls on one line: the preprocessed text has as many lines as the file. -/
theorem line_count_calls_partial (env : Env) (ms : Macros) (tokens : List Sym) (lines : List Line) (hf : File env 0 ⟨ms, 0, []⟩ tokens lines)
    (hb : Unbroken lines) : ∃ r e, Gives env ms tokens (.result r) ∧ tokens.getLast? = some e ∧ e.kind = .eof ∧
      lineCount (['\n'].intercalate r.out) = e.range.s.line + 1 := by
  simp only [← Verif.Props.Conditional.joinLines_eq]
  obtain ⟨f, r, outs, ofs, am, h1, -, h3, -, h5, -⟩ := file_text hf hb
  obtain ⟨e, he, hk, hl⟩ := last_line hf
  refine ⟨r, e, Verif.Props.Conditional.gives_of f h1, he, hk, ?_⟩
  have : lineCount (joinLines r.out) = (textLines r.out).length := by
    rw [textLines, splitLines_length, lineCount]
  rw [this, h3, h5, hl, Nat.zero_add]

example : ∃ r e, Gives dirEnv callMacros callTokens (.result r) ∧ callTokens.getLast? = some e ∧ e.kind = .eof ∧
    lineCount (['\n'].intercalate r.out) = e.range.s.line + 1 := line_count_calls_partial _ _ _ _ (call_file _) call_unbroken

example : ∃ r e, Gives dirEnv (fun _ => none) longTokens (.result r) ∧ longTokens.getLast? = some e ∧ e.kind = .eof ∧
    lineCount (['\n'].intercalate r.out) = e.range.s.line + 1 := line_count_calls_partial _ _ _ _ long_file long_unbroken

end Verif.Props.LinesCall
