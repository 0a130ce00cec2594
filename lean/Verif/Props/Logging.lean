import Verif.Lsp.Logging
import Mathlib.Data.List.Induction
import Mathlib.Data.List.Infix
/-! # C115: messages are written as the command line says -/

namespace Verif.Props.Logging
open Verif.Lsp.Logging Verif.Lsp.Logging.Spec

theorem nearest_inits (o : Opts) (c : String) : ∀ (rest : List String), ((rest.inits.map (c :: ·)).reverse.findSome? (levelFor o)) = levelFor o [c] := by
    intro rest
    induction rest using List.reverseRecOn with
    | nil => simp
    | append_singleton rest x ih =>
      rw [List.inits_append]
      simp only [List.inits, List.map_nil, List.map_cons, List.tail_cons, List.map_append, List.reverse_append, List.reverse_cons, List.reverse_nil, List.nil_append,
        List.findSome?_append]
      have h : levelFor o (c :: (rest ++ [x])) = none := by
        cases rest <;> rfl
      simp only [List.findSome?_cons, h, List.findSome?_nil, Option.none_or]
      exact ih

/-- The level that counts for a message is the one of the first name of its path, the crate. -/
theorem nearest_eq (o : Opts) (c : String) (rest : List String) : nearest o (c :: rest) = if c ∈ named then some (verbosityLevel o) else none := by
  unfold nearest
  rw [List.inits, List.reverse_cons, List.findSome?_append, nearest_inits]
  by_cases h : c ∈ named <;> simp [levelFor, h]

/-- **C115, exactly.** A message is written if and only if it is an error of a crate that is not listed, or it is of a listed crate, the server is not told to be quiet, and its
level is at most one more than the number of `-v`. -/
theorem passes_iff (o : Opts) (c : String) (rest : List String) (l : Level) (hl : l ≠ .off) :
    passes o (c :: rest) l = true ↔ if c ∈ named then o.quiet = false ∧ l.rank ≤ o.verbosity + 1 else l = .error := by
  unfold passes
  rw [nearest_eq, decide_eq_true_iff]
  by_cases h : c ∈ named
  · rw [if_pos h, if_pos h]
    simp only [Option.getD_some, verbosityLevel]
    cases hq : o.quiet with
    | true => cases l <;> simp_all [Level.rank]
    | false =>
      have h5 : l.rank ≤ 5 := by cases l <;> simp [Level.rank]
      have h1 : 1 ≤ l.rank := by cases l <;> simp_all [Level.rank]
      rcases hv : o.verbosity with _ | _ | _ | _ | n
      all_goals simp only [Bool.not_false, if_true, true_and]
      all_goals first | rfl | (show l.rank ≤ 5 ↔ _; omega)
  · rw [if_neg h, if_neg h]
    cases l <;> simp_all [Level.rank]

/-- **C115, partial.** The crates of the server, less `flycheck`: when it is told to be quiet none of their messages is written; otherwise exactly those whose level is at most one
more than the number of `-v`. Missing: `flycheck` and the crates of others (`quiet_refuted`, `flycheck_refuted`). -/
theorem crates_partial (o : Opts) (c : String) (hc : c ∈ crates) (hf : c ≠ "flycheck") (rest : List String) (l : Level) (hl : l ≠ .off) :
    passes o (c :: rest) l = true ↔ o.quiet = false ∧ l.rank ≤ o.verbosity + 1 := by
  have h : c ∈ named := (by decide : ∀ c ∈ crates, c ≠ "flycheck" → c ∈ named) c hc hf
  rw [passes_iff o c rest l hl, if_pos h]

/-- With more `-v` no message is lost. -/
theorem verbosity_mono (o o' : Opts) (h : o.verbosity ≤ o'.verbosity) (hq : o'.quiet = o.quiet) (path : List String) (l : Level) (hl : l ≠ .off) (hp : passes o path l = true) :
    passes o' path l = true := by
  cases path with
  | nil => exact hp
  | cons c rest =>
    rw [passes_iff _ _ _ _ hl] at hp ⊢
    split
    · rw [if_pos ‹_›] at hp
      exact ⟨hq.trans hp.1, by omega⟩
    · rwa [if_neg ‹_›] at hp

/-- **C115, violated.** Told to print nothing, the server prints the errors of the crates it uses. -/
theorem quiet_refuted (v : Nat) : printed ⟨v, true⟩ [⟨["notify", "inotify"], .error, [33]⟩] = [33] := by
  have : passes ⟨v, true⟩ ["notify", "inotify"] .error = true := (passes_iff _ _ _ _ (by decide)).2 (by rw [if_neg (by decide)])
  simp [printed, this]

/-- **C115, violated.** The name of the crate that runs the compiler is misspelled: no `-v` shows its warnings. -/
theorem flycheck_refuted (v : Nat) : "flycheck" ∈ crates ∧ printed ⟨v, false⟩ [⟨["flycheck"], .warn, [33]⟩] = [] := by
  have : passes ⟨v, false⟩ ["flycheck"] .warn = false := by
    rw [← Bool.not_eq_true, passes_iff _ _ _ _ (by decide), if_neg (by decide)]
    decide
  exact ⟨by decide, by simp [printed, this]⟩

/-- **C115, violated.** `-vv` is said to be the maximum; two more show more. -/
theorem max_refuted : printed ⟨2, false⟩ [⟨["ide"], .debug, [33]⟩] = [] ∧ printed ⟨3, false⟩ [⟨["ide"], .debug, [33]⟩] = [33] := by
  constructor
  · have : passes ⟨2, false⟩ ["ide"] .debug = false := by
      rw [← Bool.not_eq_true, passes_iff _ _ _ _ (by decide)]
      decide
    simp [printed, this]
  · have : passes ⟨3, false⟩ ["ide"] .debug = true := (passes_iff _ _ _ _ (by decide)).2 (by decide)
    simp [printed, this]

theorem writeAll_eq : ∀ (ls : List (List Nat)) (done file : List Nat), writeAll (done ++ file) done.length ls = done ++ ls.flatten ++ file.drop ls.flatten.length
  | [], done, file => by simp [writeAll]
  | l :: ls, done, file => by
    have h : writeAt (done ++ file) done.length l = (done ++ l) ++ file.drop l.length := by
      simp [writeAt, List.drop_append]
    rw [writeAll, h, ← List.length_append, writeAll_eq ls (done ++ l) (file.drop l.length)]
    simp [List.drop_drop]

/-- **C115, exactly.** The log file starts with what is printed; what follows is the end of what was in it before. -/
theorem log_exact (o : Opts) (old : List Nat) (ms : List Message) : logFile o old ms = printed o ms ++ old.drop (printed o ms).length := by
  have h := writeAll_eq ((ms.filter fun m => passes o m.path m.level).map (·.line)) [] old
  simp only [List.nil_append, List.length_nil] at h
  rw [logFile, h, printed, List.flatMap]

/-- **C115, partial.** A log file that was not there before, or is no longer than what is printed, contains what is printed. -/
theorem log_partial (o : Opts) (old : List Nat) (ms : List Message) (h : old.length ≤ (printed o ms).length) : logFile o old ms = printed o ms := by
  rw [log_exact, List.drop_eq_nil_of_le h, List.append_nil]

/-- **C115, violated.** The end of an older log is left in the file, in the middle of a line. -/
theorem log_refuted : ∃ (o : Opts) (old : List Nat) (ms : List Message), old = [1, 2, 3, 10] ∧ printed o ms = [7, 10] ∧ logFile o old ms = [7, 10, 3, 10] := by
  have : passes ⟨0, false⟩ ["ide"] .error = true := (passes_iff _ _ _ _ (by decide)).2 (by decide)
  have hp : printed ⟨0, false⟩ [⟨["ide"], .error, [7, 10]⟩] = [7, 10] := by simp [printed, this]
  exact ⟨⟨0, false⟩, [1, 2, 3, 10], [⟨["ide"], .error, [7, 10]⟩], rfl, hp, by rw [log_exact, hp]; rfl⟩

/-- A warning of the preprocessor is written with `-v`, not without. -/
example : passes ⟨1, false⟩ ["preprocessor", "macros"] .warn = true ∧ passes ⟨0, false⟩ ["preprocessor", "macros"] .warn = false := by decide

end Verif.Props.Logging
