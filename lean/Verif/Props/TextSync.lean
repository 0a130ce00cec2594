import Verif.TextSync.Lemmas
/-!
# C01, C02: document synchronisation
-/

namespace Verif.Props.TextSync
open Verif.TextSync Verif.TextSync.Spec

/-- The full claim of C01 for one batch: the server ends with the text obtained by applying the changes in order. -/
def SyncCorrect (enc : Encoding) (file : Text) (cs : List Change) : Prop :=
  applyDocumentChanges enc file cs = some (applyAll enc file cs)

/-- **C01 is false of the code (1).** A ranged edit followed by a full replacement and another edit: the server
applies the first edit to the replaced text although it was meant for the old text. All ranges are valid. -/
theorem sync_refuted_ranged_before_full :
    ∃ file cs, ValidBatch .utf16 file cs ∧ ¬ SyncCorrect .utf16 file cs := by
  refine ⟨"ab".toList, [⟨some ⟨⟨0, 0⟩, ⟨0, 1⟩⟩, []⟩, ⟨none, "xyz".toList⟩, ⟨some ⟨⟨0, 2⟩, ⟨0, 2⟩⟩, "w".toList⟩], ?_, ?_⟩
  · refine ⟨?_, ?_, ?_, trivial⟩
    · intro r hr
      obtain rfl : r = ⟨⟨0, 0⟩, ⟨0, 1⟩⟩ := by simpa using hr.symm
      exact ⟨⟨[], [], "ab".toList, by decide, by decide, by decide⟩, ⟨[], "a".toList, "b".toList, by decide, by decide, by decide⟩,
        Or.inr ⟨rfl, by decide⟩⟩
    · intro r hr; simp at hr
    · intro r hr
      obtain rfl : r = ⟨⟨0, 2⟩, ⟨0, 2⟩⟩ := by simpa using hr.symm
      exact ⟨⟨[], "xy".toList, "z".toList, by decide, by decide, by decide⟩, ⟨[], "xy".toList, "z".toList, by decide, by decide, by decide⟩,
        Or.inr ⟨rfl, by decide⟩⟩
  · unfold SyncCorrect; decide

/-- **C01 is false of the code (2).** LSP says that a column past the end of a line means the end of the line. The
server does not clamp: on the last line it panics, on an inner line it edits the next line. -/
theorem sync_refuted_column_past_end :
    (∃ file cs, applyDocumentChanges .utf16 file cs = none) ∧
    (∃ file cs t, applyDocumentChanges .utf16 file cs = some t ∧ t ≠ applyAll .utf16 file cs) := by
  refine ⟨⟨"a".toList, [⟨some ⟨⟨0, 0⟩, ⟨0, 5⟩⟩, []⟩], by decide⟩,
    ⟨"a\nbcd".toList, [⟨some ⟨⟨0, 0⟩, ⟨0, 3⟩⟩, []⟩], "cd".toList, by decide, by decide⟩⟩

/-- **C01 (partial).** What holds: if no ranged change precedes a full replacement in the batch and every range
denotes a piece of the text it applies to, then the server's text is the sequential result. Missing from the full
claim: ranged changes before a full one (refuted above) and columns past the end of a line (refuted above). -/
theorem sync_correct_partial (enc : Encoding) (file : Text) (full ranged : List Change)
    (hfull : ∀ c ∈ full, c.range = none) (hranged : ∀ c ∈ ranged, c.range.isSome)
    (hvalid : ValidBatch enc file (full ++ ranged)) : SyncCorrect enc file (full ++ ranged) := by
  unfold SyncCorrect
  have hlines : ∀ c ∈ ranged, ∀ r, c.range = some r → r.start.line ≤ r.stop.line :=
    validBatch_lines (validBatch_append.1 hvalid).2
  have main : ∀ t, ValidBatch enc t ranged →
      (loop enc ⟨t, LineIndex.new t, 2 ^ 32 - 1⟩ ranged).map (·.text) = some (applyAll enc t ranged) := by
    intro t ht
    rw [loop_eq_naive enc ranged hlines _ (Or.inl rfl)]
    exact naive_eq_spec enc ranged hranged t ht
  rcases List.eq_nil_or_concat full with rfl | ⟨fs, c, rfl⟩
  · simp only [List.nil_append] at *
    simp only [applyDocumentChanges, startIdx_none hranged]
    cases ranged with
    | nil => rfl
    | cons d ds =>
      obtain ⟨r, hr⟩ := Option.isSome_iff_exists.1 (hranged d List.mem_cons_self)
      simp only [List.getElem?_cons_zero, hr]
      exact main file hvalid
  · have hc : c.range = none := hfull c (by simp)
    have hv := (validBatch_append.1 hvalid).2
    have happ : applyAll enc file (fs.concat c) = c.text := by
      simp [applyAll, List.concat_eq_append, List.foldl_append, applyOne, hc]
    rw [happ] at hv
    have hspec : applyAll enc file (fs.concat c ++ ranged) = applyAll enc c.text ranged := by
      simp only [applyAll, List.foldl_append]
      rw [show List.foldl (applyOne enc) file (fs.concat c) = c.text from happ]
    have hlist : fs.concat c ++ ranged = fs ++ c :: ranged := by simp [List.concat_eq_append]
    rw [hspec, hlist]
    simp only [applyDocumentChanges, startIdx_full hc hranged]
    simp only [List.getElem?_append_right (Nat.le_refl _), Nat.sub_self, List.getElem?_cons_zero, hc]
    split
    · next h =>
      have : ranged = [] := by simpa using h
      subst this; rfl
    · have : fs ++ c :: ranged = fs.concat c ++ ranged := by simp [List.concat_eq_append]
      rw [this, loop_skip_full enc (fs.concat c) ranged hfull]
      exact main c.text hv

/-- Non-vacuity: a full replacement by a three-line text with a two-unit character, followed by three edits in
reverse order of lines. -/
example : ValidBatch .utf16 "old".toList
      ([⟨none, "a𝄞b\ncd\ne".toList⟩] ++
       [⟨some ⟨⟨2, 0⟩, ⟨2, 1⟩⟩, "E\nF".toList⟩, ⟨some ⟨⟨0, 3⟩, ⟨1, 1⟩⟩, "!".toList⟩]) ∧
    applyDocumentChanges .utf16 "old".toList
      ([⟨none, "a𝄞b\ncd\ne".toList⟩] ++
       [⟨some ⟨⟨2, 0⟩, ⟨2, 1⟩⟩, "E\nF".toList⟩, ⟨some ⟨⟨0, 3⟩, ⟨1, 1⟩⟩, "!".toList⟩]) = some "a𝄞!d\nE\nF".toList := by
  refine ⟨⟨by simp, ?_, ?_, trivial⟩, by decide⟩
  · intro r hr
    obtain rfl : r = ⟨⟨2, 0⟩, ⟨2, 1⟩⟩ := by simpa using hr.symm
    exact ⟨⟨"a𝄞b\ncd\n".toList, [], "e".toList, by decide, by decide, by decide⟩,
      ⟨"a𝄞b\ncd\n".toList, "e".toList, [], by decide, by decide, by decide⟩, Or.inr ⟨rfl, by decide⟩⟩
  · intro r hr
    obtain rfl : r = ⟨⟨0, 3⟩, ⟨1, 1⟩⟩ := by simpa using hr.symm
    exact ⟨⟨[], "a𝄞".toList, "b\ncd\nE\nF".toList, by decide, by decide, by decide⟩,
      ⟨"a𝄞b\n".toList, "c".toList, "d\nE\nF".toList, by decide, by decide, by decide⟩, Or.inl (by decide)⟩

/-- **C02** (line-table reuse is invisible). For every batch of changes whose ranges start on a line not after the
one they end on, processing with the reuse optimisation gives exactly the result (including panics) of rebuilding
the table before each edit. No validity of the positions is assumed. -/
theorem index_reuse_invisible (enc : Encoding) (file : Text) (cs : List Change)
    (hwf : ∀ c ∈ cs, ∀ r, c.range = some r → r.start.line ≤ r.stop.line) :
    (loop enc ⟨file, LineIndex.new file, 2 ^ 32 - 1⟩ cs).map (·.text) = naiveLoop enc file cs :=
  loop_eq_naive enc cs hwf _ (Or.inl rfl)

/-- Non-vacuity: the second edit reuses the table built before the first one, and the third forces a rebuild. -/
example : naiveLoop .utf16 "ab\ncd\nef\n".toList
      [⟨some ⟨⟨2, 0⟩, ⟨2, 1⟩⟩, "X\nY".toList⟩, ⟨some ⟨⟨0, 1⟩, ⟨1, 1⟩⟩, []⟩, ⟨some ⟨⟨1, 0⟩, ⟨2, 0⟩⟩, "Z".toList⟩] =
    some "ad\nZYf\n".toList := by decide

/-- The hypothesis of C02 is needed: an inverted range (rejected by the server) raises `index_valid`, and the next
edit is then resolved with a stale table. -/
theorem index_reuse_inverted_range_refuted :
    ∃ file cs, (loop .utf16 ⟨file, LineIndex.new file, 2 ^ 32 - 1⟩ cs).map (·.text) ≠ naiveLoop .utf16 file cs := by
  refine ⟨"a\nb\nc\n".toList, [⟨some ⟨⟨1, 0⟩, ⟨1, 1⟩⟩, "xyz".toList⟩, ⟨some ⟨⟨5, 0⟩, ⟨0, 0⟩⟩, []⟩,
    ⟨some ⟨⟨2, 0⟩, ⟨2, 1⟩⟩, "Q".toList⟩], by decide⟩

end Verif.Props.TextSync
