/-!
# Model of `LineEndings::normalize` (crates/sourcepawn_lsp/src/line_index.rs:31-78)
-/

namespace Verif.Text.LineEndings

abbrev Bytes := List UInt8

/-- `LineEndings` (crates/sourcepawn_lsp/src/line_index.rs:25-29). -/
inductive Endings where
  | unix | dos
  deriving DecidableEq, Repr

/-- The closure `find_crlf` (line_index.rs:44): position of the first window equal to `\r\n`. -/
def findCrlf : Bytes → Option Nat
  | a :: b :: r => if a = 13 ∧ b = 10 then some 0 else (findCrlf (b :: r)).map (· + 1)
  | _ => none

theorem findCrlf_le {l : Bytes} {i : Nat} (h : findCrlf l = some i) : i + 2 ≤ l.length := by
  induction l generalizing i with
  | nil => simp [findCrlf] at h
  | cons a l ih =>
    cases l with
    | nil => simp [findCrlf] at h
    | cons b r =>
      simp only [findCrlf] at h
      split at h
      · simp at h; subst h; simp
      · simp only [Option.map_eq_some_iff] at h
        obtain ⟨j, hj, rfl⟩ := h
        have := ih hj; simp at *; omega

/-- Result of the loop: the whole buffer and the final gap, a Unix return, or an out-of-range slice (panic). -/
inductive Res where
  | done (buf : Bytes) (gap : Nat)
  | unixReturn (buf : Bytes)
  | panic
  deriving DecidableEq

/-- The loop (line_index.rs:46-67). The buffer is `front ++ tail` where `tail` is the Rust slice of the same name;
`tail.copy_within(gap..idx, 0)` followed by `tail = &mut tail[idx - gap..]` moves `tail[gap..idx]` to the end of
`front` and drops the first `idx - gap` bytes of `tail` (the overwritten ones). -/
def loop (front tail : Bytes) (gap : Nat) (seen : Bool) : Res :=
  if _hg : tail.length < gap then .panic
  else
    match h : findCrlf (tail.drop gap) with
    | none =>
      if seen then
        let idx := tail.length
        let front' := front ++ (tail.drop gap).take (idx - gap)
        let tail' := tail.drop (idx - gap)
        if tail'.length = gap then .done (front' ++ tail') gap
        else loop front' tail' (gap + 1) true
      else .unixReturn (front ++ tail)
    | some i =>
      let idx := i + gap
      let front' := front ++ (tail.drop gap).take (idx - gap)
      let tail' := tail.drop (idx - gap)
      if tail'.length = gap then .done (front' ++ tail') gap
      else loop front' tail' (gap + 1) true
  termination_by tail.length - gap
  decreasing_by
    · rename_i hne
      simp only [tail', idx, List.length_drop] at hne ⊢
      omega
    · rename_i hne
      have := findCrlf_le h
      simp only [tail', idx, List.length_drop] at this hne ⊢
      omega

/-- `LineEndings::normalize` (line_index.rs:33-77); `none` = panic. -/
def normalize (src : Bytes) : Option (Bytes × Endings) :=
  match loop [] src 0 false with
  | .panic => none
  | .unixReturn buf => some (buf, .unix)
  | .done buf gap => some (buf.take (buf.length - gap), .dos)

end Verif.Text.LineEndings
