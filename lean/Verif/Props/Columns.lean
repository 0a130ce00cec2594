import Verif.Ide.Columns
import Verif.Props.Goto
/-!
# C81: a position means the same place for the client and the server
-/

namespace Verif.Props.Columns

open Verif.Pre (Pos Rng)
open Verif.Ide.Goto Verif.Ide.Goto.Spec Verif.Ide.Columns Verif.Ide.Columns.Spec
open Verif.TextSync (Text Encoding)
open Verif.TextSync.Spec (units)

theorem size_ascii (c : Char) : c.utf8Size = 1 ↔ c.toNat < 128 := by
  have : c.val.toNat = c.toNat := rfl
  simp only [Char.utf8Size, UInt32.le_iff_toNat_le]
  split_ifs <;> simp_all <;> omega

theorem units_pos (enc : Encoding) (c : Char) : 0 < units enc c := by
  cases enc
  · exact Char.utf8Size_pos c
  · simp only [units]; split <;> omega
  · simp [units]

theorem units_le (enc : Encoding) (c : Char) : units enc c ≤ c.utf8Size := by
  have := Char.utf8Size_pos c
  cases enc
  · exact Nat.le_refl _
  · simp only [units]; split <;> omega
  · exact this

/-- A character has as many code units as bytes only in UTF-8 or if it is in ASCII. -/
theorem units_eq (enc : Encoding) (c : Char) : units enc c = c.utf8Size ↔ enc = .utf8 ∨ c.toNat < 128 := by
  have := Char.utf8Size_pos c
  rw [← size_ascii]
  cases enc
  · simp [units]
  · simp only [units]; split <;> simp <;> omega
  · simp only [units]; simp; omega

theorem sum_le (enc : Encoding) : ∀ l : Text, (l.map (units enc)).sum ≤ (l.map (units .utf8)).sum
  | [] => Nat.le_refl _
  | c :: l => by
    have := sum_le enc l
    have := units_le enc c
    simp only [List.map_cons, List.sum_cons, units] at *
    omega

theorem sum_eq (enc : Encoding) : ∀ l : Text, (l.map (units enc)).sum = (l.map (units .utf8)).sum ↔ enc = .utf8 ∨ ∀ c ∈ l, c.toNat < 128
  | [] => by simp
  | c :: l => by
    have h1 := sum_le enc l
    have h2 := units_le enc c
    have h3 := sum_eq enc l
    have h4 := units_eq enc c
    have h5 : (List.map (units enc) (c :: l)).sum = (List.map (units .utf8) (c :: l)).sum ↔
        units enc c = c.utf8Size ∧ (l.map (units enc)).sum = (l.map (units .utf8)).sum := by
      simp only [List.map_cons, List.sum_cons, units] at *
      omega
    rw [h5, h3, h4]
    simp only [List.mem_cons, forall_eq_or_imp]
    tauto

/-- The client's column and that of the syntax tree. -/
theorem column_eq (enc : Encoding) (line : Text) (k : Nat) : column enc line k = column .utf8 line k ↔ enc = .utf8 ∨ Ascii line k := sum_eq enc _

theorem column_succ (enc : Encoding) (line : Text) {i j : Nat} (h : i < j) (hj : j ≤ line.length) : column enc line i < column enc line j := by
  obtain ⟨d, rfl⟩ := Nat.exists_eq_add_of_lt h
  have h1 : line.take (i + d + 1) = line.take i ++ (line.drop i).take (d + 1) := by rw [← List.take_add]; rfl
  have h2 : (line.drop i).take (d + 1) = (line[i]'(by omega)) :: (line.drop (i + 1)).take d := by
    rw [List.drop_eq_getElem_cons (by omega), List.take_succ_cons]
  have h3 := units_pos enc (line[i]'(by omega))
  simp only [column, h1, h2, List.map_append, List.sum_append, List.map_cons, List.sum_cons]
  omega

theorem column_le (enc : Encoding) (line : Text) {i j : Nat} (h : i ≤ j) : column enc line i ≤ column enc line j := by
  obtain ⟨d, rfl⟩ := Nat.le.dest h
  simp only [column, List.take_add, List.map_append, List.sum_append]
  omega

theorem ascii_mono {line : Text} {i j : Nat} (h : i ≤ j) (ha : Ascii line j) : Ascii line i := fun c hc => ha c (by
  obtain ⟨d, rfl⟩ := Nat.le.dest h
  rw [List.take_add]; simp [hc])

/-- **C81 (UTF-8, or ASCII before the token)**: on every character of a token, the token is found and the answer gives its range in the columns of the
client. -/
theorem token_partial (enc : Encoding) (t : Node) (ht : Ordered t) (leaf : Node) (hl : leaf ∈ leaves t) (n : Nat) (line : Text) (i j : Nat)
    (hj : j ≤ line.length) (hr : leaf.range = range .utf8 n line i j) (henc : enc = .utf8 ∨ Ascii line j) (k : Nat) (hk : i ≤ k) (hk' : k < j) :
    tokenAt t ⟨n, column enc line k⟩ = (leaf, range enc n line i j) := by
  have e : ∀ x ≤ j, column enc line x = column .utf8 line x := fun x hx => (column_eq enc line x).2 (henc.imp_right (ascii_mono hx))
  have h1 := column_le .utf8 line hk
  have h2 := column_succ .utf8 line hk' hj
  have hnode : nodeAt (toPoint ⟨n, column enc line k⟩) t = leaf := by
    refine Goto.node_at_leaf ?_ ?_ t ht hl
    · rw [hr]
      refine .inr ⟨rfl, ?_⟩
      simp only [toPoint, range, e k (by omega)]; exact h1
    · rw [hr, Goto.before_iff]
      simp only [Verif.Pre.Spec.Pos.le, toPoint, range, e k (by omega)]; omega
  simp only [tokenAt, hnode, hr, toRange, toPosition, range, e i (by omega), e j (by omega)]

/-- **C81 fails exactly elsewhere**: whenever the answer is about a token, its range is right in the columns of the client if and only if the encoding is
UTF-8 or there are only ASCII characters up to the end of the token. -/
theorem token_exact (enc : Encoding) (t : Node) (p : Pos) (n : Nat) (line : Text) (i j : Nat) (hij : i ≤ j)
    (hr : (tokenAt t p).1.range = range .utf8 n line i j) :
    (tokenAt t p).2 = range enc n line i j ↔ enc = .utf8 ∨ Ascii line j := by
  have hr' : (nodeAt (toPoint p) t).range = range .utf8 n line i j := hr
  have h1 : (tokenAt t p).2 = range .utf8 n line i j := by simp only [tokenAt, hr', toRange, toPosition, range]
  rw [h1]
  simp only [range, Rng.mk.injEq, Pos.mk.injEq, true_and]
  rw [eq_comm (a := column .utf8 line i), eq_comm (a := column .utf8 line j), column_eq, column_eq]
  constructor
  · exact fun h => h.2
  · exact fun h => ⟨h.imp_right (ascii_mono hij), h⟩

/-- `"é"; f` -/
def sampleLine : Text := ['"', 'é', '"', ';', ' ', 'f']

def sampleTree : Node := .mk .source_file ⟨⟨0, 0⟩, ⟨0, 7⟩⟩ false
  [.mk (.other 0) ⟨⟨0, 0⟩, ⟨0, 4⟩⟩ false [], .mk (.other 1) ⟨⟨0, 4⟩, ⟨0, 5⟩⟩ false [], .mk (.other 2) ⟨⟨0, 6⟩, ⟨0, 7⟩⟩ false []]

/-- **C81 fails with UTF-16**, the default of the protocol: on `f` after a string with `é`, no token is found; the range of `f` is given one column too
far to the right. -/
theorem token_refuted : Ordered sampleTree ∧ (∃ leaf ∈ leaves sampleTree, leaf.range = range .utf8 0 sampleLine 5 6) ∧
    column .utf16 sampleLine 5 = 5 ∧ (tokenAt sampleTree ⟨0, 5⟩).1.range = ⟨⟨0, 0⟩, ⟨0, 7⟩⟩ ∧
    (tokenAt sampleTree ⟨0, 6⟩).2 = ⟨⟨0, 6⟩, ⟨0, 7⟩⟩ ∧ range .utf16 0 sampleLine 5 6 = ⟨⟨0, 5⟩, ⟨0, 6⟩⟩ := by
  refine ⟨?_, ?_, by decide, by decide +kernel, by decide +kernel, by decide⟩
  · simp [sampleTree, Ordered, OrderedIn, Node.range, Verif.Pre.Spec.Pos.le]
  · exact ⟨.mk (.other 2) ⟨⟨0, 6⟩, ⟨0, 7⟩⟩ false [], by simp [sampleTree, leaves, leavesIn], by decide⟩

/-- The hypotheses of `token_partial` hold with UTF-8, and with UTF-16 for the quotation mark. -/
example : tokenAt sampleTree ⟨0, 6⟩ = (.mk (.other 2) ⟨⟨0, 6⟩, ⟨0, 7⟩⟩ false [], ⟨⟨0, 6⟩, ⟨0, 7⟩⟩) :=
  token_partial .utf8 sampleTree token_refuted.1 _ (by simp [sampleTree, leaves, leavesIn]) 0 sampleLine 5 6 (by decide) (by decide) (.inl rfl) 5
    (by decide) (by decide)

example : tokenAt sampleTree ⟨0, 0⟩ = (.mk (.other 0) ⟨⟨0, 0⟩, ⟨0, 4⟩⟩ false [], ⟨⟨0, 0⟩, ⟨0, 4⟩⟩) :=
  token_partial .utf16 sampleTree token_refuted.1 _ (by simp [sampleTree, leaves, leavesIn]) 0 "\"xy\"; f".toList 0 4 (by decide) (by decide)
    (.inr (by intro c hc; revert c; decide)) 0 (by decide) (by decide)

end Verif.Props.Columns
