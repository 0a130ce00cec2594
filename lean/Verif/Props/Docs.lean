import Verif.Ide.Docs
/-!
# C79: the documentation of a declaration
-/

namespace Verif.Props.Docs

open Verif.Ide.Docs Verif.Ide.Docs.Spec

/-! ### The text of a comment -/

theorem dropWhile_space {ws body : Str} (h : ∀ c ∈ ws, isSpace c = true) (hb : ∀ c, body.head? = some c → isSpace c = false) :
    (ws ++ body).dropWhile isSpace = body := by
  rw [List.dropWhile_append_of_pos h]
  cases body with
  | nil => rfl
  | cons c r => rw [List.dropWhile_cons_of_neg]; simp [hb c rfl]

theorem dropWhile_stars (k : Nat) {r : Str} (hb : r.head? ≠ some '*') : (List.replicate k '*' ++ r).dropWhile (· = '*') = r := by
  rw [List.dropWhile_append_of_pos (by intro c hc; simp [List.eq_of_mem_replicate hc])]
  cases r with
  | nil => rfl
  | cons c r => rw [List.dropWhile_cons_of_neg]; intro e; apply hb; simpa using e

theorem stripClose_end (t : Str) : stripClose (t ++ ['*', '/']) = t := by simp [stripClose]

theorem stripClose_other {t : Str} (h : ¬ ['*', '/'] <:+ t) : stripClose t = t := by
  unfold stripClose
  split
  · next r e =>
    refine absurd ⟨r.reverse, ?_⟩ h
    have := congrArg List.reverse e
    simpa using this.symm
  · rfl

theorem stripSlashes_other {t : Str} (h1 : ∀ c, t.head? = some c → isSpace c = false) (h2 : ¬ ['/', '/'] <+: t) : stripSlashes t = t := by
  unfold stripSlashes
  have : t.dropWhile isSpace = t := by
    cases t with
    | nil => rfl
    | cons c r => rw [List.dropWhile_cons_of_neg]; simp [h1 c rfl]
  rw [this]
  split
  · next r => exact absurd ⟨r, rfl⟩ h2
  · rfl

/-- **C79, the text of a block comment**: `/*`, any number of stars and blanks are taken away in front and `*/` at the end, and what is between is shown as it is —
if it starts with something else than a blank, a star or `//`. -/
theorem block_text_partial (k : Nat) (ws body : Str) (hws : ∀ c ∈ ws, isSpace c = true) (hb : body ≠ [])
    (h1 : ∀ c, body.head? = some c → isSpace c = false) (h2 : body.head? ≠ some '*') (h3 : ¬ ['/', '/'] <+: body) :
    commentToDoc ('/' :: '*' :: (List.replicate k '*' ++ (ws ++ (body ++ ['*', '/'])))) = body := by
  have hopen : stripOpen ('/' :: '*' :: (List.replicate k '*' ++ (ws ++ (body ++ ['*', '/'])))) = body ++ ['*', '/'] := by
    unfold stripOpen
    rw [List.dropWhile_cons_of_neg (by decide)]
    show ((List.replicate k '*' ++ (ws ++ (body ++ ['*', '/']))).dropWhile (· = '*')).dropWhile isSpace = _
    rw [dropWhile_stars, dropWhile_space hws]
    · intro c hc
      cases body with
      | nil => exact absurd rfl hb
      | cons b r => exact h1 c hc
    · cases ws with
      | nil =>
        cases body with
        | nil => exact absurd rfl hb
        | cons b r => exact h2
      | cons w ws =>
        have := hws w (by simp)
        intro e
        simp at e
        rw [e] at this
        exact absurd this (by decide)
  rw [commentToDoc, hopen, stripClose_end, stripSlashes_other h1 h3]

/-- **C79, the text of a line comment**: `//` and blanks are taken away in front, and the rest is shown as it is — if it does not end with `*/`. -/
theorem line_text_partial (ws body : Str) (hws : ∀ c ∈ ws, isSpace c = true) (h1 : ∀ c, body.head? = some c → isSpace c = false)
    (h2 : ¬ ['*', '/'] <:+ body) : commentToDoc ('/' :: '/' :: (ws ++ body)) = body := by
  have hopen : stripOpen ('/' :: '/' :: (ws ++ body)) = '/' :: '/' :: (ws ++ body) := by
    unfold stripOpen
    rw [List.dropWhile_cons_of_neg (by decide)]
    rfl
  have hclose : stripClose ('/' :: '/' :: (ws ++ body)) = '/' :: '/' :: (ws ++ body) := by
    refine stripClose_other fun h => ?_
    obtain ⟨t, ht⟩ := h
    rcases List.eq_nil_or_concat body with rfl | ⟨b1, x, rfl⟩
    · rcases List.eq_nil_or_concat ws with rfl | ⟨w1, y, rfl⟩
      · have e : t ++ ['*', '/'] = [] ++ ['/', '/'] := by simpa using ht
        have := (List.append_inj' e rfl).2
        exact absurd this (by decide)
      · have hy := hws y (by simp)
        have e : (t ++ ['*']) ++ ['/'] = ('/' :: '/' :: w1) ++ [y] := by simpa using ht
        have := (List.append_inj' e rfl).2
        simp at this
        rw [← this] at hy
        exact absurd hy (by decide)
    · have e : (t ++ ['*']) ++ ['/'] = ('/' :: '/' :: (ws ++ b1)) ++ [x] := by simpa using ht
      obtain ⟨e1, e2⟩ := List.append_inj' e rfl
      simp only [List.cons.injEq, and_true] at e2
      rcases List.eq_nil_or_concat b1 with rfl | ⟨b2, y, rfl⟩
      · rcases List.eq_nil_or_concat ws with rfl | ⟨w1, y, rfl⟩
        · have e' : t ++ ['*'] = ['/'] ++ ['/'] := by simpa using e1
          have := (List.append_inj' e' rfl).2
          exact absurd this (by decide)
        · have hy := hws y (by simp)
          have e' : t ++ ['*'] = ('/' :: '/' :: w1) ++ [y] := by simpa using e1
          have := (List.append_inj' e' rfl).2
          simp at this
          rw [← this] at hy
          exact absurd hy (by decide)
      · have e' : t ++ ['*'] = ('/' :: '/' :: (ws ++ b2)) ++ [y] := by simpa using e1
        have := (List.append_inj' e' rfl).2
        simp only [List.cons.injEq, and_true] at this
        exact h2 ⟨b2, by rw [← e2, ← this]; simp⟩
  rw [commentToDoc, hopen, hclose]
  unfold stripSlashes
  rw [List.dropWhile_cons_of_neg (by decide)]
  exact dropWhile_space hws h1

example : commentToDoc "/** Adds one.\n * @param x  Number */".toList = "Adds one.\n * @param x  Number ".toList ∧
    commentToDoc "//   Adds one.".toList = "Adds one.".toList := by decide

/-- **C79 is violated** for some texts: an empty comment is shown as `/`, slashes at the start of a block comment and `*/` at the end of a line
comment are lost. -/
theorem text_refuted : commentToDoc "/**/".toList = "/".toList ∧ commentToDoc "/* //x*/".toList = "x".toList ∧
    commentToDoc "// see a*/".toList = "see a".toList := by decide

/-! ### Which comments -/

theorem above_zero {row : Nat} {p : Sibling} {ps : List Sibling} : Above row (p :: ps) 0 ↔ p.kind = .comment ∧ p.endRow + 1 = row := by
  constructor
  · intro h
    obtain ⟨q, h1, h2⟩ := h.comment
    obtain ⟨q', r, h3, h4, h5⟩ := h.adjacent 0 (Nat.le_refl _)
    simp at h1 h3; subst h1; subst h3
    simp [rowBelow] at h4; subst h4
    exact ⟨h2, h5⟩
  · rintro ⟨h1, h2⟩
    refine ⟨⟨p, rfl, h1⟩, fun j hj => ?_, (fun j q h => by omega), (fun j q h => by omega), (fun j k q q' h => by omega)⟩
    have : j = 0 := by omega
    subst this
    exact ⟨p, row, rfl, rfl, h2⟩

theorem rowBelow_succ {row : Nat} {p : Sibling} {ps : List Sibling} (j : Nat) : rowBelow row (p :: ps) (j + 1) = rowBelow p.startRow ps j := by
  cases j with
  | zero => rfl
  | succ j => simp [rowBelow]

/-- Being above the declaration with one more sibling in front. -/
theorem above_succ {row : Nat} {p : Sibling} {ps : List Sibling} {i : Nat} :
    Above row (p :: ps) (i + 1) ↔ p.endRow + 1 = row ∧ p.kind ≠ .other ∧ (p.kind = .comment → p.startRow = p.endRow) ∧ Above p.startRow ps i ∧
      (p.kind = .pragma → ∀ j q, j < i → ps[j]? = some q → q.kind ≠ .pragma) := by
  constructor
  · intro h
    refine ⟨?_, h.noOther 0 p (by omega) rfl, h.oneRow 0 p (by omega) rfl, ⟨?_, ?_, ?_, ?_, ?_⟩, ?_⟩
    · obtain ⟨q', r, h3, h4, h5⟩ := h.adjacent 0 (by omega)
      simp at h3; subst h3
      simp [rowBelow] at h4; subst h4
      exact h5
    · simpa using h.comment
    · intro j hj
      obtain ⟨q, r, h1, h2, h3⟩ := h.adjacent (j + 1) (by omega)
      exact ⟨q, r, by simpa using h1, by rw [← rowBelow_succ (row := row) (p := p)]; exact h2, h3⟩
    · intro j q hj hq
      exact h.noOther (j + 1) q (by omega) (by simpa using hq)
    · intro j q hj hq
      exact h.oneRow (j + 1) q (by omega) (by simpa using hq)
    · intro j k q q' hj hk hq hq' a b
      have := h.onePragma (j + 1) (k + 1) q q' (by omega) (by omega) (by simpa using hq) (by simpa using hq') a b
      omega
    · intro hp j q hj hq hk
      have := h.onePragma 0 (j + 1) p q (by omega) (by omega) rfl (by simpa using hq) hp hk
      omega
  · rintro ⟨h1, h2, h3, h4, h5⟩
    refine ⟨by simpa using h4.comment, ?_, ?_, ?_, ?_⟩
    · intro j hj
      cases j with
      | zero => exact ⟨p, row, rfl, rfl, h1⟩
      | succ j =>
        obtain ⟨q, r, a, b, c⟩ := h4.adjacent j (by omega)
        exact ⟨q, r, by simpa using a, by rw [rowBelow_succ]; exact b, c⟩
    · intro j q hj hq
      cases j with
      | zero => simp at hq; subst hq; exact h2
      | succ j => exact h4.noOther j q (by omega) (by simpa using hq)
    · intro j q hj hq
      cases j with
      | zero => simp at hq; subst hq; exact h3
      | succ j => exact h4.oneRow j q (by omega) (by simpa using hq)
    · intro j k q q' hj hk hq hq' a b
      cases j with
      | zero =>
        cases k with
        | zero => rfl
        | succ k =>
          simp at hq; subst hq
          exact absurd b (h5 a k q' (by omega) (by simpa using hq'))
      | succ j =>
        cases k with
        | zero =>
          simp at hq'; subst hq'
          exact absurd a (h5 b j q (by omega) (by simpa using hq))
        | succ k =>
          have := h4.onePragma j k q q' (by omega) (by omega) (by simpa using hq) (by simpa using hq') a b
          omega

/-- No pragma before sibling `i`, if one was met already. -/
def Free (pragma : Bool) (prev : List Sibling) (i : Nat) : Prop := pragma = true → ∀ j q, j < i → prev[j]? = some q → q.kind ≠ .pragma

/-- The text shown for sibling `i`. -/
def textAt (prev : List Sibling) (i : Nat) : Str := ((prev[i]?).map fun p => commentToDoc p.text).getD []

theorem collect_above : ∀ (prev : List Sibling) (row : Nat) (pragma : Bool), ∃ shown : List Nat, shown.Pairwise (· < ·) ∧
    (∀ i, i ∈ shown ↔ Above row prev i ∧ Free pragma prev i) ∧ collect row pragma prev = shown.map (textAt prev)
  | [], row, pragma => ⟨[], .nil, fun i => ⟨fun h => by simp at h, fun h => by obtain ⟨p, h1, -⟩ := h.1.comment; simp at h1⟩, rfl⟩
  | p :: ps, row, pragma => by
    have lift : ∀ {shown : List Nat}, shown.Pairwise (· < ·) → (shown.map (· + 1)).Pairwise (· < ·) := fun h => by
      rw [List.pairwise_map]; exact h.imp (by intro a b h; omega)
    have texts : ∀ shown : List Nat, (shown.map (· + 1)).map (textAt (p :: ps)) = shown.map (textAt ps) := fun shown => by
      rw [List.map_map]
      exact List.map_congr_left fun i _ => by simp [textAt]
    -- nothing is shown if the nearest sibling is not directly above
    have none_of : (∀ i, Above row (p :: ps) i ∧ Free pragma (p :: ps) i → False) → collect row pragma (p :: ps) = [] →
        ∃ shown : List Nat, shown.Pairwise (· < ·) ∧ (∀ i, i ∈ shown ↔ Above row (p :: ps) i ∧ Free pragma (p :: ps) i) ∧
          collect row pragma (p :: ps) = shown.map (textAt (p :: ps)) := fun h1 h2 =>
      ⟨[], .nil, fun i => ⟨fun h => by simp at h, fun h => (h1 i h).elim⟩, h2⟩
    by_cases hrow : row - p.endRow = 1
    rotate_left
    · refine none_of (fun i h => ?_) (by rw [collect, if_pos hrow])
      cases i with
      | zero => have := above_zero.1 h.1; omega
      | succ i => have := (above_succ.1 h.1).1; omega
    have hr : p.endRow + 1 = row := by omega
    cases hk : p.kind with
    | other =>
      refine none_of (fun i h => ?_) (by rw [collect, if_neg (by omega), hk]; simp)
      cases i with
      | zero => have := (above_zero.1 h.1).1; rw [hk] at this; cases this
      | succ i => exact (above_succ.1 h.1).2.1 hk
    | pragma =>
      cases pragma with
      | true =>
        refine none_of (fun i h => ?_) (by rw [collect, if_neg (by omega), hk]; simp)
        cases i with
        | zero => have := (above_zero.1 h.1).1; rw [hk] at this; cases this
        | succ i => exact h.2 rfl 0 p (by omega) rfl hk
      | false =>
        obtain ⟨shown, h1, h2, h3⟩ := collect_above ps p.startRow true
        refine ⟨shown.map (· + 1), lift h1, fun i => ?_, ?_⟩
        · cases i with
          | zero =>
            constructor
            · intro h; simp at h
            · intro h; have := (above_zero.1 h.1).1; rw [hk] at this; cases this
          | succ i =>
            rw [List.mem_map]
            constructor
            · rintro ⟨j, hj, e⟩
              have : j = i := by omega
              subst this
              obtain ⟨a, b⟩ := (h2 j).1 hj
              exact ⟨above_succ.2 ⟨hr, by rw [hk]; simp, by rw [hk]; simp, a, fun _ => b rfl⟩, (fun h => nomatch h)⟩
            · intro h
              obtain ⟨-, -, -, a, b⟩ := above_succ.1 h.1
              exact ⟨i, (h2 i).2 ⟨a, fun _ => b hk⟩, rfl⟩
        · rw [collect, if_neg (by omega), hk, if_pos rfl, texts, ← h3]; simp
    | comment =>
      have free : ∀ i, Free pragma (p :: ps) (i + 1) ↔ Free pragma ps i := fun i => by
        constructor
        · intro h hp j q hj hq
          exact h hp (j + 1) q (by omega) (by simpa using hq)
        · intro h hp j q hj hq
          cases j with
          | zero => simp at hq; subst hq; rw [hk]; simp
          | succ j => exact h hp j q (by omega) (by simpa using hq)
      have free0 : Free pragma (p :: ps) 0 := fun _ j q hj => by omega
      by_cases hone : p.startRow = p.endRow
      · obtain ⟨shown, h1, h2, h3⟩ := collect_above ps p.startRow pragma
        refine ⟨0 :: shown.map (· + 1), List.pairwise_cons.2 ⟨by simp, lift h1⟩, fun i => ?_, ?_⟩
        · cases i with
          | zero => simp [above_zero, hk, hr, free0]
          | succ i =>
            rw [free, above_succ]
            constructor
            · intro h
              simp at h
              obtain ⟨a, b⟩ := (h2 i).1 h
              exact ⟨⟨hr, by rw [hk]; simp, fun _ => hone, a, by rw [hk]; simp⟩, b⟩
            · rintro ⟨⟨-, -, -, a, -⟩, b⟩
              have := (h2 i).2 ⟨a, b⟩
              simp [this]
        · rw [collect, if_neg (by omega), hk]
          simp only [reduceCtorEq, if_false, ne_eq, not_true, hone]
          rw [List.map_cons, texts, ← h3]
          simp [textAt, hone]
      · refine ⟨[0], by simp, fun i => ?_, ?_⟩
        · cases i with
          | zero => simp [above_zero, hk, hr, free0]
          | succ i =>
            constructor
            · intro h; simp at h
            · intro h; exact absurd ((above_succ.1 h.1).2.2.1 hk) hone
        · rw [collect, if_neg (by omega), hk]
          simp [hone, textAt]

/-- **C79, which comments**: for a declaration of the documented kinds, exactly the comments of the block directly above it are shown, in the order of the source. -/
theorem docs_above {kind : String} (hk : kind ∈ documented) (row : Nat) (prev : List Sibling) : ∃ shown : List Nat, shown.Pairwise (· < ·) ∧
    (∀ i, i ∈ shown ↔ Above row prev i) ∧ docs kind row prev = (shown.map (textAt prev)).reverse := by
  obtain ⟨shown, h1, h2, h3⟩ := collect_above prev row false
  refine ⟨shown, h1, fun i => ?_, by rw [docs, if_pos hk, h3]⟩
  rw [h2 i]
  exact ⟨fun h => h.1, fun h => ⟨h, (fun h => nomatch h)⟩⟩

/-- **C79**: where comments are alone on their lines, each comment shown stands above the declaration on lines of its own. -/
theorem docs_own_partial {kind : String} (hk : kind ∈ documented) (row : Nat) (prev : List Sibling)
    (hown : ∀ i p, prev[i]? = some p → p.kind = .comment → OwnLine prev i) : ∃ shown : List Nat, shown.Pairwise (· < ·) ∧
    (∀ i, i ∈ shown ↔ Above row prev i ∧ OwnLine prev i) ∧ docs kind row prev = (shown.map (textAt prev)).reverse := by
  obtain ⟨shown, h1, h2, h3⟩ := docs_above hk row prev
  refine ⟨shown, h1, fun i => ?_, h3⟩
  rw [h2 i]
  constructor
  · intro h
    obtain ⟨p, hp, hc⟩ := h.comment
    exact ⟨h, hown i p hp hc⟩
  · exact fun h => h.1

/-- `// A`, `// B`, `#pragma deprecated`, and a function in row 4; something else in row 0. -/
def sample : List Sibling := [⟨.pragma, 3, 3, []⟩, ⟨.comment, 2, 2, "// B".toList⟩, ⟨.comment, 1, 1, "// A".toList⟩, ⟨.other, 0, 0, []⟩]

example : docs "function_definition" 4 sample = ["A".toList, "B".toList] ∧ (∀ i p, sample[i]? = some p → p.kind = .comment → OwnLine sample i) := by
  refine ⟨by decide, fun i p hp hc p' q hp' hq ho => ?_⟩
  match i with
  | 0 => cases hp; cases hc
  | 1 => cases hq; cases ho
  | 2 => cases hp'; cases hq; decide
  | 3 => cases hp; cases hc
  | i + 4 => simp [sample] at hp

/-- **C79 is violated**: in `int a; // about a⏎void b() {}` the comment about `a` is shown as the documentation of `b`. -/
theorem trailing_refuted : ∃ prev, ¬ OwnLine prev 0 ∧ docs "function_definition" 1 prev = ["about a".toList] := by
  refine ⟨[⟨.comment, 0, 0, "// about a".toList⟩, ⟨.other, 0, 0, "int a;".toList⟩], fun h => ?_, by decide⟩
  exact absurd (h _ _ rfl rfl rfl) (by decide)

/-- **C79 is violated** for variables: a comment above a global variable is never shown. -/
theorem variable_refuted (row : Nat) (prev : List Sibling) : docs "global_variable_declaration" row prev = [] ∧ docs "variable_declaration" row prev = [] := by
  constructor <;> rw [docs, if_neg (by decide)]

end Verif.Props.Docs
