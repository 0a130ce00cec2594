import Verif.Text.LineEndings
/-!
# C03: line-ending normalisation
-/

namespace Verif.Props.LineEndings
open Verif.Text.LineEndings

/-- Specification: every CR LF pair becomes LF, everything else stays. -/
def crlfToLf : Bytes → Bytes
  | [] => []
  | [c] => [c]
  | a :: b :: r => if a = 13 ∧ b = 10 then 10 :: crlfToLf r else a :: crlfToLf (b :: r)

/-- Specification: the text contains a CR LF pair. -/
def HasCrlf (t : Bytes) : Prop := ∃ a b, t = a ++ [13, 10] ++ b

theorem findCrlf_none {l : Bytes} (h : findCrlf l = none) : crlfToLf l = l ∧ ¬ HasCrlf l := by
  induction l with
  | nil => exact ⟨rfl, by rintro ⟨a, b, hab⟩; simp at hab⟩
  | cons a l ih =>
    cases l with
    | nil =>
      refine ⟨rfl, ?_⟩
      rintro ⟨x, y, hxy⟩
      have := congrArg List.length hxy
      simp at this; omega
    | cons b r =>
      simp only [findCrlf] at h
      split at h
      · simp at h
      · next hab =>
        simp only [Option.map_eq_none_iff] at h
        obtain ⟨h1, h2⟩ := ih h
        refine ⟨by simp [crlfToLf, hab, h1], ?_⟩
        rintro ⟨x, y, hxy⟩
        cases x with
        | nil => simp at hxy; exact hab ⟨hxy.1, hxy.2.1⟩
        | cons z zs => simp at hxy; exact h2 ⟨zs, y, by simp [hxy.2]⟩

theorem crlfToLf_lf (r : Bytes) : crlfToLf (10 :: r) = 10 :: crlfToLf r := by
  cases r with
  | nil => rfl
  | cons b r => simp [crlfToLf]

theorem findCrlf_some {l : Bytes} {i : Nat} (h : findCrlf l = some i) :
    crlfToLf l = l.take i ++ crlfToLf (l.drop (i + 1)) ∧ HasCrlf l := by
  induction l generalizing i with
  | nil => simp [findCrlf] at h
  | cons a l ih =>
    cases l with
    | nil => simp [findCrlf] at h
    | cons b r =>
      simp only [findCrlf] at h
      split at h
      · next hab =>
        simp at h; subst h
        obtain ⟨rfl, rfl⟩ := hab
        refine ⟨?_, [], r, rfl⟩
        simp [crlfToLf, crlfToLf_lf]
      · next hab =>
        simp only [Option.map_eq_some_iff] at h
        obtain ⟨j, hj, rfl⟩ := h
        obtain ⟨h1, x, y, h2⟩ := ih hj
        refine ⟨?_, a :: x, y, by simp [h2]⟩
        simp only [crlfToLf, hab, if_false, h1]
        simp

theorem loop_seen' (front tail : Bytes) (gap : Nat) (seen : Bool) (hs : seen = true) (hg : gap ≤ tail.length) :
    ∃ buf g, loop front tail gap seen = .done buf g ∧
      buf.take (buf.length - g) = front ++ crlfToLf (tail.drop gap) := by
  fun_induction loop front tail gap seen with
  | case1 front tail gap seen h => omega
  | case2 front tail gap h hf idx front' tail' hl =>
    refine ⟨_, _, rfl, ?_⟩
    have : (front' ++ tail').length - gap = front'.length := by
      simp only [List.length_append, hl]; omega
    rw [this]
    simp only [List.take_left']
    simp only [front', idx, (findCrlf_none hf).1]
    congr 1
    rw [List.take_of_length_le]; simp
  | case3 front tail gap h hf idx front' tail' hl ih =>
    simp [tail', idx] at hl; omega
  | case4 => simp_all
  | case5 front tail gap seen h i hf idx front' tail' hl =>
    have := findCrlf_le hf
    simp [tail', idx] at hl this; omega
  | case6 front tail gap seen h i hf idx front' tail' hl ih =>
    have hle := findCrlf_le hf
    simp only [List.length_drop] at hle
    obtain ⟨buf, g, h1, h2⟩ := ih rfl (by simp [tail', idx]; omega)
    refine ⟨buf, g, h1, ?_⟩
    rw [h2, (findCrlf_some hf).1]
    simp only [front', tail', idx, Nat.add_sub_cancel, List.append_assoc, List.drop_drop]
    rw [show i + (gap + 1) = gap + (i + 1) by omega]

theorem loop_seen (front tail : Bytes) (gap : Nat) (hg : gap ≤ tail.length) :
    ∃ buf g, loop front tail gap true = .done buf g ∧
      buf.take (buf.length - g) = front ++ crlfToLf (tail.drop gap) :=
  loop_seen' front tail gap true rfl hg

/-- **C03.** For every text, normalisation does not panic, returns the text with each CR LF pair replaced by LF and
nothing else changed, and reports DOS endings exactly if there was such a pair. -/
theorem normalize_correct (src : Bytes) :
    ∃ out e, normalize src = some (out, e) ∧ out = crlfToLf src ∧ (e = .dos ↔ HasCrlf src) := by
  cases hf : findCrlf src with
  | none =>
    have hl : loop [] src 0 false = .unixReturn src := by
      rw [loop]; simp only [Nat.not_lt_zero, dite_false]
      split
      · simp
      · next h => simp [hf] at h
    refine ⟨src, .unix, by simp [normalize, hl], (findCrlf_none hf).1.symm, ?_⟩
    simp [(findCrlf_none hf).2]
  | some i =>
    have hle := findCrlf_le hf
    have hl : loop [] src 0 false = loop (src.take i) (src.drop i) 1 true := by
      rw [loop]; simp only [Nat.not_lt_zero, dite_false]
      split
      · next h => simp [hf] at h
      · next j h =>
        simp only [List.drop_zero, hf, Option.some.injEq] at h
        subst h
        simp only [Nat.add_zero, Nat.sub_zero, List.nil_append, List.drop_zero]
        rw [if_neg]
        simp; omega
    obtain ⟨b, g, h1, h2⟩ := loop_seen (src.take i) (src.drop i) 1 (by simp; omega)
    refine ⟨b.take (b.length - g), .dos, by simp [normalize, hl, h1], ?_, ?_⟩
    · rw [h2, (findCrlf_some hf).1, List.drop_drop]
    · simp [(findCrlf_some hf).2]

/-- The result contains no CR LF pair that was not made from CR CR LF; in particular texts without CR CR LF become
free of pairs. -/
theorem normalize_removes_pairs (src : Bytes) (h : ¬ ∃ a b, src = a ++ [13, 13, 10] ++ b) :
    ¬ HasCrlf (crlfToLf src) := by
  have key : ∀ n (l : Bytes), l.length ≤ n → (¬ ∃ a b, l = a ++ [13, 13, 10] ++ b) → ¬ HasCrlf (crlfToLf l) := by
    intro n
    induction n with
    | zero =>
      intro l hl _ ⟨x, y, hxy⟩
      have : l = [] := by cases l <;> simp_all
      subst this
      simp [crlfToLf] at hxy
    | succ n ih =>
      intro l hl hno
      match l with
      | [] => rintro ⟨x, y, hxy⟩; simp [crlfToLf] at hxy
      | [c] =>
        rintro ⟨x, y, hxy⟩
        have := congrArg List.length hxy
        simp [crlfToLf] at this; omega
      | a :: b :: r =>
        simp only [crlfToLf]
        split
        · next hab =>
          have := ih r (by simp at hl; omega) (by
            rintro ⟨x, y, hxy⟩; exact hno ⟨a :: b :: x, y, by simp [hxy]⟩)
          rintro ⟨x, y, hxy⟩
          cases x with
          | nil => simp at hxy
          | cons z zs => simp at hxy; exact this ⟨zs, y, by simp [hxy.2]⟩
        · next hab =>
          have := ih (b :: r) (by simp at hl ⊢; omega) (by
            rintro ⟨x, y, hxy⟩; exact hno ⟨a :: x, y, by simp [hxy]⟩)
          rintro ⟨x, y, hxy⟩
          cases x with
          | cons z zs => simp at hxy; exact this ⟨zs, y, by simp [hxy.2]⟩
          | nil =>
            simp at hxy
            obtain ⟨rfl, hxy⟩ := hxy
            -- `crlfToLf (b :: r)` starts with LF: `b` is LF or `b :: r` starts with CR LF
            match r, hxy with
            | [], hxy => simp [crlfToLf] at hxy; exact hab ⟨rfl, hxy.1⟩
            | c :: r, hxy =>
              simp only [crlfToLf] at hxy
              split at hxy
              · next hbc =>
                obtain ⟨rfl, rfl⟩ := hbc
                exact hno ⟨[], r, by simp⟩
              · simp at hxy; exact hab ⟨rfl, hxy.1⟩
  exact key src.length src (Nat.le_refl _) h

/-- Normalisation is not idempotent: `\r\r\n` becomes `\r\n`, which a second pass changes again. -/
theorem normalize_not_idempotent :
    ∃ src out e out', normalize src = some (out, e) ∧ normalize out = some out' ∧ out'.1 ≠ out :=
  ⟨[13, 13, 10], [13, 10], .dos, ([10], .dos), by
    obtain ⟨o, e, h, h1, h2⟩ := normalize_correct [13, 13, 10]
    have : e = .dos := h2.2 ⟨[13], [], rfl⟩
    rw [h, h1, this]; decide, by
    obtain ⟨o, e, h, h1, h2⟩ := normalize_correct [13, 10]
    have : e = .dos := h2.2 ⟨[], [], rfl⟩
    rw [h, h1, this]; decide, by decide⟩

/-- A text with two pairs, a lone CR and a lone LF. -/
example : HasCrlf [97, 13, 10, 13, 98, 10, 13, 10] ∧
    crlfToLf [97, 13, 10, 13, 98, 10, 13, 10] = [97, 10, 13, 98, 10, 10] :=
  ⟨⟨[97], [13, 98, 10, 13, 10], rfl⟩, by decide⟩

end Verif.Props.LineEndings
