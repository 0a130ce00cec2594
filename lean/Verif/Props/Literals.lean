import Verif.Hir.Lower
import Mathlib.Tactic.IntervalCases
import Mathlib.Data.List.Induction

/-!
# Which literals are read (C71)

The theorems on bodies (`Verif.Props.Body`) are about trees whose number literals are read by `str::parse`. Here is said which those are.
-/

namespace Verif.Props.Literals

open Verif.Hir.Lower

/-- A digit in base ten, and what it stands for. -/
inductive Digit : Char → Nat → Prop
  | d0 : Digit '0' 0 | d1 : Digit '1' 1 | d2 : Digit '2' 2 | d3 : Digit '3' 3 | d4 : Digit '4' 4
  | d5 : Digit '5' 5 | d6 : Digit '6' 6 | d7 : Digit '7' 7 | d8 : Digit '8' 8 | d9 : Digit '9' 9

/-- `t` is the number `n` written in base ten, zeros in front allowed. -/
inductive Decimal : List Char → Nat → Prop
  | one {c v} : Digit c v → Decimal [c] v
  | more {t n c v} : Decimal t n → Digit c v → Decimal (t ++ [c]) (10 * n + v)

/-- Nothing, or digits. -/
def Figures (t : List Char) : Prop := t = [] ∨ ∃ n, Decimal t n

/-- Nothing, or `e`, perhaps a sign, and a number. -/
def Exponent (t : List Char) : Prop :=
  t = [] ∨ ∃ e sign u n, (e = 'e' ∨ e = 'E') ∧ (sign = [] ∨ sign = ['+'] ∨ sign = ['-']) ∧ Decimal u n ∧ t = e :: (sign ++ u)

/-- Digits before and after a point, of which one side or the point and what is after it can be left out, and an exponent. -/
def Floating (t : List Char) : Prop :=
  ∃ w f x, Figures w ∧ Figures f ∧ (w ≠ [] ∨ f ≠ []) ∧ Exponent x ∧ (t = w ++ '.' :: f ++ x ∨ f = [] ∧ t = w ++ x)

theorem digit_iff (c : Char) : isDigit c = true ↔ ∃ v, Digit c v := by
  constructor
  · intro h
    simp only [isDigit, Bool.and_eq_true, decide_eq_true_eq] at h
    obtain ⟨h1, h2⟩ := h
    have a1 : 48 ≤ c.toNat := h1
    have a2 : c.toNat ≤ 57 := h2
    have e : c = Char.ofNat c.toNat := by simp
    generalize c.toNat = k at *
    subst e
    interval_cases k
    exacts [⟨0, .d0⟩, ⟨1, .d1⟩, ⟨2, .d2⟩, ⟨3, .d3⟩, ⟨4, .d4⟩, ⟨5, .d5⟩, ⟨6, .d6⟩, ⟨7, .d7⟩, ⟨8, .d8⟩, ⟨9, .d9⟩]
  · rintro ⟨v, h⟩
    cases h <;> decide

theorem digit_value {c : Char} {v : Nat} (h : Digit c v) : c.toNat - '0'.toNat = v := by
  cases h <;> decide

theorem digits_snoc (t : List Char) (c : Char) : digits (t ++ [c]) = digits t * 10 + (c.toNat - '0'.toNat) := by
  simp [digits]

theorem decimal_iff (t : List Char) (n : Nat) : Decimal t n ↔ t ≠ [] ∧ t.all isDigit = true ∧ digits t = n := by
  constructor
  · intro h
    induction h with
    | one h => exact ⟨by simp, by simpa using (digit_iff _).2 ⟨_, h⟩, by simpa [digits] using digit_value h⟩
    | more h1 h2 ih =>
      obtain ⟨i1, i2, i3⟩ := ih
      refine ⟨by simp, ?_, ?_⟩
      · rw [List.all_append, i2]
        simpa using (digit_iff _).2 ⟨_, h2⟩
      · rw [digits_snoc, i3, digit_value h2]; omega
  · induction t using List.reverseRecOn generalizing n with
    | nil => intro h; exact absurd rfl h.1
    | append_singleton t c ih =>
      rintro ⟨-, h2, h3⟩
      rw [List.all_append, Bool.and_eq_true] at h2
      obtain ⟨v, hv⟩ := (digit_iff c).1 (by simpa using h2.2)
      rw [digits_snoc, digit_value hv] at h3
      by_cases ht : t = []
      · subst ht
        have : v = n := by simpa [digits] using h3
        subst this
        exact .one hv
      · have := Decimal.more (ih (digits t) ⟨ht, h2.1, rfl⟩) hv
        rwa [show 10 * digits t + v = n by omega] at this

theorem figures_iff (t : List Char) : Figures t ↔ t.all isDigit = true := by
  constructor
  · rintro (h | ⟨n, h⟩)
    · subst h; rfl
    · exact ((decimal_iff _ _).1 h).2.1
  · intro h
    by_cases ht : t = []
    · exact .inl ht
    · exact .inr ⟨_, (decimal_iff _ _).2 ⟨ht, h, rfl⟩⟩

/-- C71: an integer literal is read just when it is a number in base ten below 2⁶³. -/
theorem int_read (t : List Char) : literalType .int t = some .int ↔ ∃ n, Decimal t n ∧ n < 2 ^ 63 := by
  have hb : literalType .int t = some .int ↔ parsesInt t = true := by
    simp only [literalType]
    split <;> simp_all
  rw [hb]
  simp only [parsesInt, Bool.and_eq_true, Bool.not_eq_true', decide_eq_true_eq, List.isEmpty_eq_false_iff]
  constructor
  · rintro ⟨⟨h1, h2⟩, h3⟩
    exact ⟨_, (decimal_iff _ _).2 ⟨h1, h2, rfl⟩, h3⟩
  · rintro ⟨n, h1, h2⟩
    obtain ⟨i1, i2, i3⟩ := (decimal_iff _ _).1 h1
    exact ⟨⟨i1, i2⟩, by omega⟩

theorem exp_iff (t : List Char) : parsesExp t = true ↔ Exponent t := by
  have key : ∀ u : List Char, (!u.isEmpty && u.all isDigit) = true ↔ ∃ n, Decimal u n := by
    intro u
    simp only [Bool.and_eq_true, Bool.not_eq_true', List.isEmpty_eq_false_iff]
    exact ⟨fun h => ⟨_, (decimal_iff _ _).2 ⟨h.1, h.2, rfl⟩⟩, fun ⟨n, h⟩ => ⟨((decimal_iff _ _).1 h).1, ((decimal_iff _ _).1 h).2.1⟩⟩
  constructor
  · intro h
    cases t with
    | nil => exact .inl rfl
    | cons c t =>
      simp only [parsesExp, Bool.and_eq_true, Bool.or_eq_true, beq_iff_eq] at h
      obtain ⟨hc, h⟩ := h
      split at h
      · next u => obtain ⟨n, hn⟩ := (key u).1 (by simpa using h); exact .inr ⟨c, ['+'], u, n, hc, by simp, hn, rfl⟩
      · next u => obtain ⟨n, hn⟩ := (key u).1 (by simpa using h); exact .inr ⟨c, ['-'], u, n, hc, by simp, hn, rfl⟩
      · next u _ _ => obtain ⟨n, hn⟩ := (key t).1 (by simpa using h); exact .inr ⟨c, [], t, n, hc, by simp, hn, rfl⟩
  · rintro (h | ⟨e, sign, u, n, he, hs, hu, rfl⟩)
    · subst h; rfl
    · have hk := (key u).2 ⟨n, hu⟩
      simp only [parsesExp, Bool.and_eq_true, Bool.or_eq_true, beq_iff_eq]
      refine ⟨he, ?_⟩
      rcases hs with rfl | rfl | rfl
      · cases u with
        | nil => simp at hk
        | cons c u =>
          have hd : isDigit c = true := by simp at hk; exact hk.1
          have h1 : c ≠ '+' := by rintro rfl; revert hd; decide
          have h2 : c ≠ '-' := by rintro rfl; revert hd; decide
          split
          · next h => injection h with h _; exact absurd h h1
          · next h => injection h with h _; exact absurd h h2
          · simpa using hk
      · simpa using hk
      · simpa using hk

theorem take_all (w r : List Char) (hw : w.all isDigit = true) (hr : ∀ c ∈ r.head?, isDigit c = false) :
    (w ++ r).takeWhile isDigit = w ∧ (w ++ r).dropWhile isDigit = r := by
  induction w with
  | nil =>
    cases r with
    | nil => simp
    | cons c r => simp [hr c (by simp)]
  | cons c w ih =>
    simp only [List.all_cons, Bool.and_eq_true] at hw
    simp [hw.1, ih hw.2]

theorem exp_head {x : List Char} (h : Exponent x) : ∀ c ∈ x.head?, isDigit c = false ∧ c ≠ '.' := by
  rcases h with rfl | ⟨e, s, u, n, he, -, -, rfl⟩
  · simp
  · intro c hc
    simp at hc
    subst hc
    rcases he with rfl | rfl <;> decide

theorem takeWhile_all' (t : List Char) : (t.takeWhile isDigit).all isDigit = true := by
  induction t with
  | nil => rfl
  | cons c t ih =>
    by_cases h : isDigit c = true
    · simp [h, ih] at ih ⊢
    · simp [h]

/-- C71: a floating-point literal is read just when it is written with digits, at most one point and an exponent. -/
theorem float_read (t : List Char) : literalType .float t = some .float ↔ Floating t := by
  have hb : literalType .float t = some .float ↔ parsesFloat t = true := by
    simp only [literalType]
    split <;> simp_all
  rw [hb]
  constructor
  · intro h
    simp only [parsesFloat, Bool.and_eq_true, Bool.not_eq_true', Bool.and_eq_false_iff, List.isEmpty_eq_false_iff] at h
    obtain ⟨h1, h2⟩ := h
    have e := List.takeWhile_append_dropWhile (p := isDigit) (l := t)
    have hw := (figures_iff _).2 (takeWhile_all' t)
    generalize t.takeWhile isDigit = w at *
    generalize t.dropWhile isDigit = r at *
    split at h1
    · next u =>
      simp only at h2
      refine ⟨w, u.takeWhile isDigit, u.dropWhile isDigit, hw, (figures_iff _).2 (takeWhile_all' u), h1, (exp_iff _).1 h2, .inl ?_⟩
      rw [← e, List.append_assoc, List.cons_append, List.takeWhile_append_dropWhile]
    · next hr =>
      have h2' : parsesExp r = true := by
        revert h2
        split
        · next u => exact absurd rfl (hr u)
        · exact id
      exact ⟨w, [], r, hw, .inl rfl, h1, (exp_iff _).1 h2', .inr ⟨rfl, e.symm⟩⟩
  · rintro ⟨w, f, x, hw, hf, hne, hx, ht⟩
    have hw' := (figures_iff _).1 hw
    have hf' := (figures_iff _).1 hf
    simp only [parsesFloat, Bool.and_eq_true, Bool.not_eq_true', Bool.and_eq_false_iff, List.isEmpty_eq_false_iff]
    rcases ht with rfl | ⟨rfl, rfl⟩
    · obtain ⟨a1, a2⟩ := take_all w ('.' :: (f ++ x)) hw' (by simp; decide)
      obtain ⟨b1, b2⟩ := take_all f x hf' (fun c hc => (exp_head hx c hc).1)
      rw [List.append_assoc, List.cons_append, a1, a2]
      simp only [b1, b2]
      exact ⟨hne, (exp_iff _).2 hx⟩
    · obtain ⟨a1, a2⟩ := take_all w x hw' (fun c hc => (exp_head hx c hc).1)
      rw [a1, a2]
      split
      · next u => exact absurd rfl ((exp_head hx '.' (by simp)).2)
      · exact ⟨hne, (exp_iff _).2 hx⟩

/-- The text of a boolean literal. -/
theorem bool_read (t : List Char) : literalType .bool t = some .bool ↔ t = "true".toList ∨ t = "false".toList := by
  simp only [literalType]
  split
  · next h => simpa using h
  · next h => simp at h; simpa using h

example : Floating "1.5e-3".toList :=
  ⟨['1'], ['5'], "e-3".toList, .inr ⟨1, .one .d1⟩, .inr ⟨5, .one .d5⟩, .inl (by simp), .inr ⟨'e', ['-'], ['3'], 3, .inl rfl, by simp, .one .d3, rfl⟩, .inl rfl⟩

example : literalType .float ".".toList = none := by decide
example : literalType .int "0x10".toList = none := by decide
example : ∃ n, Decimal "042".toList n ∧ n < 2 ^ 63 := ⟨42, .more (.more (.one .d0) .d4) .d2, by decide⟩

end Verif.Props.Literals
