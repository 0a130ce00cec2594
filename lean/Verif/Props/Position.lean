import Verif.Pre.Position
/-!
# C29: positions outside of macro uses; C49: ranges
-/

namespace Verif.Props.Position
open Verif.Pre Verif.Pre.Spec

theorem userLen_append (a b : List Seg) : userLen (a ++ b) = userLen a + userLen b := by simp [userLen]
theorem serverLen_append (a b : List Seg) : serverLen (a ++ b) = serverLen a + serverLen b := by simp [serverLen]

/-- Offsets of uses before the position add up to the difference, later ones do not count. -/
theorem shift_sum {line : Nat} : ∀ (l : List Seg) (c : Nat) (os : List Offset) (pre : List Seg) (n : Nat) (post : List Seg) (k p : Nat),
    Describes line c l os → Named l → l = pre ++ .text n :: post → k ≤ n → p = c + userLen pre + k →
    ((os.filter (fun o => o.range.e.char ≤ p)).map Offset.shift).sum = Int.ofNat (serverLen pre) - Int.ofNat (userLen pre) := by
  intro l
  induction l with
  | nil => intro c os pre n post k p _ _ h; simp at h
  | cons s l ih =>
    intro c os pre n post k p hd hn hl hk hp
    have hn' : Named l := fun a b o h => hn a b o (by simp [h])
    -- beyond the position nothing counts
    have later : ∀ (l : List Seg) (c p : Nat) (os : List Offset), Describes line c l os → Named l → p ≤ c →
        os.filter (fun o => decide (o.range.e.char ≤ p)) = [] := by
      intro l
      induction l with
      | nil => intro c p os h _ _; simp only [Describes] at h; simp [h]
      | cons s l ih =>
        intro c p os h hn hp
        have hn' : Named l := fun a b o h => hn a b o (by simp [h])
        cases s with
        | text n => exact ih (c + n) p os h hn' (by omega)
        | use n a o =>
          obtain ⟨x, os', rfl, hx, -, -, h⟩ := h
          have := hn n a o (by simp)
          rw [List.filter_cons_of_neg]
          · exact ih _ p os' h hn' (by omega)
          · simp only [hx, decide_eq_true_eq]; omega
    cases pre with
    | nil =>
      simp only [List.nil_append, List.cons.injEq] at hl
      obtain ⟨rfl, rfl⟩ := hl
      simp only [userLen, serverLen, List.map_nil, List.sum_nil]
      simp only [userLen, List.map_nil, List.sum_nil] at hp
      rw [later l (c + n) p os hd hn' (by omega)]
      rfl
    | cons p' pre =>
      simp only [List.cons_append, List.cons.injEq] at hl
      obtain ⟨rfl, hl⟩ := hl
      cases s with
      | text m =>
        have hp2 : p = c + m + userLen pre + k := by
          simp only [userLen, List.map_cons, List.sum_cons, Seg.user] at hp ⊢; omega
        rw [ih (c + m) os pre n post k p hd hn' hl hk hp2]
        simp only [userLen, serverLen, List.map_cons, List.sum_cons, Seg.user, Seg.server]
        simp only [Int.ofNat_eq_natCast, Int.natCast_add]
        omega
      | use m a o =>
        obtain ⟨x, os', rfl, hx, hdiff, hargs, hd⟩ := hd
        have hp2 : p = c + m + a + userLen pre + k := by
          simp only [userLen, List.map_cons, List.sum_cons, Seg.user] at hp ⊢; omega
        rw [List.filter_cons_of_pos]
        · rw [List.map_cons, List.sum_cons, ih (c + m + a) os' pre n post k p hd hn' hl hk hp2]
          simp only [userLen, serverLen, List.map_cons, List.sum_cons, Seg.user, Seg.server, Offset.shift, hdiff, hargs]
          simp only [Int.ofNat_eq_natCast, Int.natCast_add]
          omega
        · simp only [hx, decide_eq_true_eq]
          omega

theorem addSigned_eq {a b : Nat} {d : Int} (h : d = Int.ofNat b - Int.ofNat a) (k : Nat) : addSigned (a + k) d = b + k := by
  simp only [addSigned, h, Int.ofNat_eq_natCast]
  omega

/-- **C29, to the preprocessed text**: a position in text that is not part of a macro use, and not inside of an argument, goes to
the same place in the preprocessed line. -/
theorem to_server (argsMap : List (Nat × Rng × Rng)) (offsets : List (Nat × Offset)) (line : Nat) (l : List Seg) (u s : Nat)
    (hd : Describes line 0 l (onLine offsets line)) (hn : Named l) (hp : SamePlace l u s)
    (ha : ∀ a ∈ onLine argsMap line, ¬ In ⟨line, u⟩ a.1) :
    uToS argsMap offsets ⟨line, u⟩ = (⟨line, s⟩, none) := by
  obtain ⟨pre, n, post, k, rfl, hk, rfl, rfl⟩ := hp
  have hnone : (onLine argsMap line).find? (fun a => rangeContains a.1 ⟨line, userLen pre + k⟩) = none := by
    rw [List.find?_eq_none]
    intro a h hc
    refine ha a h ?_
    simp only [rangeContains] at hc
    unfold In Pos.le
    split at hc
    · simp at hc
    · split at hc
      · simp at hc
      · split at hc
        · simp at hc
        · simp only at *; omega
  have hsum := shift_sum _ 0 _ pre n post k (userLen pre + k) hd hn rfl hk (by omega)
  simp only [uToS, hnone]
  rw [addSigned_eq hsum]

/-- Undoing one use after the other. -/
theorem back {line : Nat} : ∀ (l : List Seg) (c : Nat) (os : List Offset) (pre : List Seg) (n : Nat) (post : List Seg) (k : Nat),
    Describes line c l os → NonEmpty l → l = pre ++ .text n :: post → k ≤ n →
    backCol os (c + serverLen pre + k) = c + userLen pre + k := by
  intro l
  induction l with
  | nil => intro c os pre n post k _ _ h; simp at h
  | cons s l ih =>
    intro c os pre n post k hd hn hl hk
    have hn' : NonEmpty l := fun a b o h => hn a b o (by simp [h])
    have later : ∀ (l : List Seg) (c p : Nat) (os : List Offset), Describes line c l os → p ≤ c → backCol os p = p := by
      intro l
      induction l with
      | nil => intro c p os h _; simp only [Describes] at h; simp [h, backCol]
      | cons s l ih =>
        intro c p os h hp
        cases s with
        | text n => exact ih (c + n) p os h (by omega)
        | use n a o =>
          obtain ⟨x, os', rfl, hx, -, -, h⟩ := h
          simp only [backCol, hx]
          rw [if_neg (by omega)]
          exact ih _ p os' h (by omega)
    cases pre with
    | nil =>
      simp only [List.nil_append, List.cons.injEq] at hl
      obtain ⟨rfl, rfl⟩ := hl
      simp only [userLen, serverLen, List.map_nil, List.sum_nil]
      exact later l (c + n) _ os hd (by omega)
    | cons p pre =>
      simp only [List.cons_append, List.cons.injEq] at hl
      obtain ⟨rfl, hl⟩ := hl
      cases s with
      | text m =>
        have := ih (c + m) os pre n post k hd hn' hl hk
        simp only [userLen, serverLen, List.map_cons, List.sum_cons, Seg.user, Seg.server] at *
        rw [show c + (m + (List.map Seg.server pre).sum) + k = c + m + (List.map Seg.server pre).sum + k by omega, this]
        omega
      | use m a o =>
        have ho := hn m a o (by simp)
        obtain ⟨x, os', rfl, hx, hdiff, hargs, hd⟩ := hd
        have := ih (c + m + a) os' pre n post k hd hn' hl hk
        simp only [userLen, serverLen, List.map_cons, List.sum_cons, Seg.user, Seg.server] at *
        have hcol : addSigned (c + (o + (List.map Seg.server pre).sum) + k) (-x.shift) = c + m + a + (List.map Seg.server pre).sum + k := by
          simp only [addSigned, Offset.shift, hdiff, hargs, Int.ofNat_eq_natCast]
          omega
        simp only [backCol, hx]
        rw [if_pos (by omega), hcol, this]
        omega

/-- **C29, back**: a range in the preprocessed text whose ends are in text outside of macro uses goes to the same places in the
source. Missing: uses that expand to nothing (next theorem). -/
theorem to_user_partial (offsets : List (Nat × Offset)) (line : Nat) (l : List Seg) (u₁ s₁ u₂ s₂ : Nat)
    (hd : Describes line 0 l (onLine offsets line)) (hn : NonEmpty l) (h₁ : SamePlace l u₁ s₁) (h₂ : SamePlace l u₂ s₂) :
    sToU offsets ⟨⟨line, s₁⟩, ⟨line, s₂⟩⟩ = ⟨⟨line, u₁⟩, ⟨line, u₂⟩⟩ := by
  obtain ⟨pre, n, post, k, rfl, hk, rfl, rfl⟩ := h₁
  obtain ⟨pre', n', post', k', he, hk', rfl, rfl⟩ := h₂
  have b1 := back _ 0 _ pre n post k hd hn rfl hk
  have b2 := back _ 0 _ pre' n' post' k' hd hn he hk'
  simp only [Nat.zero_add] at b1 b2
  simp only [sToU, b1, b2]

/-- **C29, there and back**. -/
theorem round_trip_partial (argsMap : List (Nat × Rng × Rng)) (offsets : List (Nat × Offset)) (line : Nat) (l : List Seg) (u s : Nat)
    (hd : Describes line 0 l (onLine offsets line)) (hn : Named l) (hne : NonEmpty l) (hp : SamePlace l u s)
    (ha : ∀ a ∈ onLine argsMap line, ¬ In ⟨line, u⟩ a.1) :
    sToU offsets ⟨(uToS argsMap offsets ⟨line, u⟩).1, (uToS argsMap offsets ⟨line, u⟩).1⟩ = ⟨⟨line, u⟩, ⟨line, u⟩⟩ := by
  rw [to_server argsMap offsets line l u s hd hn hp ha]
  exact to_user_partial offsets line l u s u s hd hne hp hp

/-- `int FOO = BAR(1) + x;` with `FOO` expanding to 1 character and `BAR(1)` to 10: the place of `x` (column 19, then 23). -/
def sampleLine : List Seg := [.text 4, .use 3 0 1, .text 3, .use 3 3 10, .text 5]

def sampleOffsets : List (Nat × Offset) :=
  [(7, ⟨⟨⟨7, 4⟩, ⟨7, 7⟩⟩, -2, 0, 0, 0⟩), (8, ⟨⟨⟨8, 4⟩, ⟨8, 7⟩⟩, -2, 0, 0, 0⟩), (7, ⟨⟨⟨7, 10⟩, ⟨7, 13⟩⟩, 7, 3, 1, 0⟩)]

example : Describes 7 0 sampleLine (onLine sampleOffsets 7) ∧ Named sampleLine ∧ NonEmpty sampleLine ∧ SamePlace sampleLine 19 21 := by
  refine ⟨⟨_, _, rfl, rfl, rfl, rfl, _, _, rfl, rfl, rfl, rfl, rfl⟩, ?_, ?_, ⟨[.text 4, .use 3 0 1, .text 3, .use 3 3 10], 5, [], 3, rfl, by omega, rfl, rfl⟩⟩
  · intro n a o h; simp [sampleLine] at h; omega
  · intro n a o h; simp [sampleLine] at h; omega

example : sToU sampleOffsets ⟨(uToS [] sampleOffsets ⟨7, 19⟩).1, (uToS [] sampleOffsets ⟨7, 19⟩).1⟩ = ⟨⟨7, 19⟩, ⟨7, 19⟩⟩ := by decide

/-- **C29 is violated**: after a macro with an empty body the way back ends before the macro. Line `FOO;`, position 3. -/
theorem round_trip_empty_refuted : ∃ (offsets : List (Nat × Offset)) (l : List Seg), Describes 0 0 l (onLine offsets 0) ∧ Named l ∧ SamePlace l 3 0 ∧
    sToU offsets ⟨(uToS [] offsets ⟨0, 3⟩).1, (uToS [] offsets ⟨0, 3⟩).1⟩ = ⟨⟨0, 0⟩, ⟨0, 0⟩⟩ := by
  refine ⟨[(0, ⟨⟨⟨0, 0⟩, ⟨0, 3⟩⟩, -3, 0, 0, 0⟩)], [.use 3 0 0, .text 1], ⟨_, _, rfl, rfl, rfl, rfl, rfl⟩, ?_,
    ⟨[.use 3 0 0], 1, [], 0, rfl, by omega, rfl, rfl⟩, by decide⟩
  intro n a o h; simp at h; omega

/-- **C29, arguments**: a position inside of an argument of a macro call goes to the start of the place where the argument is in
the preprocessed text, and the range of the argument is reported. -/
theorem argument_position (argsMap : List (Nat × Rng × Rng)) (offsets : List (Nat × Offset)) (pos : Pos) (h : ∃ a ∈ onLine argsMap pos.line, In pos a.1) :
    ∃ u s, (u, s) ∈ onLine argsMap pos.line ∧ In pos u ∧ uToS argsMap offsets pos = (s.s, some u) := by
  have contains_iff : ∀ (r : Rng) (p : Pos), rangeContains r p = true ↔ In p r := by
    intro r p
    unfold rangeContains In Pos.le
    repeat' split
    all_goals simp
    all_goals omega
  obtain ⟨a, ha, hin⟩ := h
  cases hf : (onLine argsMap pos.line).find? (fun a => rangeContains a.1 pos) with
  | none =>
    rw [List.find?_eq_none] at hf
    exact absurd ((contains_iff _ _).2 hin) (hf a ha)
  | some x =>
    have h1 := List.mem_of_find?_eq_some hf
    have h2 := List.find?_some hf
    exact ⟨x.1, x.2, h1, (contains_iff _ _).1 h2, by simp [uToS, hf]⟩

example : ∃ a ∈ onLine ([(2, ⟨⟨2, 4⟩, ⟨2, 7⟩⟩, ⟨⟨2, 9⟩, ⟨2, 12⟩⟩)] : List (Nat × Rng × Rng)) 2, In ⟨2, 5⟩ a.1 :=
  ⟨_, List.mem_singleton.2 rfl, by simp [In, Pos.le]⟩

/-! ### C49 -/

/-- A position is in a range exactly if it is not before its start and not after its end, also when the range spans lines. -/
theorem contains_correct (r : Rng) (p : Pos) : rangeContains r p = true ↔ In p r := by
  unfold rangeContains In Pos.le
  repeat' split
  all_goals simp
  all_goals omega

/-- `Offset::contains` is the same test. -/
theorem offset_contains_correct (o : Offset) (p : Pos) : o.contains p = true ↔ In p o.range := by
  unfold Offset.contains In Pos.le
  repeat' split
  all_goals simp
  all_goals omega

/-- **C49**: the intersection of two ranges holds exactly the positions that are in both; there is none exactly if no position is in
both. -/
theorem intersect_correct (a b : Rng) :
    (∀ r, intersect a b = some r → Pos.le r.s r.e ∧ ∀ p, In p r ↔ In p a ∧ In p b) ∧
    (intersect a b = none ↔ ¬ ∃ p, In p a ∧ In p b) := by
  have key : ∀ s e : Pos, (s = a.s ∨ s = b.s) → Pos.le a.s s → Pos.le b.s s → (e = a.e ∨ e = b.e) → Pos.le e a.e → Pos.le e b.e →
      (∀ p, In p ⟨s, e⟩ ↔ In p a ∧ In p b) := by
    intro s e h1 h2 h3 h4 h5 h6 p
    unfold In Pos.le at *
    rcases h1 with rfl | rfl <;> rcases h4 with rfl | rfl <;> dsimp only <;> omega
  let s := if a.s.line > b.s.line ∨ (a.s.line = b.s.line ∧ a.s.char > b.s.char) then a.s else b.s
  let e := if a.e.line < b.e.line ∨ (a.e.line = b.e.line ∧ a.e.char < b.e.char) then a.e else b.e
  have hs : (s = a.s ∨ s = b.s) ∧ Pos.le a.s s ∧ Pos.le b.s s := by
    show ((if _ then _ else _) = _ ∨ (if _ then _ else _) = _) ∧ Pos.le _ (if _ then _ else _) ∧ Pos.le _ (if _ then _ else _)
    unfold Pos.le
    split <;> simp <;> omega
  have he : (e = a.e ∨ e = b.e) ∧ Pos.le e a.e ∧ Pos.le e b.e := by
    show ((if _ then _ else _) = _ ∨ (if _ then _ else _) = _) ∧ Pos.le (if _ then _ else _) _ ∧ Pos.le (if _ then _ else _) _
    unfold Pos.le
    split <;> simp <;> omega
  have hin := key s e hs.1 hs.2.1 hs.2.2 he.1 he.2.1 he.2.2
  have hdef : intersect a b = if s.line > e.line ∨ (s.line = e.line ∧ s.char > e.char) then none else some ⟨s, e⟩ := rfl
  by_cases hc : s.line > e.line ∨ (s.line = e.line ∧ s.char > e.char)
  · rw [if_pos hc] at hdef
    refine ⟨fun r h => by rw [hdef] at h; simp at h, ⟨fun _ ⟨p, hp⟩ => ?_, fun _ => hdef⟩⟩
    have := (hin p).2 hp
    unfold In Pos.le at this
    dsimp only at this
    omega
  · rw [if_neg hc] at hdef
    have hle : Pos.le s e := by unfold Pos.le; omega
    refine ⟨fun r h => ?_, ⟨fun h => by rw [hdef] at h; simp at h, fun h => ?_⟩⟩
    · rw [hdef] at h
      simp only [Option.some.injEq] at h
      subst h
      exact ⟨hle, hin⟩
    · exact absurd ⟨s, (hin s).1 ⟨Or.inr ⟨rfl, Nat.le_refl _⟩, hle⟩⟩ h

example : intersect ⟨⟨1, 5⟩, ⟨2, 0⟩⟩ ⟨⟨0, 9⟩, ⟨1, 7⟩⟩ = some ⟨⟨1, 5⟩, ⟨1, 7⟩⟩ ∧ intersect ⟨⟨1, 5⟩, ⟨2, 0⟩⟩ ⟨⟨2, 1⟩, ⟨2, 7⟩⟩ = none := by decide

end Verif.Props.Position
