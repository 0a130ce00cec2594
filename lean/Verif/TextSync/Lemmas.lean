import Verif.TextSync.Spec
/-! Helper lemmas for `Verif.Props.TextSync`. -/

namespace Verif.TextSync
open Spec

theorem utf8Size_pos (c : Char) : 0 < c.utf8Size := Char.utf8Size_pos c

@[simp] theorem bytes_nil : bytes [] = 0 := rfl
@[simp] theorem bytes_cons (c : Char) (t : Text) : bytes (c :: t) = c.utf8Size + bytes t := by simp [bytes]
@[simp] theorem bytes_append (a b : Text) : bytes (a ++ b) = bytes a + bytes b := by
  simp [bytes]

theorem nl_size : ('\n' : Char).utf8Size = 1 := by decide

/-- Wide characters of the first line of a text, from byte column `b`. -/
def wideOf (b : Nat) : Text → List WideChar
  | [] => []
  | c :: cs =>
    if c = '\n' then []
    else (if 1 < c.utf8Size then [⟨b, c.utf8Size⟩] else []) ++ wideOf (b + c.utf8Size) cs

theorem skipLines_append {n : Nat} {t a r : Text} (h : skipLines n t = some (a, r)) : t = a ++ r := by
  induction t generalizing n a with
  | nil => cases n <;> simp_all [skipLines]
  | cons c cs ih =>
    cases n with
    | zero => simp [skipLines] at h; simp [h]
    | succ n =>
      simp only [skipLines, Option.map_eq_some_iff, Prod.mk.injEq] at h
      obtain ⟨⟨a', r'⟩, h1, rfl, rfl⟩ := h
      simp [ih h1]

theorem skipLines_count {n : Nat} {t a r : Text} (h : skipLines n t = some (a, r)) : a.count '\n' = n := by
  induction t generalizing n a with
  | nil => cases n <;> simp_all [skipLines]
  | cons c cs ih =>
    cases n with
    | zero => simp [skipLines] at h; simp [h]
    | succ n =>
      simp only [skipLines, Option.map_eq_some_iff, Prod.mk.injEq] at h
      obtain ⟨⟨a', r'⟩, h1, rfl, rfl⟩ := h
      have := ih h1
      by_cases hc : c = '\n' <;> simp_all

theorem skipLines_zero (t : Text) : skipLines 0 t = some ([], t) := by simp [skipLines]

theorem build_get {l : Nat} {t a r : Text} (h : skipLines l t = some (a, r)) (s c : Nat) (w : List WideChar) :
    (buildIndex s c w t)[l]? =
      some (if l = 0 then (s, w ++ wideOf c r) else (s + c + bytes a, wideOf 0 r)) := by
  induction t generalizing l a r s c w with
  | nil => cases l <;> simp_all [skipLines, buildIndex, wideOf]
  | cons x xs ih =>
    cases l with
    | zero =>
      simp [skipLines] at h
      obtain ⟨rfl, rfl⟩ := h
      simp only [buildIndex, wideOf]
      by_cases hx : x = '\n'
      · simp [hx]
      · have := ih (skipLines_zero xs) s (c + x.utf8Size)
          (if 1 < x.utf8Size then w ++ [⟨c, x.utf8Size⟩] else w)
        simp only [hx, if_false, this, if_true]
        split <;> simp
    | succ l =>
      simp only [skipLines, Option.map_eq_some_iff, Prod.mk.injEq] at h
      obtain ⟨⟨a', r'⟩, h1, rfl, rfl⟩ := h
      by_cases hx : x = '\n'
      · simp only [hx, if_true] at h1
        simp only [buildIndex, hx, if_true, List.getElem?_cons_succ]
        rw [ih h1]
        cases l with
        | zero =>
          simp [skipLines] at h1
          simp [h1, nl_size]
        | succ l => simp [nl_size]; omega
      · simp only [hx, if_false] at h1
        simp only [buildIndex, hx, if_false]
        rw [ih h1]
        simp; omega

theorem build_get_none {l : Nat} {t : Text} (h : skipLines l t = none) (s c : Nat) (w : List WideChar) :
    (buildIndex s c w t)[l]? = none := by
  induction t generalizing l s c w with
  | nil => cases l <;> simp_all [skipLines, buildIndex]
  | cons x xs ih =>
    cases l with
    | zero => simp [skipLines] at h
    | succ l =>
      simp only [skipLines, Option.map_eq_none_iff] at h
      by_cases hx : x = '\n'
      · simp only [hx, if_true] at h
        simp only [buildIndex, hx, if_true, List.getElem?_cons_succ]
        exact ih h _ _ _
      · simp only [hx, if_false] at h
        simp only [buildIndex, hx, if_false]
        exact ih h _ _ _

theorem new_get {l : Nat} {t a r : Text} (h : skipLines l t = some (a, r)) :
    (LineIndex.new t)[l]? = some (bytes a, wideOf 0 r) := by
  rw [LineIndex.new, build_get h]
  cases l with
  | zero => simp [skipLines] at h; simp [h]
  | succ l => simp

theorem new_get_none {l : Nat} {t : Text} (h : skipLines l t = none) : (LineIndex.new t)[l]? = none :=
  build_get_none h _ _ _

theorem wideOf_start {b : Nat} {t : Text} : ∀ w ∈ wideOf b t, b ≤ w.start := by
  induction t generalizing b with
  | nil => simp [wideOf]
  | cons c cs ih =>
    intro w hw
    simp only [wideOf] at hw
    split at hw
    · simp at hw
    · rw [List.mem_append] at hw
      rcases hw with hw | hw
      · split at hw <;> simp at hw; subst hw; simp
      · have := ih w hw; omega

theorem units_pos (enc : Encoding) (c : Char) : 0 < units enc c := by
  cases enc <;> simp [units, utf8Size_pos]; split <;> omega

theorem units_small {enc : Encoding} (he : enc ≠ .utf8) {c : Char} (h : c.utf8Size ≤ 1) : units enc c = c.utf8Size := by
  have := utf8Size_pos c
  have h1 : c.utf8Size = 1 := by omega
  cases enc <;> simp_all [units]

theorem units_wide {enc : Encoding} (he : enc ≠ .utf8) (c : Char) (b : Nat) :
    (WideChar.mk b c.utf8Size).wideLen enc = units enc c := by
  cases enc <;> simp_all [units, WideChar.wideLen]

theorem units_le (enc : Encoding) (c : Char) : units enc c ≤ c.utf8Size := by
  have := utf8Size_pos c
  cases enc <;> simp only [units]
  · omega
  · split <;> omega
  · omega

/-- The correction loop of the line table turns a wide column on a character boundary into its byte column. -/
theorem toUtf8_prefix {enc : Encoding} (he : enc ≠ .utf8) (p s : Text) (hp : '\n' ∉ p) (b : Nat) :
    toUtf8 enc (wideOf b (p ++ s)) (b + (p.map (units enc)).sum) = b + bytes p := by
  induction p generalizing b with
  | nil =>
    simp only [List.nil_append, List.map_nil, List.sum_nil, Nat.add_zero, bytes_nil]
    cases h : wideOf b s with
    | nil => rfl
    | cons w ws =>
      have := wideOf_start (b := b) (t := s) w (by simp [h])
      simp only [toUtf8]
      rw [if_neg (by omega)]
  | cons c cs ih =>
    simp at hp
    have hcnl : ¬ c = '\n' := fun h => hp.1 h.symm
    have hu := units_pos enc c
    have hul := units_le enc c
    simp only [List.cons_append, wideOf, hcnl, if_false, List.map_cons, List.sum_cons, bytes_cons]
    have key := ih hp.2 (b + c.utf8Size)
    by_cases hw : 1 < c.utf8Size
    · simp only [hw, if_true, List.cons_append, List.nil_append, toUtf8]
      rw [if_pos (by simp; omega), units_wide he]
      have : b + (units enc c + (cs.map (units enc)).sum) + (c.utf8Size - units enc c)
          = b + c.utf8Size + (cs.map (units enc)).sum := by omega
      rw [this, key]; omega
    · simp only [hw, if_false, List.nil_append]
      rw [units_small he (by omega)]
      have : b + (c.utf8Size + (cs.map (units enc)).sum) = b + c.utf8Size + (cs.map (units enc)).sum := by omega
      rw [this, key]; omega

theorem splitAtByte_bytes (a r : Text) : splitAtByte (bytes a) (a ++ r) = some (a, r) := by
  induction a with
  | nil => simp [splitAtByte]
  | cons c cs ih =>
    have := utf8Size_pos c
    simp only [bytes_cons, List.cons_append]
    obtain ⟨n, hn⟩ : ∃ n, c.utf8Size + bytes cs = n + 1 := ⟨c.utf8Size + bytes cs - 1, by omega⟩
    rw [hn]
    simp only [splitAtByte]
    rw [if_pos (by omega)]
    have : n + 1 - c.utf8Size = bytes cs := by omega
    rw [this, ih]; rfl

theorem splitAtByte_eq {n : Nat} {t a r : Text} (h : splitAtByte n t = some (a, r)) : t = a ++ r ∧ bytes a = n := by
  induction t generalizing n a with
  | nil => cases n <;> simp_all [splitAtByte]
  | cons c cs ih =>
    cases n with
    | zero => simp [splitAtByte] at h; obtain ⟨rfl, rfl⟩ := h; simp
    | succ n =>
      simp only [splitAtByte] at h
      split at h
      · simp only [Option.map_eq_some_iff, Prod.mk.injEq] at h
        obtain ⟨⟨a', r'⟩, h1, rfl, rfl⟩ := h
        obtain ⟨h2, h3⟩ := ih h1
        refine ⟨by simp [h2], ?_⟩
        simp; omega
      · simp at h

theorem splitCol_line (enc : Encoding) (p s : Text) (hp : '\n' ∉ p) :
    splitCol enc (p.map (units enc)).sum (p ++ s) = some (p, s) := by
  induction p with
  | nil => simp [splitCol]
  | cons c cs ih =>
    simp at hp
    have hcnl : ¬ c = '\n' := fun h => hp.1 h.symm
    have hu := units_pos enc c
    simp only [List.map_cons, List.sum_cons, List.cons_append]
    obtain ⟨n, hn⟩ : ∃ n, units enc c + (cs.map (units enc)).sum = n + 1 :=
      ⟨units enc c + (cs.map (units enc)).sum - 1, by omega⟩
    rw [hn]
    simp only [splitCol, hcnl, if_false]
    rw [if_pos (by omega)]
    have : n + 1 - units enc c = (cs.map (units enc)).sum := by omega
    rw [this, ih hp.2]; rfl

theorem units_utf8_sum (p : Text) : (p.map (units .utf8)).sum = bytes p := by
  induction p with
  | nil => rfl
  | cons c cs ih => simp [units, ih]

/-- A valid position: what the specification and the server make of it. -/
theorem validPos_spec {enc : Encoding} {t : Text} {p : Pos} (h : ValidPos enc t p) :
    ∃ a line rest, skipLines p.line t = some (a, line ++ rest) ∧ '\n' ∉ line ∧
      (line.map (units enc)).sum = p.col ∧ t = (a ++ line) ++ rest ∧
      splitAt enc t p = some (a ++ line, rest) ∧ offset enc (LineIndex.new t) p = some (bytes (a ++ line)) := by
  obtain ⟨a, line, rest, h1, h2, h3⟩ := h
  refine ⟨a, line, rest, h1, h2, h3, ?_, ?_, ?_⟩
  · rw [skipLines_append h1]; simp
  · simp only [splitAt, h1, ← h3, splitCol_line enc line rest h2]; rfl
  · simp only [offset, new_get h1, bytes_append]
    cases enc with
    | utf8 => simp [← h3, units_utf8_sum]
    | utf16 =>
      have := toUtf8_prefix (enc := .utf16) (by simp) line rest h2 0
      simp only [Nat.zero_add] at this
      simp [← h3, this]
    | utf32 =>
      have := toUtf8_prefix (enc := .utf32) (by simp) line rest h2 0
      simp only [Nat.zero_add] at this
      simp [← h3, this]

theorem prefix_total {a b r s : Text} (h : a ++ r = b ++ s) : (∃ x, b = a ++ x) ∨ (∃ x, a = b ++ x) := by
  rw [List.append_eq_append_iff] at h
  rcases h with ⟨x, h1, _⟩ | ⟨x, h1, _⟩
  · exact Or.inl ⟨x, h1⟩
  · exact Or.inr ⟨x, h1⟩

theorem sum_units_zero {enc : Encoding} {x : Text} (h : (x.map (units enc)).sum = 0) : x = [] := by
  cases x with
  | nil => rfl
  | cons c cs => have := units_pos enc c; simp at h; omega

/-- Position order is prefix order. -/
theorem validRange_prefix {enc : Encoding} {t : Text} {r : Range} (h : ValidRange enc t r) :
    ∃ A B x y, t = A ++ x ∧ t = B ++ y ∧ (∃ z, B = A ++ z) ∧
      splitAt enc t r.start = some (A, x) ∧ splitAt enc t r.stop = some (B, y) ∧
      offset enc (LineIndex.new t) r.start = some (bytes A) ∧
      offset enc (LineIndex.new t) r.stop = some (bytes B) := by
  obtain ⟨hs, he, hle⟩ := h
  obtain ⟨a, l, x, h1, h2, h3, h4, h5, h6⟩ := validPos_spec hs
  obtain ⟨a', l', y, k1, k2, k3, k4, k5, k6⟩ := validPos_spec he
  refine ⟨a ++ l, a' ++ l', x, y, h4, k4, ?_, h5, k5, h6, k6⟩
  have ha := skipLines_count h1
  have ha' := skipLines_count k1
  have cl : l.count '\n' = 0 := List.count_eq_zero.2 h2
  have cl' : l'.count '\n' = 0 := List.count_eq_zero.2 k2
  rcases prefix_total (h4.symm.trans k4) with ⟨z, hz⟩ | ⟨z, hz⟩
  · exact ⟨z, hz⟩
  · rcases hle with hlt | ⟨heq, hcol⟩
    · have := congrArg (List.count '\n') hz
      simp [List.count_append, ha, ha', cl, cl'] at this
      omega
    · rw [← heq, h1] at k1
      simp only [Option.some.injEq, Prod.mk.injEq] at k1
      obtain ⟨rfl, -⟩ := k1
      rw [List.append_assoc] at hz
      have hz' := List.append_cancel_left hz
      have : (z.map (units enc)).sum = 0 := by
        have := congrArg (fun u => (u.map (units enc)).sum) hz'
        simp at this; omega
      rw [sum_units_zero this] at hz
      exact ⟨[], by simp [hz]⟩

/-- One valid ranged change: the server with a fresh table does what the specification says. -/
theorem valid_step {enc : Encoding} {t : Text} {r : Range} (h : ValidRange enc t r) (new : Text) :
    ∃ a b t', textRange enc (LineIndex.new t) r = some (a, b) ∧ replaceRange t a b new = some t' ∧
      t' = applyOne enc t ⟨some r, new⟩ := by
  obtain ⟨A, B, x, y, hx, hy, ⟨z, hz⟩, s1, s2, o1, o2⟩ := validRange_prefix h
  refine ⟨bytes A, bytes B, A ++ new ++ y, ?_, ?_, ?_⟩
  · simp only [textRange, o1, o2]
    rw [if_neg]; subst hz; simp
  · have e1 : splitAtByte (bytes A) t = some (A, x) := by rw [hx]; exact splitAtByte_bytes _ _
    have e2 : splitAtByte (bytes B) t = some (B, y) := by rw [hy]; exact splitAtByte_bytes _ _
    simp only [replaceRange, e1, e2]
  · simp only [applyOne, s1, s2]
    rw [if_pos]; subst hz; simp

/-! ### Stale line tables -/

theorem skipLines_ext {n : Nat} {p : Text} (h : skipLines n p = some (p, [])) (r : Text) :
    skipLines n (p ++ r) = some (p, r) := by
  induction p generalizing n with
  | nil => cases n <;> simp_all [skipLines]
  | cons c cs ih =>
    cases n with
    | zero => simp [skipLines] at h
    | succ n =>
      simp only [skipLines, Option.map_eq_some_iff, Prod.mk.injEq] at h
      obtain ⟨⟨a', r'⟩, h1, h2, h3⟩ := h
      simp at h2 h3
      subst h2; subst h3
      simp only [List.cons_append, skipLines, ih h1]; rfl

theorem skipLines_self {n : Nat} {t a r : Text} (h : skipLines n t = some (a, r)) : skipLines n a = some (a, []) := by
  induction t generalizing n a with
  | nil => cases n <;> simp_all [skipLines]
  | cons c cs ih =>
    cases n with
    | zero => simp [skipLines] at h; simp [h, skipLines]
    | succ n =>
      simp only [skipLines, Option.map_eq_some_iff, Prod.mk.injEq] at h
      obtain ⟨⟨a', r'⟩, h1, rfl, rfl⟩ := h
      simp [skipLines, ih h1]

/-- The first lines of complete lines. -/
theorem skipLines_le {n m : Nat} {p : Text} (h : skipLines n p = some (p, [])) (hm : m ≤ n) :
    ∃ p' p'', p = p' ++ p'' ∧ skipLines m p' = some (p', []) := by
  induction p generalizing n m with
  | nil =>
    cases n with
    | zero => exact ⟨[], [], rfl, by have : m = 0 := by omega
                                     simp [this, skipLines]⟩
    | succ n => simp [skipLines] at h
  | cons c cs ih =>
    cases m with
    | zero => exact ⟨[], c :: cs, rfl, by simp [skipLines]⟩
    | succ m =>
      obtain ⟨n, rfl⟩ : ∃ k, n = k + 1 := ⟨n - 1, by omega⟩
      simp only [skipLines, Option.map_eq_some_iff, Prod.mk.injEq] at h
      obtain ⟨⟨a', r'⟩, h1, h2, h3⟩ := h
      simp at h2 h3
      subst h2; subst h3
      obtain ⟨p', p'', e, h4⟩ := ih (m := if c = '\n' then m else m + 1) h1 (by split <;> omega)
      refine ⟨c :: p', p'', by simp [e], ?_⟩
      simp [skipLines, h4]

/-- Lines strictly inside a common prefix of complete lines have the same entry. -/
theorem build_common {n l : Nat} {p : Text} (h : skipLines n p = some (p, [])) (hl : l < n) (r r' : Text)
    (s c : Nat) (w : List WideChar) :
    (buildIndex s c w (p ++ r))[l]? = (buildIndex s c w (p ++ r'))[l]? := by
  induction p generalizing n l s c w with
  | nil => cases n <;> simp_all [skipLines]
  | cons x xs ih =>
    obtain ⟨n, rfl⟩ : ∃ k, n = k + 1 := ⟨n - 1, by omega⟩
    simp only [skipLines, Option.map_eq_some_iff, Prod.mk.injEq] at h
    obtain ⟨⟨a', r''⟩, h1, h2, h3⟩ := h
    simp at h2 h3
    subst h2; subst h3
    by_cases hx : x = '\n'
    · simp only [hx, if_true] at h1
      simp only [List.cons_append, buildIndex, hx, if_true]
      cases l with
      | zero => rfl
      | succ l => simp only [List.getElem?_cons_succ]; exact ih h1 (by omega) _ _ _
    · simp only [hx, if_false] at h1
      simp only [List.cons_append, buildIndex, hx, if_false]
      exact ih h1 hl _ _ _

/-- The line table is current, or differs only after `indexValid` complete lines. -/
def Stale (s : LoopState) : Prop :=
  s.idx = LineIndex.new s.text ∨
    ∃ p r₀ r, s.idx = LineIndex.new (p ++ r₀) ∧ s.text = p ++ r ∧ skipLines s.indexValid p = some (p, [])

theorem textRange_stale {enc : Encoding} {n : Nat} {p r₀ r : Text} (h : skipLines n p = some (p, [])) {rg : Range}
    (h1 : rg.start.line ≤ rg.stop.line) (h2 : rg.stop.line < n) :
    textRange enc (LineIndex.new (p ++ r₀)) rg = textRange enc (LineIndex.new (p ++ r)) rg := by
  have e1 : ∀ l, l < n → (LineIndex.new (p ++ r₀))[l]? = (LineIndex.new (p ++ r))[l]? :=
    fun l hl => build_common h hl _ _ _ _ _
  simp only [textRange, offset, e1 rg.start.line (by omega), e1 rg.stop.line h2]

theorem offset_ge {enc : Encoding} {t : Text} {p : Pos} {o : Nat} (h : offset enc (LineIndex.new t) p = some o) :
    ∃ a r, skipLines p.line t = some (a, r) ∧ bytes a ≤ o := by
  cases hs : skipLines p.line t with
  | none => simp [offset, new_get_none hs] at h
  | some ar =>
    obtain ⟨a, r⟩ := ar
    refine ⟨a, r, rfl, ?_⟩
    simp only [offset, new_get hs] at h
    simp at h; omega

theorem textRange_start {enc : Encoding} {t : Text} {rg : Range} {a b : Nat}
    (h : textRange enc (LineIndex.new t) rg = some (a, b)) :
    ∃ p r, skipLines rg.start.line t = some (p, r) ∧ bytes p ≤ a := by
  simp only [textRange] at h
  cases ho : offset enc (LineIndex.new t) rg.start with
  | none => simp [ho] at h
  | some s =>
    obtain ⟨p, r, h1, h2⟩ := offset_ge ho
    refine ⟨p, r, h1, ?_⟩
    simp only [ho] at h
    split at h <;> simp at h
    omega

theorem prefix_of_bytes {a r p q : Text} (h : a ++ r = p ++ q) (hb : bytes p ≤ bytes a) : ∃ x, a = p ++ x := by
  rcases prefix_total h with ⟨x, hx⟩ | ⟨x, hx⟩
  · subst hx
    have hx0 : x = [] := by
      cases x with
      | nil => rfl
      | cons c cs => have := utf8Size_pos c; simp at hb; omega
    exact ⟨[], by simp [hx0]⟩
  · exact ⟨x, hx⟩

theorem replaceRange_prefix {t : Text} {a b : Nat} {new t' p r : Text} (h : replaceRange t a b new = some t')
    (hp : t = p ++ r) (hb : bytes p ≤ a) : ∃ r', t' = p ++ r' := by
  simp only [replaceRange] at h
  split at h
  · next x y z w h1 h2 =>
    obtain ⟨e1, e2⟩ := splitAtByte_eq h1
    obtain ⟨u, hu⟩ := prefix_of_bytes (a := x) (r := y) (p := p) (q := r) (by rw [← e1, hp]) (by omega)
    simp at h
    exact ⟨u ++ (new ++ w), by rw [← h, hu]; simp⟩
  · simp at h

theorem loop_eq_naive (enc : Encoding) (cs : List Change)
    (hwf : ∀ c ∈ cs, ∀ r, c.range = some r → r.start.line ≤ r.stop.line) :
    ∀ s : LoopState, Stale s → (loop enc s cs).map (·.text) = naiveLoop enc s.text cs := by
  induction cs with
  | nil => intro s _; rfl
  | cons c cs ih =>
    intro s hs
    have ih' := ih (fun c hc => hwf c (List.mem_cons_of_mem _ hc))
    simp only [loop, naiveLoop, loopStep]
    cases hr : c.range with
    | none => simp only; exact ih' s hs
    | some rg =>
      have hle := hwf c List.mem_cons_self rg hr
      simp only
      -- the table used now behaves like the fresh one, and has the prefix property
      have key : ∃ idx, (if s.indexValid ≤ rg.stop.line then LineIndex.new s.text else s.idx) = idx ∧
          textRange enc idx rg = textRange enc (LineIndex.new s.text) rg ∧
          (idx = LineIndex.new s.text ∨ ∃ p r₀ r, idx = LineIndex.new (p ++ r₀) ∧ s.text = p ++ r ∧
            skipLines rg.start.line p = some (p, [])) := by
        by_cases hv : s.indexValid ≤ rg.stop.line
        · exact ⟨_, if_pos hv, rfl, Or.inl rfl⟩
        · refine ⟨_, if_neg hv, ?_, ?_⟩
          · rcases hs with hs | ⟨p, r₀, r, h1, h2, h3⟩
            · rw [hs]
            · rw [h1, h2]; exact textRange_stale h3 hle (by omega)
          · rcases hs with hs | ⟨p, r₀, r, h1, h2, h3⟩
            · exact Or.inl hs
            · obtain ⟨p', p'', e, h4⟩ := skipLines_le h3 (m := rg.start.line) (by omega)
              exact Or.inr ⟨p', p'' ++ r₀, p'' ++ r, by rw [h1, e]; simp, by rw [h2, e]; simp, h4⟩
      obtain ⟨idx, e1, e2, e3⟩ := key
      rw [e1, e2]
      cases ht : textRange enc (LineIndex.new s.text) rg with
      | none =>
        simp only
        exact ih' ⟨s.text, idx, rg.start.line⟩ e3
      | some ab =>
        obtain ⟨a, b⟩ := ab
        simp only
        cases hrep : replaceRange s.text a b c.text with
        | none => simp
        | some t' =>
          simp only [Option.map_some]
          refine ih' ⟨t', idx, rg.start.line⟩ ?_
          obtain ⟨p, r, h1, h2⟩ := textRange_start ht
          right
          rcases e3 with e3 | ⟨q, r₀, r', f1, f2, f3⟩
          · obtain ⟨r'', hr''⟩ := replaceRange_prefix hrep (skipLines_append h1) h2
            exact ⟨p, r, r'', by rw [e3]; rw [← skipLines_append h1], hr'', skipLines_self h1⟩
          · have : p = q := by
              have := skipLines_ext f3 r'
              rw [← f2, h1] at this
              simp at this; exact this.1
            subst this
            obtain ⟨r'', hr''⟩ := replaceRange_prefix hrep f2 h2
            exact ⟨p, r₀, r'', f1, hr'', f3⟩

theorem naive_eq_spec (enc : Encoding) (cs : List Change) (hr : ∀ c ∈ cs, c.range.isSome) :
    ∀ t, ValidBatch enc t cs → naiveLoop enc t cs = some (applyAll enc t cs) := by
  induction cs with
  | nil => intro t _; rfl
  | cons c cs ih =>
    intro t hv
    obtain ⟨h1, h2⟩ := hv
    obtain ⟨r, hr'⟩ := Option.isSome_iff_exists.1 (hr c List.mem_cons_self)
    obtain ⟨a, b, t', e1, e2, e3⟩ := valid_step (h1 r hr') c.text
    have : (⟨some r, c.text⟩ : Change) = c := by cases c; simp_all
    rw [this] at e3
    simp only [naiveLoop, hr', e1, e2, e3, applyAll, List.foldl_cons]
    exact ih (fun c hc => hr c (List.mem_cons_of_mem _ hc)) _ h2

theorem loop_skip_full (enc : Encoding) (fs cs : List Change) (hf : ∀ c ∈ fs, c.range = none) :
    ∀ s, loop enc s (fs ++ cs) = loop enc s cs := by
  induction fs with
  | nil => intro s; rfl
  | cons c fs ih =>
    intro s
    simp only [List.cons_append, loop, loopStep, hf c List.mem_cons_self]
    exact ih (fun c hc => hf c (List.mem_cons_of_mem _ hc)) s

theorem startIdx_none {cs : List Change} (h : ∀ c ∈ cs, c.range.isSome) : startIdx cs = 0 := by
  have : cs.reverse.findIdx? (fun c => c.range.isNone) = none := by
    rw [List.findIdx?_eq_none_iff]
    intro c hc; have := h c (List.mem_reverse.1 hc)
    cases hr : c.range <;> simp_all
  simp [startIdx, this]

theorem startIdx_full {fs cs : List Change} {c : Change} (hc : c.range = none) (h : ∀ c ∈ cs, c.range.isSome) :
    startIdx (fs ++ c :: cs) = fs.length := by
  have : (fs ++ c :: cs).reverse.findIdx? (fun c => c.range.isNone) = some cs.length := by
    rw [List.findIdx?_eq_some_iff_getElem]
    simp only [List.reverse_append, List.reverse_cons, List.append_assoc, List.singleton_append,
      List.length_append, List.length_reverse, List.length_cons]
    refine ⟨by omega, ?_, ?_⟩
    · rw [List.getElem_append_right (by simp)]; simp [hc]
    · intro j hj
      rw [List.getElem_append_left (by simpa using hj)]
      have := h _ (List.mem_reverse.1 (List.getElem_mem (l := cs.reverse) (n := j) (by simpa using hj)))
      rw [Option.isNone_iff_eq_none]
      intro hn
      rw [hn] at this; simp at this
  simp only [startIdx, this]
  simp; omega

theorem validBatch_append {enc : Encoding} {t : Text} {a b : List Change} :
    ValidBatch enc t (a ++ b) ↔ ValidBatch enc t a ∧ ValidBatch enc (applyAll enc t a) b := by
  induction a generalizing t with
  | nil => simp [ValidBatch, applyAll]
  | cons c cs ih => simp [ValidBatch, ih, applyAll, and_assoc]

theorem validBatch_lines {enc : Encoding} {t : Text} {cs : List Change} (h : ValidBatch enc t cs) :
    ∀ c ∈ cs, ∀ r, c.range = some r → r.start.line ≤ r.stop.line := by
  induction cs generalizing t with
  | nil => simp
  | cons c cs ih =>
    obtain ⟨h1, h2⟩ := h
    intro d hd r hr
    rcases List.mem_cons.1 hd with rfl | hd
    · obtain ⟨_, _, hle⟩ := h1 r hr
      rcases hle with hle | hle <;> omega
    · exact ih h2 d hd r hr

end Verif.TextSync
