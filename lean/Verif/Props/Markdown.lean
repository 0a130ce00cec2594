import Verif.Ide.Markdown
/-!
# C85: the text shown on hovering has what the documentation says
-/

namespace Verif.Props.Markdown
open Verif.Ide.Docs (Str)
open Verif.Ide.Markdown Verif.Ide.Markdown.Spec

variable {cl : Classes}

/-! ### Replacing in general -/

/-- The text behind a match is shorter than the text in front of it. -/
def Shortens (m : Match) : Prop := ∀ s r rest, m s = some (r, rest) → rest.length < s.length

theorem go_fuel {m : Match} (hm : Shortens m) : ∀ (n k : Nat) (s : Str), s.length ≤ n → s.length ≤ k → go m n s = go m k s
  | 0, k, s, hn, _ => by
    have : s = [] := List.eq_nil_of_length_eq_zero (Nat.le_zero.1 hn)
    subst this
    cases k <;> rfl
  | n + 1, 0, s, _, hk => by
    have : s = [] := List.eq_nil_of_length_eq_zero (Nat.le_zero.1 hk)
    subst this
    rfl
  | n + 1, k + 1, [], _, _ => rfl
  | n + 1, k + 1, c :: s, hn, hk => by
    simp only [go]
    cases h : m (c :: s) with
    | none =>
      simp only [List.length_cons] at hn hk
      simp [go_fuel hm n k s (by omega) (by omega)]
    | some p =>
      have := hm _ _ _ h
      simp only [List.length_cons] at hn hk this
      simp [go_fuel hm n k p.2 (by omega) (by omega)]

theorem replaceAll_nil (m : Match) : replaceAll m [] = [] := rfl

theorem replaceAll_none {m : Match} {c : Char} {s : Str} (h : m (c :: s) = none) : replaceAll m (c :: s) = c :: replaceAll m s := by
  simp [replaceAll, go, h]

theorem replaceAll_some {m : Match} (hm : Shortens m) {c : Char} {s r rest : Str} (h : m (c :: s) = some (r, rest)) :
    replaceAll m (c :: s) = r ++ replaceAll m rest := by
  have := hm _ _ _ h
  simp only [List.length_cons] at this
  simp only [replaceAll, List.length_cons, go, h]
  rw [go_fuel hm s.length rest.length rest (by omega) (Nat.le_refl _)]

/-- No match starts in `a`. -/
theorem replaceAll_skip {m : Match} : ∀ (a b : Str), (∀ x c y, a = x ++ c :: y → m (c :: (y ++ b)) = none) → replaceAll m (a ++ b) = a ++ replaceAll m b
  | [], b, _ => rfl
  | c :: a, b, h => by
    rw [List.cons_append, replaceAll_none (h [] c a rfl), replaceAll_skip a b (fun x d y e => h (c :: x) d y (by rw [e]; rfl))]
    rfl

/-- Matches that cannot start with a character of `a`. -/
theorem replaceAll_chars {m : Match} {p : Char → Prop} (hp : ∀ c s, p c → m (c :: s) = none) (a b : Str) (h : ∀ c ∈ a, p c) :
    replaceAll m (a ++ b) = a ++ replaceAll m b :=
  replaceAll_skip a b fun x c y e => hp c _ (h c (by rw [e]; simp))

/-- A property of texts that replacing does not change. -/
theorem replaceAll_rel {m : Match} (R : Str → Str → Prop) (hnil : ∀ s, R s s) (hcons : ∀ c s t, R s t → R (c :: s) (c :: t))
    (hm : ∀ s r rest t, m s = some (r, rest) → R rest t → R s (r ++ t)) (s : Str) : R s (replaceAll m s) := by
  suffices ∀ (n : Nat) (s : Str), R s (go m n s) from this _ _
  intro n
  induction n with
  | zero => intro s; exact hnil s
  | succ n ih =>
    intro s
    cases s with
    | nil => exact hnil []
    | cons c s =>
      simp only [go]
      cases h : m (c :: s) with
      | none => exact hcons _ _ _ (ih s)
      | some p => exact hm _ _ _ _ h (ih p.2)

/-! ### White space -/

theorem space_ascii (cl : Classes) (c : Char) (h : c.toNat < 128) : cl.space c = Verif.Ide.Docs.isSpace c := cl.space_ascii c h

theorem nl (cl : Classes) : cl.space '\n' = true := by rw [cl.space_ascii _ (by decide)]; decide
theorem cr (cl : Classes) : cl.space '\r' = true := by rw [cl.space_ascii _ (by decide)]; decide
theorem blank (cl : Classes) : cl.space ' ' = true := by rw [cl.space_ascii _ (by decide)]; decide
theorem star (cl : Classes) : cl.space '*' = false := by rw [cl.space_ascii _ (by decide)]; decide
theorem at_ (cl : Classes) : cl.space '@' = false := by rw [cl.space_ascii _ (by decide)]; decide

theorem drop_take (p : Char → Bool) (s : Str) : s = s.takeWhile p ++ s.dropWhile p := (List.takeWhile_append_dropWhile).symm

theorem mem_take {p : Char → Bool} {c : Char} : ∀ {s : Str}, c ∈ s.takeWhile p → p c = true
  | d :: s, h => by
    simp only [List.takeWhile] at h
    split at h
    · simp only [List.mem_cons] at h
      rcases h with rfl | h
      · assumption
      · exact mem_take h
    · cases h

theorem dropWhile_spaces {p : Char → Bool} : ∀ (a b : Str), (∀ c ∈ a, p c = true) → (∀ c r, b = c :: r → p c = false) → (a ++ b).dropWhile p = b
  | [], [], _, _ => rfl
  | [], c :: r, _, h => by simp [List.dropWhile, h c r rfl]
  | c :: a, b, h, hb => by
    simp only [List.cons_append, List.dropWhile, h c (by simp)]
    exact dropWhile_spaces a b (fun d hd => h d (by simp [hd])) hb

theorem takeWhile_spaces {p : Char → Bool} : ∀ (a b : Str), (∀ c ∈ a, p c = true) → (∀ c r, b = c :: r → p c = false) → (a ++ b).takeWhile p = a
  | [], [], _, _ => rfl
  | [], c :: r, _, h => by simp [List.takeWhile, h c r rfl]
  | c :: a, b, h, hb => by
    simp only [List.cons_append, List.takeWhile, h c (by simp)]
    rw [takeWhile_spaces a b (fun d hd => h d (by simp [hd])) hb]

/-! ### What each expression matches -/

theorem re2_some {s r rest : Str} (h : re2 cl s = some (r, rest)) :
    ∃ w, s = '*' :: w ++ '*' :: rest ∧ (∀ c ∈ w, cl.space c = true) ∧ '\n' ∈ w ∧ r = ['\n', '\n'] := by
  unfold re2 at h
  split at h
  · rename_i s
    split at h
    · rename_i hn
      split at h
      · rename_i rest' he
        simp only [Option.some.injEq, Prod.mk.injEq] at h
        refine ⟨s.takeWhile cl.space, ?_, fun c hc => mem_take hc, hn, h.1.symm⟩
        rw [← h.2, List.cons_append, ← he, ← drop_take]
      · cases h
    · cases h
  · cases h

theorem blankStar_some {s r rest : Str} (h : blankStar cl s = some (r, rest)) :
    ∃ w, s = w ++ '*' :: rest ∧ (∀ c ∈ w, cl.space c = true) ∧ r = [] := by
  unfold blankStar at h
  split at h
  · rename_i rest' he
    simp only [Option.some.injEq, Prod.mk.injEq] at h
    refine ⟨s.takeWhile cl.space, ?_, fun c hc => mem_take hc, h.1.symm⟩
    rw [← h.2, ← he, ← drop_take]
  · cases h

theorem re3_some {s r rest : Str} (h : re3 cl s = some (r, rest)) :
    ∃ w, s = w ++ '*' :: rest ∧ (∀ c ∈ w, cl.space c = true) ∧ r = [] := by
  unfold re3 at h
  split at h
  · obtain ⟨w, rfl, hw, hr⟩ := blankStar_some h
    refine ⟨'\r' :: '\n' :: w, rfl, ?_, hr⟩
    intro c hc
    simp only [List.mem_cons] at hc
    rcases hc with rfl | rfl | hc
    · exact cr cl
    · exact nl cl
    · exact hw c hc
  · obtain ⟨w, rfl, hw, hr⟩ := blankStar_some h
    refine ⟨'\n' :: w, rfl, ?_, hr⟩
    intro c hc
    simp only [List.mem_cons] at hc
    rcases hc with rfl | hc
    · exact nl cl
    · exact hw c hc
  · cases h

theorem re5_some {s r rest : Str} (h : re5 s = some (r, rest)) : s = '<' :: rest ∧ r = ['\\', '<'] := by
  unfold re5 at h
  split at h
  · simp only [Option.some.injEq, Prod.mk.injEq] at h
    exact ⟨by rw [h.2], h.1.symm⟩
  · cases h

theorem re6_some {s r rest : Str} (h : re6 s = some (r, rest)) : s = '>' :: rest ∧ r = ['\\', '>'] := by
  unfold re6 at h
  split at h
  · simp only [Option.some.injEq, Prod.mk.injEq] at h
    exact ⟨by rw [h.2], h.1.symm⟩
  · cases h

theorem tagMatch_some {s r rest : Str} (h : tagMatch cl s = some (r, rest)) :
    ∃ tag w, s = tag ++ w ++ rest ∧ tag ≠ [] ∧ w ≠ [] ∧ (∀ c ∈ tag, letter c = true) ∧ (∀ c ∈ w, cl.space c = true) ∧
      r = "\n\n_@".toList ++ tag ++ "_ ".toList := by
  unfold tagMatch at h
  split at h
  · cases h
  · rename_i ht
    split at h
    · rename_i c rest' he
      split at h
      · rename_i hc
        simp only [Option.some.injEq, Prod.mk.injEq] at h
        refine ⟨s.takeWhile letter, c :: rest'.takeWhile cl.space, ?_, ht, by simp, fun c hc => mem_take hc, ?_, h.1.symm⟩
        · conv => lhs; rw [drop_take letter s, he, drop_take cl.space rest', h.2]
          simp
        · intro d hd
          simp only [List.mem_cons] at hd
          rcases hd with rfl | hd
          · exact hc
          · exact mem_take hd
      · cases h
    · cases h

theorem re7_some {s r rest : Str} (h : re7 cl s = some (r, rest)) :
    ∃ u tag w, s = u ++ '@' :: tag ++ w ++ rest ∧ tag ≠ [] ∧ w ≠ [] ∧ (∀ c ∈ u, cl.space c = true) ∧ (∀ c ∈ tag, letter c = true) ∧
      (∀ c ∈ w, cl.space c = true) ∧ r = "\n\n_@".toList ++ tag ++ "_ ".toList := by
  unfold re7 at h
  split at h
  · rename_i t he
    obtain ⟨tag, w, ht, h1, h2, h3, h4, h5⟩ := tagMatch_some h
    refine ⟨s.takeWhile cl.space, tag, w, ?_, h1, h2, fun c hc => mem_take hc, h3, h4, h5⟩
    conv => lhs; rw [drop_take cl.space s, he, ht]
    simp
  · cases h

theorem re8_some {s r rest : Str} (h : re8 cl s = some (r, rest)) :
    ∃ name w, s = "_@param_ ".toList ++ name ++ w ++ rest ∧ name ≠ [] ∧ (∀ c ∈ name, nameChar c = true) ∧ (∀ c ∈ w, cl.space c = true) ∧
      r = "_@param_ `".toList ++ name ++ "` — >".toList := by
  unfold re8 at h
  split at h
  · rename_i s
    split at h
    · cases h
    · rename_i hn
      simp only [Option.some.injEq, Prod.mk.injEq] at h
      refine ⟨s.takeWhile nameChar, (s.dropWhile nameChar).takeWhile cl.space, ?_, hn, fun c hc => mem_take hc,
        fun c hc => mem_take hc, h.1.symm⟩
      conv => lhs; rw [drop_take nameChar s, drop_take cl.space (s.dropWhile nameChar), h.2]
      simp
  · cases h

theorem re9_some {s r rest : Str} (h : re9 cl s = some (r, rest)) :
    ∃ call, s = call ++ rest ∧ call ≠ [] ∧ '(' ∈ call ∧ r = '`' :: call ++ ['`'] := by
  unfold re9 at h
  split at h
  · cases h
  · rename_i hn
    split at h
    · rename_i t he
      split at h
      · rename_i rest' he'
        simp only [Option.some.injEq, Prod.mk.injEq] at h
        refine ⟨s.takeWhile cl.word ++ '(' :: t.takeWhile argChar ++ [')'], ?_, by simp, by simp, ?_⟩
        · conv => lhs; rw [drop_take cl.word s, he, drop_take argChar t, he', h.2]
          simp
        · rw [← h.1]; simp
      · cases h
    · cases h

theorem re10_some {s r rest : Str} (h : re10 s = some (r, rest)) : s = "DEPRECATED".toList ++ rest ∧ r = "\n\n**DEPRECATED**".toList := by
  unfold re10 at h
  split at h
  · simp only [Option.some.injEq, Prod.mk.injEq] at h
    exact ⟨by rw [h.2]; rfl, h.1.symm⟩
  · cases h

theorem shortens2 : Shortens (re2 cl) := by
  intro s r rest h; obtain ⟨w, rfl, _⟩ := re2_some h; simp; omega
theorem shortens3 : Shortens (re3 cl) := by
  intro s r rest h; obtain ⟨w, rfl, _⟩ := re3_some h; simp; omega
theorem shortens5 : Shortens re5 := by
  intro s r rest h; obtain ⟨rfl, _⟩ := re5_some h; simp
theorem shortens6 : Shortens re6 := by
  intro s r rest h; obtain ⟨rfl, _⟩ := re6_some h; simp
theorem shortens7 : Shortens (re7 cl) := by
  intro s r rest h; obtain ⟨u, tag, w, rfl, _⟩ := re7_some h; simp; omega
theorem shortens8 : Shortens (re8 cl) := by
  intro s r rest h; obtain ⟨n, w, rfl, _⟩ := re8_some h; simp; omega
theorem shortens9 : Shortens (re9 cl) := by
  intro s r rest h
  obtain ⟨c, rfl, hc, _⟩ := re9_some h
  have := List.length_pos_iff.2 hc
  simp; omega
theorem shortens10 : Shortens re10 := by
  intro s r rest h; obtain ⟨rfl, _⟩ := re10_some h; simp; omega

/-! ### Nothing is lost -/

theorem solid_append (a b : Str) : solid cl (a ++ b) = solid cl a ++ solid cl b := by simp [solid]

theorem solid_spaces {w : Str} (h : ∀ c ∈ w, cl.space c = true) : solid cl w = [] := by
  simp only [solid, List.filter_eq_nil_iff]
  intro c hc
  simp [h c hc]

theorem solid_star : solid cl ['*'] = [] := by simp [solid]

/-- The solid characters of one text are among those of the other. -/
def Kept (cl : Classes) (s t : Str) : Prop := (solid cl s).Sublist (solid cl t)

theorem kept_cons (c : Char) (s t : Str) (h : Kept cl s t) : Kept cl (c :: s) (c :: t) := by
  have e : ∀ s, solid cl (c :: s) = solid cl [c] ++ solid cl s := fun s => solid_append [c] s
  unfold Kept
  rw [e s, e t]
  exact (List.Sublist.refl _).append h

theorem kept_match {m : Match} (hm : ∀ s r rest, m s = some (r, rest) → ∃ a, s = a ++ rest ∧ (solid cl a).Sublist (solid cl r)) (s : Str) :
    Kept cl s (replaceAll m s) := by
  refine replaceAll_rel (Kept cl) (fun s => List.Sublist.refl _) kept_cons ?_ s
  intro s r rest t h ht
  obtain ⟨a, rfl, ha⟩ := hm _ _ _ h
  unfold Kept
  rw [solid_append, solid_append]
  exact ha.append ht

theorem bare_append (a b : Str) : bare cl (a ++ b) = bare cl a ++ bare cl b := by simp [bare]

theorem bare_spaces {w : Str} (h : ∀ c ∈ w, cl.space c = true) : bare cl w = [] := by
  simp only [bare, List.filter_eq_nil_iff]
  intro c hc
  simp [h c hc]

theorem bare_match {m : Match} (hm : ∀ s r rest, m s = some (r, rest) → ∃ a, s = a ++ rest ∧ bare cl a = bare cl r) (s : Str) :
    bare cl (replaceAll m s) = bare cl s := by
  refine replaceAll_rel (fun s t => bare cl t = bare cl s) (fun _ => rfl) ?_ ?_ s
  · intro c s t h
    have e : ∀ s, bare cl (c :: s) = bare cl [c] ++ bare cl s := fun s => bare_append [c] s
    rw [e s, e t, h]
  · intro s r rest t h ht
    obtain ⟨a, rfl, ha⟩ := hm _ _ _ h
    rw [bare_append, bare_append, ha, ht]

theorem mark (cl : Classes) (c : Char) (h : c.toNat < 128 := by decide) (h' : Verif.Ide.Docs.isSpace c = false := by decide) : cl.space c = false := by
  rw [cl.space_ascii c h, h']

theorem solid_self {w : Str} (h : ∀ c ∈ w, cl.space c = false ∧ c ≠ '*') : solid cl w = w := by
  simp only [solid, List.filter_eq_self]
  intro c hc
  simp [h c hc]

theorem kept2 (s : Str) : Kept cl s (replaceAll (re2 cl) s) := kept_match (fun s r rest h => by
  obtain ⟨w, rfl, hw, _, rfl⟩ := re2_some h
  refine ⟨'*' :: w ++ ['*'], by simp, ?_⟩
  rw [show '*' :: w ++ ['*'] = ['*'] ++ w ++ ['*'] from rfl, solid_append, solid_append, solid_star, solid_spaces hw]
  exact List.nil_sublist _) s

theorem kept3 (s : Str) : Kept cl s (replaceAll (re3 cl) s) := kept_match (fun s r rest h => by
  obtain ⟨w, rfl, hw, rfl⟩ := re3_some h
  refine ⟨w ++ ['*'], by simp, ?_⟩
  rw [solid_append, solid_star, solid_spaces hw]
  exact List.nil_sublist _) s

theorem kept_sub {a r : Str} (h : a.Sublist r) : (solid cl a).Sublist (solid cl r) := h.filter _

theorem kept5 (s : Str) : Kept cl s (replaceAll re5 s) := kept_match (fun s r rest h => by
  obtain ⟨rfl, rfl⟩ := re5_some h
  exact ⟨['<'], rfl, kept_sub (by decide)⟩) s

theorem kept6 (s : Str) : Kept cl s (replaceAll re6 s) := kept_match (fun s r rest h => by
  obtain ⟨rfl, rfl⟩ := re6_some h
  exact ⟨['>'], rfl, kept_sub (by decide)⟩) s

theorem kept7 (s : Str) : Kept cl s (replaceAll (re7 cl) s) := kept_match (fun s r rest h => by
  obtain ⟨u, tag, w, rfl, _, _, hu, _, hw, rfl⟩ := re7_some h
  refine ⟨u ++ ('@' :: tag) ++ w, by simp, ?_⟩
  rw [solid_append, solid_append, solid_spaces hu, solid_spaces hw]
  simp only [List.nil_append, List.append_nil]
  refine kept_sub ?_
  rw [show '@' :: tag = ['@'] ++ tag from rfl]
  exact ((show ['@'].Sublist "\n\n_@".toList by decide).append (List.Sublist.refl tag)).trans (List.sublist_append_left _ _)) s

theorem kept8 (s : Str) : Kept cl s (replaceAll (re8 cl) s) := kept_match (fun s r rest h => by
  obtain ⟨n, w, rfl, _, _, hw, rfl⟩ := re8_some h
  refine ⟨"_@param_ ".toList ++ n ++ w, by simp, ?_⟩
  rw [solid_append, solid_spaces hw, List.append_nil]
  refine kept_sub ?_
  exact ((show "_@param_ ".toList.Sublist "_@param_ `".toList by decide).append (List.Sublist.refl n)).trans (List.sublist_append_left _ _)) s

theorem kept9 (s : Str) : Kept cl s (replaceAll (re9 cl) s) := kept_match (fun s r rest h => by
  obtain ⟨call, rfl, _, _, rfl⟩ := re9_some h
  refine ⟨call, rfl, kept_sub ?_⟩
  exact ((List.sublist_append_left call ['`']).trans (List.sublist_cons_self '`' _))) s

theorem kept10 (s : Str) : Kept cl s (replaceAll re10 s) := kept_match (fun s r rest h => by
  obtain ⟨rfl, rfl⟩ := re10_some h
  exact ⟨"DEPRECATED".toList, rfl, kept_sub (by decide)⟩) s

theorem kept4 (s : Str) : Kept cl s (re4 s) := by
  unfold re4
  split
  · rename_i s
    unfold Kept
    rw [show '*' :: s = ['*'] ++ s from rfl, solid_append, solid_star]
    exact List.Sublist.refl _
  · exact List.Sublist.refl _

theorem kept_trans {a b c : Str} (h : Kept cl a b) (h' : Kept cl b c) : Kept cl a c := List.Sublist.trans h h'

theorem re1_eq {s : Str} (h : ¬ ['*', '<'] <+: s) : re1 s = s := by
  unfold re1
  split
  · rename_i s
    exact absurd ⟨s, rfl⟩ h
  · rfl

/-- **C85** Every character of the documentation that is not layout is shown, and in the same order. (`*<` at the very beginning is layout, too.) -/
theorem all_shown (cl : Classes) (s : Str) (h : ¬ ['*', '<'] <+: s) : (solid cl s).Sublist (toMarkdown cl s) := by
  refine List.Sublist.trans ?_ (List.filter_sublist (p := fun c => !cl.space c && c != '*'))
  unfold toMarkdown
  rw [re1_eq h]
  exact kept_trans (kept2 s) (kept_trans (kept3 _) (kept_trans (kept4 _) (kept_trans (kept5 _) (kept_trans (kept6 _) (kept_trans (kept7 _)
    (kept_trans (kept8 _) (kept_trans (kept9 _) (kept10 _))))))))

theorem bare2 (s : Str) : bare cl (replaceAll (re2 cl) s) = bare cl s := bare_match (fun s r rest h => by
  obtain ⟨w, rfl, hw, _, rfl⟩ := re2_some h
  refine ⟨'*' :: w ++ ['*'], by simp, ?_⟩
  rw [show '*' :: w ++ ['*'] = ['*'] ++ w ++ ['*'] from rfl, bare_append, bare_append, bare_spaces hw]
  simp [bare, nl]) s

theorem bare3 (s : Str) : bare cl (replaceAll (re3 cl) s) = bare cl s := bare_match (fun s r rest h => by
  obtain ⟨w, rfl, hw, rfl⟩ := re3_some h
  refine ⟨w ++ ['*'], by simp, ?_⟩
  rw [bare_append, bare_spaces hw]
  simp [bare]) s

theorem bare5 (s : Str) : bare cl (replaceAll re5 s) = bare cl s := bare_match (fun s r rest h => by
  obtain ⟨rfl, rfl⟩ := re5_some h
  exact ⟨['<'], rfl, by simp [bare]⟩) s

theorem bare6 (s : Str) : bare cl (replaceAll re6 s) = bare cl s := bare_match (fun s r rest h => by
  obtain ⟨rfl, rfl⟩ := re6_some h
  exact ⟨['>'], rfl, by simp [bare]⟩) s

theorem bare7 (s : Str) : bare cl (replaceAll (re7 cl) s) = bare cl s := bare_match (fun s r rest h => by
  obtain ⟨u, tag, w, rfl, _, _, hu, _, hw, rfl⟩ := re7_some h
  refine ⟨u ++ ('@' :: tag) ++ w, by simp, ?_⟩
  rw [show '@' :: tag = ['@'] ++ tag from rfl, bare_append, bare_append, bare_append, bare_spaces hu, bare_spaces hw, bare_append, bare_append]
  simp [bare, nl, at_, blank]) s

theorem bare8 (s : Str) : bare cl (replaceAll (re8 cl) s) = bare cl s := bare_match (fun s r rest h => by
  obtain ⟨n, w, rfl, _, _, hw, rfl⟩ := re8_some h
  refine ⟨"_@param_ ".toList ++ n ++ w, by simp, ?_⟩
  rw [bare_append, bare_append, bare_append, bare_append, bare_spaces hw]
  simp [bare, blank, List.filter_cons]) s

theorem bare9 (s : Str) : bare cl (replaceAll (re9 cl) s) = bare cl s := bare_match (fun s r rest h => by
  obtain ⟨call, rfl, _, _, rfl⟩ := re9_some h
  refine ⟨call, rfl, ?_⟩
  rw [show '`' :: call ++ ['`'] = ['`'] ++ call ++ ['`'] from rfl, bare_append, bare_append]
  simp [bare]) s

theorem bare10 (s : Str) : bare cl (replaceAll re10 s) = bare cl s := bare_match (fun s r rest h => by
  obtain ⟨rfl, rfl⟩ := re10_some h
  exact ⟨"DEPRECATED".toList, rfl, by simp [bare, nl, List.filter_cons]⟩) s

theorem bare4 (s : Str) : bare cl (re4 s) = bare cl s := by
  unfold re4
  split
  · simp [bare]
  · rfl

theorem bare1 (s : Str) : bare cl (re1 s) = bare cl s := by
  unfold re1
  split
  · simp [bare]
  · rfl

/-- **C85** Nothing is shown that the documentation does not say: apart from white space and the marks of Markdown the two are the same. -/
theorem nothing_added (cl : Classes) (s : Str) : bare cl (toMarkdown cl s) = bare cl s := by
  unfold toMarkdown
  rw [bare10, bare9, bare8, bare7, bare6, bare5, bare4, bare3, bare2, bare1]

/-! ### What is shown of a documentation as people write it -/

theorem re2_other {c : Char} (s : Str) (h : c ≠ '*') : re2 cl (c :: s) = none := by
  unfold re2
  split
  · rename_i heq; simp only [List.cons.injEq] at heq; exact absurd heq.1 h
  · rfl

/-- A star with something else than a star behind the white space. -/
theorem re2_star {w : Str} {c : Char} {s : Str} (hw : ∀ d ∈ w, cl.space d = true) (hc : cl.space c = false) (hs : c ≠ '*') :
    re2 cl ('*' :: (w ++ c :: s)) = none := by
  unfold re2
  split
  · rename_i heq
    simp only [List.cons.injEq, true_and] at heq
    subst heq
    rw [dropWhile_spaces w (c :: s) hw (by intro d r e; cases e; exact hc)]
    split
    · split
      · rename_i heq; cases heq; exact absurd rfl hs
      · rfl
    · rfl
  · rfl

theorem re2_para (p : Para) (hp : WfPara cl p) (b : Str) : replaceAll (re2 cl) (p.written ++ b) = p.written ++ replaceAll (re2 cl) b := by
  unfold Para.written
  rw [List.append_assoc, replaceAll_chars (p := fun c => c ≠ '*') (fun _ s h => re2_other s h) _ _ (fun c hc => (hp.1.chars c hc).1), List.append_assoc]
  congr 1
  have := hp.2
  generalize p.more = more at this
  induction more with
  | nil => rfl
  | cons x more ih =>
    obtain ⟨hg, hx⟩ := this x (by simp)
    obtain ⟨c, r, hcr, hc⟩ := hx.first
    have hstar : c ≠ '*' := (hx.chars c (by rw [hcr]; simp)).1
    simp only [List.flatMap_cons, List.append_assoc]
    rw [show ("\n *".toList : Str) ++ (x.1 ++ (x.2 ++ ((more.flatMap fun x => "\n *".toList ++ (x.1 ++ x.2)) ++ b))) =
      "\n ".toList ++ ('*' :: (x.1 ++ (x.2 ++ ((more.flatMap fun x => "\n *".toList ++ (x.1 ++ x.2)) ++ b)))) from rfl]
    rw [replaceAll_chars (p := fun c => c ≠ '*') (fun _ s h => re2_other s h) _ _ (by decide), replaceAll_none]
    · rw [replaceAll_chars (p := fun c => c ≠ '*') (fun _ s h => re2_other s h) _ _ (fun c hc => by
          rintro rfl; have := (hg.chars _ hc).1; rw [star] at this; cases this),
        replaceAll_chars (p := fun c => c ≠ '*') (fun _ s h => re2_other s h) _ _ (fun c hc => (hx.chars c hc).1)]
      have := ih (fun y hy => this y (by simp [hy]))
      simp only [List.append_assoc] at this
      rw [this]
      rfl
    · rw [hcr, List.cons_append]
      exact re2_star (fun d hd => (hg.chars d hd).1) hc hstar

/-- A part of a line that is shown. -/
structure Texty (s : Str) : Prop where
  chars : ∀ c ∈ s, c ≠ '*' ∧ c ≠ '@' ∧ c ≠ '<' ∧ c ≠ '>' ∧ c ≠ '(' ∧ c ≠ '\n' ∧ c ≠ '\r'

theorem texty_append {a b : Str} (ha : Texty a) (hb : Texty b) : Texty (a ++ b) :=
  ⟨fun c hc => by simp only [List.mem_append] at hc; exact hc.elim (ha.chars c) (hb.chars c)⟩

theorem texty_gap {s : Str} (h : Gap cl s) : Texty s := ⟨fun c hc => by
  have h' := h.chars c hc
  have no : ∀ d, cl.space d = false → c ≠ d := by
    rintro d hd rfl
    rw [h'.1] at hd
    cases hd
  exact ⟨no _ (mark cl '*'), no _ (mark cl '@'), no _ (mark cl '<'), no _ (mark cl '>'), no _ (mark cl '('), h'.2.1, h'.2.2⟩⟩

theorem texty_plain {s : Str} (h : Plain cl s) : Texty s := ⟨h.chars⟩

theorem texty_class {p : Char → Bool} (hp : ∀ c, c ∈ ['*', '@', '<', '>', '(', '\n', '\r'] → p c = false) {s : Str} (h : ∀ c ∈ s, p c = true) : Texty s :=
  ⟨fun c hc => by
    refine ⟨?_, ?_, ?_, ?_, ?_, ?_, ?_⟩ <;> rintro rfl <;> have := h _ hc <;> rw [hp _ (by decide)] at this <;> cases this⟩

theorem texty_name {s : Str} (h : ∀ c ∈ s, nameChar c = true) : Texty s := texty_class (by decide) h
theorem texty_tag {s : Str} (h : ∀ c ∈ s, letter c = true) : Texty s := texty_class (by decide) h

theorem texty_shown {p : Para} (hp : WfPara cl p) : Texty p.shown := by
  unfold Para.shown
  refine texty_append (texty_plain hp.1) ?_
  have := hp.2
  generalize p.more = more at this
  induction more with
  | nil => exact ⟨by simp⟩
  | cons x more ih =>
    simp only [List.flatMap_cons]
    exact texty_append (texty_append (texty_gap (this x (by simp)).1) (texty_plain (this x (by simp)).2)) (ih fun y hy => this y (by simp [hy]))

theorem shown_first {p : Para} (hp : WfPara cl p) : ∃ c r, p.shown = c :: r ∧ cl.space c = false := by
  obtain ⟨c, r, h, hc⟩ := hp.1.first
  exact ⟨c, r ++ p.more.flatMap fun x => x.1 ++ x.2, by simp [Para.shown, h], hc⟩

theorem lines_last {a : Str} (ha : ∃ r c, a = r ++ [c] ∧ cl.space c = false) : ∀ (more : List (Str × Str)), (∀ x ∈ more, Gap cl x.1 ∧ Plain cl x.2) →
    ∃ r c, (a ++ more.flatMap fun x => x.1 ++ x.2) = r ++ [c] ∧ cl.space c = false
  | [], _ => by simpa using ha
  | x :: more, h => by
    obtain ⟨r, c, hr, hc⟩ := (h x (by simp)).2.last
    have := lines_last (a := a ++ x.1 ++ x.2) ⟨a ++ x.1 ++ r, c, by rw [hr]; simp, hc⟩ more (fun y hy => h y (by simp [hy]))
    simpa using this

theorem shown_last {p : Para} (hp : WfPara cl p) : ∃ r c, p.shown = r ++ [c] ∧ cl.space c = false := lines_last hp.1.last p.more hp.2

/-! The blank line. -/

theorem skip2 {a : Str} (h : Texty a) (b : Str) : replaceAll (re2 cl) (a ++ b) = a ++ replaceAll (re2 cl) b :=
  replaceAll_chars (p := fun c => c ≠ '*') (fun _ s h => re2_other s h) _ _ (fun c hc => (h.chars c hc).1)

/-- An entry behind the star and the space. -/
def body : Entry → Str
  | .param name gap text => "@param ".toList ++ name ++ gap ++ text.written
  | .other tag gap text => '@' :: tag ++ gap ++ text.written

theorem body_param (name gap : Str) (text : Para) : body (.param name gap text) = "@param ".toList ++ name ++ gap ++ text.written := rfl
theorem body_other (tag gap : Str) (text : Para) : body (.other tag gap text) = '@' :: tag ++ gap ++ text.written := rfl
theorem shown_param (name gap : Str) (text : Para) :
    Entry.shown (.param name gap text) = "\n\n_@param_ `".toList ++ name ++ "` — >".toList ++ text.shown := rfl
theorem shown_other (tag gap : Str) (text : Para) : Entry.shown (.other tag gap text) = "\n\n_@".toList ++ tag ++ "_ ".toList ++ text.shown := rfl

theorem written_body (e : Entry) : e.written = "\n * ".toList ++ body e := by
  cases e with
  | param name gap text =>
    show "\n * @param ".toList ++ name ++ gap ++ text.written = "\n * ".toList ++ ("@param ".toList ++ name ++ gap ++ text.written)
    simp
  | other tag gap text =>
    show "\n * @".toList ++ tag ++ gap ++ text.written = "\n * ".toList ++ ('@' :: tag ++ gap ++ text.written)
    simp

theorem re2_body {e : Entry} (he : WfEntry cl e) (b : Str) : replaceAll (re2 cl) (body e ++ b) = body e ++ replaceAll (re2 cl) b := by
  cases e with
  | param name gap text =>
    obtain ⟨_, hn, _, hg, ht⟩ := he
    simp only [body_param, body_other, List.append_assoc]
    rw [replaceAll_chars (p := fun c => c ≠ '*') (fun _ s h => re2_other s h) _ _ (by decide), skip2 (texty_name hn), skip2 (texty_gap hg), re2_para _ ht]
  | other tag gap text =>
    obtain ⟨_, hn, _, _, hg, ht⟩ := he
    simp only [body_param, body_other, List.append_assoc, List.cons_append]
    rw [replaceAll_none (re2_other _ (by decide)), skip2 (texty_tag hn), skip2 (texty_gap hg), re2_para _ ht]

theorem body_at (e : Entry) : ∃ r, body e = '@' :: r := by
  cases e <;> exact ⟨_, rfl⟩

theorem re2_entry {e : Entry} (he : WfEntry cl e) (b : Str) : replaceAll (re2 cl) (e.written ++ b) = e.written ++ replaceAll (re2 cl) b := by
  obtain ⟨r, hr⟩ := body_at e
  rw [written_body, List.append_assoc, show ("\n * ".toList : Str) ++ (body e ++ b) = "\n ".toList ++ ('*' :: ([' '] ++ (body e ++ b))) from rfl,
    replaceAll_chars (p := fun c => c ≠ '*') (fun _ s h => re2_other s h) _ _ (by decide), replaceAll_none,
    replaceAll_chars (p := fun c => c ≠ '*') (fun _ s h => re2_other s h) _ _ (by decide), re2_body he]
  · rfl
  · rw [hr]
    exact re2_star (by simp [blank]) (at_ cl) (by decide)

theorem re2_entries : ∀ (es : List Entry), (∀ e ∈ es, WfEntry cl e) → ∀ b,
    replaceAll (re2 cl) (es.flatMap Entry.written ++ b) = es.flatMap Entry.written ++ replaceAll (re2 cl) b
  | [], _, _ => rfl
  | e :: es, h, b => by
    simp only [List.flatMap_cons, List.append_assoc]
    rw [re2_entry (h e (by simp)), re2_entries es (fun x hx => h x (by simp [hx]))]

theorem re2_end : replaceAll (re2 cl) "\n ".toList = "\n ".toList := by
  have := replaceAll_chars (m := re2 cl) (p := fun c => c ≠ '*') (fun _ s h => re2_other s h) "\n ".toList [] (by decide)
  simpa [replaceAll_nil] using this

/-- After the blank line is recognised. -/
def pass2 (d : Doc) : Str :=
  "* ".toList ++ (d.summary.written ++ ("\n ".toList ++ match d.entries with
    | [] => "*\n ".toList
    | e :: es => "\n\n ".toList ++ (body e ++ (es.flatMap Entry.written ++ "\n ".toList))))

theorem re2_doc {d : Doc} (hd : Wf cl d) : replaceAll (re2 cl) d.written = pass2 d := by
  obtain ⟨summary, entries⟩ := d
  obtain ⟨hs, he⟩ := hd
  obtain ⟨c, r, hcr, hc⟩ := hs.1.first
  have hstar : c ≠ '*' := (hs.1.chars c (by rw [hcr]; simp)).1
  simp only [Doc.written, pass2, List.append_assoc] at hs he ⊢
  rw [show ∀ x : Str, "* ".toList ++ x = '*' :: ([' '] ++ x) from fun _ => rfl, replaceAll_none,
    replaceAll_chars (p := fun c => c ≠ '*') (fun _ s h => re2_other s h) [' '] _ (by decide), re2_para _ hs]
  · rw [show ∀ x : Str, "\n *".toList ++ x = "\n ".toList ++ '*' :: x from fun _ => rfl,
      replaceAll_chars (p := fun c => c ≠ '*') (fun _ s h => re2_other s h) "\n ".toList _ (by decide)]
    cases entries with
    | nil =>
      have : re2 cl ('*' :: "\n ".toList) = none := by simp [re2, List.dropWhile, nl, blank]
      simp only [List.flatMap_nil, List.nil_append]
      rw [replaceAll_none this, re2_end]
      rfl
    | cons e es =>
      have : re2 cl ('*' :: ((e :: es).flatMap Entry.written ++ "\n ".toList)) =
          some ("\n\n".toList, ' ' :: (body e ++ (es.flatMap Entry.written ++ "\n ".toList))) := by
        simp [written_body, re2, List.dropWhile, List.takeWhile, nl, blank, star]
      rw [replaceAll_some shortens2 this, replaceAll_none (re2_other _ (by decide)), re2_body (he e (by simp)),
        re2_entries es (fun x hx => he x (by simp [hx])), re2_end]
      rfl
  · unfold Para.written
    rw [hcr]
    simp only [List.append_assoc, List.cons_append]
    exact re2_star (w := [' ']) (by simp [blank]) hc hstar

/-! The stars. -/

theorem re3_other {c : Char} (s : Str) (h : c ≠ '\n') (h' : c ≠ '\r') : re3 cl (c :: s) = none := by
  unfold re3
  split
  · rename_i heq; cases heq; exact absurd rfl h'
  · rename_i heq; cases heq; exact absurd rfl h
  · rfl

theorem skip3 {a : Str} (h : Texty a) (b : Str) : replaceAll (re3 cl) (a ++ b) = a ++ replaceAll (re3 cl) b :=
  replaceAll_chars (p := fun c => c ≠ '\n' ∧ c ≠ '\r') (fun _ s h => re3_other s h.1 h.2) _ _ (fun c hc => (h.chars c hc).2.2.2.2.2)

theorem re3_star (s : Str) : replaceAll (re3 cl) ("\n *".toList ++ s) = replaceAll (re3 cl) s := by
  have : re3 cl ('\n' :: ' ' :: '*' :: s) = some ([], s) := by simp [re3, blankStar, List.dropWhile, blank, star]
  exact replaceAll_some shortens3 this

theorem re3_para (p : Para) (hp : WfPara cl p) (b : Str) : replaceAll (re3 cl) (p.written ++ b) = p.shown ++ replaceAll (re3 cl) b := by
  unfold Para.written Para.shown
  rw [List.append_assoc, skip3 (texty_plain hp.1), List.append_assoc]
  congr 1
  have := hp.2
  generalize p.more = more at this
  induction more with
  | nil => rfl
  | cons x more ih =>
    obtain ⟨hg, hx⟩ := this x (by simp)
    simp only [List.flatMap_cons, List.append_assoc]
    rw [re3_star, skip3 (texty_gap hg), skip3 (texty_plain hx)]
    have := ih (fun y hy => this y (by simp [hy]))
    simp only [List.append_assoc] at this
    rw [this]

/-- An entry without the stars. -/
def body3 : Entry → Str
  | .param name gap text => "@param ".toList ++ (name ++ (gap ++ text.shown))
  | .other tag gap text => '@' :: (tag ++ (gap ++ text.shown))

theorem body3_param (name gap : Str) (text : Para) : body3 (.param name gap text) = "@param ".toList ++ (name ++ (gap ++ text.shown)) := rfl
theorem body3_other (tag gap : Str) (text : Para) : body3 (.other tag gap text) = '@' :: (tag ++ (gap ++ text.shown)) := rfl

theorem re3_body {e : Entry} (he : WfEntry cl e) (b : Str) : replaceAll (re3 cl) (body e ++ b) = body3 e ++ replaceAll (re3 cl) b := by
  cases e with
  | param name gap text =>
    obtain ⟨_, hn, _, hg, ht⟩ := he
    simp only [body_param, body_other, body3_param, body3_other, List.append_assoc]
    rw [replaceAll_chars (p := fun c => c ≠ '\n' ∧ c ≠ '\r') (fun _ s h => re3_other s h.1 h.2) _ _ (by decide), skip3 (texty_name hn),
      skip3 (texty_gap hg), re3_para _ ht]
  | other tag gap text =>
    obtain ⟨_, hn, _, _, hg, ht⟩ := he
    simp only [body_param, body_other, body3_param, body3_other, List.append_assoc, List.cons_append]
    rw [replaceAll_none (re3_other _ (by decide) (by decide)), skip3 (texty_tag hn), skip3 (texty_gap hg), re3_para _ ht]

theorem re3_entries : ∀ (es : List Entry), (∀ e ∈ es, WfEntry cl e) → ∀ b,
    replaceAll (re3 cl) (es.flatMap Entry.written ++ b) = (es.flatMap fun e => ' ' :: body3 e) ++ replaceAll (re3 cl) b
  | [], _, _ => rfl
  | e :: es, h, b => by
    simp only [List.flatMap_cons, List.append_assoc, List.cons_append]
    rw [written_body, List.append_assoc, show ∀ x : Str, "\n * ".toList ++ x = "\n *".toList ++ ' ' :: x from fun _ => rfl, re3_star,
      replaceAll_none (re3_other _ (by decide) (by decide)), re3_body (h e (by simp))]
    have := re3_entries es (fun x hx => h x (by simp [hx])) b
    rw [this]

theorem re3_end : replaceAll (re3 cl) "\n ".toList = "\n ".toList := by
  have h1 : re3 cl ['\n', ' '] = none := by simp [re3, blankStar, List.dropWhile, blank]
  have h2 : re3 cl [' '] = none := by simp [re3]
  rw [show ("\n ".toList : Str) = '\n' :: ' ' :: [] from rfl, replaceAll_none h1, replaceAll_none h2, replaceAll_nil]

/-- After the stars are removed. -/
def pass3 (d : Doc) : Str :=
  d.summary.shown ++ ((match d.entries with
    | [] => []
    | e :: es => "\n \n\n ".toList ++ (body3 e ++ (es.flatMap fun e => ' ' :: body3 e))) ++ "\n ".toList)

theorem re3_blank {b r : Str} (h : b = '@' :: r) : replaceAll (re3 cl) ("\n \n\n ".toList ++ b) = "\n \n\n ".toList ++ replaceAll (re3 cl) b := by
  subst h
  have h1 : re3 cl ('\n' :: ' ' :: '\n' :: '\n' :: ' ' :: '@' :: r) = none := by simp [re3, blankStar, List.dropWhile, nl, blank, at_]
  have h3 : re3 cl ('\n' :: '\n' :: ' ' :: '@' :: r) = none := by simp [re3, blankStar, List.dropWhile, nl, blank, at_]
  have h4 : re3 cl ('\n' :: ' ' :: '@' :: r) = none := by simp [re3, blankStar, List.dropWhile, blank, at_]
  show replaceAll (re3 cl) ('\n' :: ' ' :: '\n' :: '\n' :: ' ' :: '@' :: r) = _
  rw [replaceAll_none h1, replaceAll_none (re3_other _ (by decide) (by decide)), replaceAll_none h3, replaceAll_none h4,
    replaceAll_none (re3_other _ (by decide) (by decide))]
  rfl

theorem re3_doc {d : Doc} (hd : Wf cl d) : replaceAll (re3 cl) (pass2 d) = "* ".toList ++ pass3 d := by
  obtain ⟨summary, entries⟩ := d
  obtain ⟨hs, he⟩ := hd
  simp only [pass2, pass3] at hs he ⊢
  rw [replaceAll_chars (p := fun c => c ≠ '\n' ∧ c ≠ '\r') (fun _ s h => re3_other s h.1 h.2) _ _ (by decide), re3_para _ hs]
  congr 2
  cases entries with
  | nil =>
    show replaceAll (re3 cl) ("\n *".toList ++ "\n ".toList) = _
    rw [re3_star, re3_end]
    rfl
  | cons e es =>
    obtain ⟨r, hr⟩ := body_at e
    show replaceAll (re3 cl) ("\n \n\n ".toList ++ (body e ++ (es.flatMap Entry.written ++ "\n ".toList))) = _
    rw [re3_blank (r := r ++ (es.flatMap Entry.written ++ "\n ".toList)) (by rw [hr]; rfl), re3_body (he e (by simp)),
      re3_entries es (fun x hx => he x (by simp [hx])), re3_end]
    simp only [List.append_assoc]

/-! Angle brackets and calls: there are none. -/

theorem re5_other {c : Char} (s : Str) (h : c ≠ '<') : re5 (c :: s) = none := by
  unfold re5
  split
  · rename_i heq; cases heq; exact absurd rfl h
  · rfl

theorem re6_other {c : Char} (s : Str) (h : c ≠ '>') : re6 (c :: s) = none := by
  unfold re6
  split
  · rename_i heq; cases heq; exact absurd rfl h
  · rfl

theorem re5_id {s : Str} (h : '<' ∉ s) : replaceAll re5 s = s := by
  have := replaceAll_chars (m := re5) (p := fun c => c ≠ '<') (fun c s h => re5_other s h) s [] (fun c hc e => h (e ▸ hc))
  simpa [replaceAll_nil] using this

theorem re6_id {s : Str} (h : '>' ∉ s) : replaceAll re6 s = s := by
  have := replaceAll_chars (m := re6) (p := fun c => c ≠ '>') (fun c s h => re6_other s h) s [] (fun c hc e => h (e ▸ hc))
  simpa [replaceAll_nil] using this

theorem re9_id {s : Str} (h : '(' ∉ s) : replaceAll (re9 cl) s = s := by
  have := replaceAll_skip (m := re9 cl) s [] (fun x c y e => by
    cases hm : re9 cl (c :: (y ++ [])) with
    | none => rfl
    | some p =>
      obtain ⟨call, hc, _, hp, _⟩ := re9_some hm
      exfalso
      apply h
      rw [e]
      have : '(' ∈ c :: (y ++ []) := by rw [hc]; simp [hp]
      simp only [List.append_nil] at this
      simp only [List.mem_append]
      exact Or.inr this)
  simpa [replaceAll_nil] using this

theorem not_mem_texty {a : Str} (h : Texty a) : '<' ∉ a ∧ '>' ∉ a ∧ '(' ∉ a :=
  ⟨fun hm => (h.chars _ hm).2.2.1 rfl, fun hm => (h.chars _ hm).2.2.2.1 rfl, fun hm => (h.chars _ hm).2.2.2.2.1 rfl⟩

theorem not_mem_body3 {e : Entry} (he : WfEntry cl e) : '<' ∉ body3 e ∧ '>' ∉ body3 e := by
  cases e with
  | param name gap text =>
    obtain ⟨_, hn, _, hg, ht⟩ := he
    simp [body3_param, body3_other, not_mem_texty (texty_name hn), not_mem_texty (texty_gap hg), not_mem_texty (texty_shown ht)]
  | other tag gap text =>
    obtain ⟨_, hn, _, _, hg, ht⟩ := he
    simp [body3_param, body3_other, not_mem_texty (texty_tag hn), not_mem_texty (texty_gap hg), not_mem_texty (texty_shown ht)]

theorem not_mem_pass3 {d : Doc} (hd : Wf cl d) : '<' ∉ pass3 d ∧ '>' ∉ pass3 d := by
  obtain ⟨summary, entries⟩ := d
  obtain ⟨hs, he⟩ := hd
  simp only [pass3] at hs he ⊢
  have hs := not_mem_texty (texty_shown hs)
  cases entries with
  | nil => simp [hs]
  | cons e es =>
    have h1 := not_mem_body3 (he e (by simp))
    have h2 : ∀ x ∈ es, '<' ∉ body3 x ∧ '>' ∉ body3 x := fun x hx => not_mem_body3 (he x (by simp [hx]))
    simp only [List.mem_append, List.mem_flatMap, List.mem_cons, not_or, not_exists, not_and]
    refine ⟨⟨hs.1, ⟨by decide, h1.1, fun x hx => ⟨by decide, (h2 x hx).1⟩⟩, by decide⟩, ⟨hs.2.1, ⟨by decide, h1.2, fun x hx => ⟨by decide, (h2 x hx).2⟩⟩, by decide⟩⟩

/-! The tags. -/

theorem skip7 {a : Str} (h : Texty a) (hl : ∃ r c, a = r ++ [c] ∧ cl.space c = false) (b : Str) :
    replaceAll (re7 cl) (a ++ b) = a ++ replaceAll (re7 cl) b := by
  refine replaceAll_skip a b ?_
  intro x c y e
  obtain ⟨r, z, hr, hz⟩ := hl
  -- the suffix ends with a character that is not white space
  have hsuf : ∃ w d t, c :: y = w ++ d :: t ∧ (∀ f ∈ w, cl.space f = true) ∧ cl.space d = false := by
    have hz' : z ∈ c :: y := by
      have : (x ++ c :: y).getLast? = some z := by rw [← e, hr]; simp
      rw [List.getLast?_append] at this
      cases hy : (c :: y).getLast? with
      | none => simp at hy
      | some q =>
        rw [hy] at this
        simp only [Option.some_or, Option.some.injEq] at this
        subst this
        exact List.mem_of_getLast? hy
    have hd : (c :: y).dropWhile cl.space ≠ [] := by
      intro hnil
      have h1 : c :: y = (c :: y).takeWhile cl.space := by
        conv => lhs; rw [drop_take cl.space (c :: y), hnil, List.append_nil]
      have h2 : z ∈ (c :: y).takeWhile cl.space := by rw [← h1]; exact hz'
      have := mem_take h2
      rw [hz] at this
      cases this
    obtain ⟨d, t, hdt⟩ := List.exists_cons_of_ne_nil hd
    refine ⟨(c :: y).takeWhile cl.space, d, t, ?_, fun f hf => mem_take hf, ?_⟩
    · rw [← hdt, ← drop_take]
    · have := List.head?_dropWhile_not cl.space (c :: y)
      rw [hdt] at this
      simpa using this
  obtain ⟨w, d, t, hw, hws, hd⟩ := hsuf
  have hda : d ≠ '@' := (h.chars d (by rw [e, hw]; simp)).2.1
  unfold re7
  rw [show c :: (y ++ b) = w ++ d :: (t ++ b) by rw [← List.cons_append, hw]; simp,
    dropWhile_spaces w _ hws (by intro f r e; cases e; exact hd)]
  split
  · rename_i heq; cases heq; exact absurd rfl hda
  · rfl

theorem range_not_space {c : Char} (h : 33 ≤ c.toNat ∧ c.toNat < 128) : Verif.Ide.Docs.isSpace c = false := by
  simp only [Verif.Ide.Docs.isSpace, Verif.Text.whiteSpace, Bool.or_eq_false_iff, Bool.and_eq_false_iff, decide_eq_false_iff_not, beq_eq_false_iff_ne]
  omega

theorem letter_not_space {c : Char} (h : letter c = true) : cl.space c = false := by
  have hlt : c.toNat < 128 := by
    simp only [letter, Bool.or_eq_true, Bool.and_eq_true, decide_eq_true_eq] at h
    rcases h with ⟨_, h⟩ | ⟨_, h⟩ <;> (have h' : c.toNat ≤ _ := h; simp at h'; omega)
  rw [cl.space_ascii c hlt]
  refine range_not_space ⟨?_, hlt⟩
  simp only [letter, Bool.or_eq_true, Bool.and_eq_true, decide_eq_true_eq] at h
  rcases h with ⟨h, _⟩ | ⟨h, _⟩ <;> (have h' : _ ≤ c.toNat := h; simp at h'; omega)

theorem name_not_space {c : Char} (h : nameChar c = true) : cl.space c = false := by
  simp only [nameChar, Bool.or_eq_true, beq_iff_eq] at h
  rcases h with ((h | h) | rfl) | rfl
  · exact letter_not_space h
  · have hlt : c.toNat < 128 := by
      simp only [digit, Bool.and_eq_true, decide_eq_true_eq] at h
      have h' : c.toNat ≤ _ := h.2
      simp at h'
      omega
    rw [cl.space_ascii c hlt]
    refine range_not_space ⟨?_, hlt⟩
    simp only [digit, Bool.and_eq_true, decide_eq_true_eq] at h
    have h' : _ ≤ c.toNat := h.1
    simp at h'
    omega
  · exact mark cl '_'
  · exact mark cl '.'

theorem space_not_letter {c : Char} (h : cl.space c = true) : letter c = false := by
  cases hl : letter c with
  | false => rfl
  | true => rw [letter_not_space hl] at h; cases h

theorem space_not_name {c : Char} (h : cl.space c = true) : nameChar c = false := by
  cases hl : nameChar c with
  | false => rfl
  | true => rw [name_not_space hl] at h; cases h

theorem gap_cons {s : Str} (h : Gap cl s) : ∃ c r, s = c :: r ∧ cl.space c = true ∧ ∀ d ∈ r, cl.space d = true := by
  obtain ⟨c, r, e⟩ := List.exists_cons_of_ne_nil h.some
  exact ⟨c, r, e, (h.chars c (by rw [e]; simp)).1, fun d hd => (h.chars d (by rw [e]; simp [hd])).1⟩

/-- A tag with white space before and behind it. -/
theorem re7_tag {w tag gap rest : Str} (hw : ∀ c ∈ w, cl.space c = true) (hw' : w ≠ []) (ht : tag ≠ []) (htl : ∀ c ∈ tag, letter c = true)
    (hg : Gap cl gap) (hr : ∃ c r, rest = c :: r ∧ cl.space c = false) :
    replaceAll (re7 cl) (w ++ '@' :: (tag ++ (gap ++ rest))) = "\n\n_@".toList ++ (tag ++ ("_ ".toList ++ replaceAll (re7 cl) rest)) := by
  obtain ⟨g, gs, rfl, hg1, hg2⟩ := gap_cons hg
  obtain ⟨c, ws, rfl⟩ := List.exists_cons_of_ne_nil hw'
  obtain ⟨f, r, rfl, hf⟩ := hr
  have : re7 cl (c :: (ws ++ '@' :: (tag ++ (g :: gs ++ f :: r)))) = some ("\n\n_@".toList ++ tag ++ "_ ".toList, f :: r) := by
    unfold re7
    rw [← List.cons_append, dropWhile_spaces (c :: ws) _ hw (by intro d r e; cases e; exact at_ cl)]
    simp only [tagMatch]
    rw [takeWhile_spaces tag _ htl (by intro d r e; cases e; exact space_not_letter hg1),
      dropWhile_spaces tag _ htl (by intro d r e; cases e; exact space_not_letter hg1)]
    simp only [ht, if_false, List.cons_append, hg1, if_true]
    rw [dropWhile_spaces gs _ hg2 (by intro d r e; cases e; exact hf)]
  rw [List.cons_append, replaceAll_some shortens7 this]
  simp only [List.append_assoc]

/-- An entry after the tags are recognised. -/
def body7 : Entry → Str
  | .param name gap text => "\n\n_@param_ ".toList ++ (name ++ (gap ++ text.shown))
  | .other tag _ text => "\n\n_@".toList ++ (tag ++ ("_ ".toList ++ text.shown))

theorem body7_param (name gap : Str) (text : Para) : body7 (.param name gap text) = "\n\n_@param_ ".toList ++ (name ++ (gap ++ text.shown)) := rfl
theorem body7_other (tag gap : Str) (text : Para) : body7 (.other tag gap text) = "\n\n_@".toList ++ (tag ++ ("_ ".toList ++ text.shown)) := rfl

theorem re7_body {e : Entry} (he : WfEntry cl e) {w : Str} (hw : ∀ c ∈ w, cl.space c = true) (hw' : w ≠ []) (b : Str) :
    replaceAll (re7 cl) (w ++ (body3 e ++ b)) = body7 e ++ replaceAll (re7 cl) b := by
  cases e with
  | param name gap text =>
    obtain ⟨hn0, hn, _, hg, ht⟩ := he
    obtain ⟨c, r, hcr⟩ := List.exists_cons_of_ne_nil hn0
    have hl : ∃ r c, name ++ (gap ++ text.shown) = r ++ [c] ∧ cl.space c = false := by
      obtain ⟨r, c, h, hc⟩ := shown_last ht
      exact ⟨name ++ (gap ++ r), c, by rw [h]; simp, hc⟩
    have := re7_tag (cl := cl) (w := w) (tag := "param".toList) (gap := " ".toList) (rest := (name ++ (gap ++ text.shown)) ++ b) hw hw' (by decide) (by decide)
      ⟨by simp [blank], by decide⟩ ⟨c, r ++ (gap ++ text.shown) ++ b, by rw [hcr]; simp, name_not_space (hn c (by rw [hcr]; simp))⟩
    simp only [body3_param, body3_other, body7_param, body7_other]
    rw [skip7 (texty_append (texty_name hn) (texty_append (texty_gap hg) (texty_shown ht))) hl] at this
    simp only [List.append_assoc] at this ⊢
    exact this
  | other tag gap text =>
    obtain ⟨ht0, htl, _, _, hg, ht⟩ := he
    obtain ⟨c, r, hcr, hc⟩ := shown_first ht
    have := re7_tag (cl := cl) (w := w) (tag := tag) (gap := gap) (rest := text.shown ++ b) hw hw' ht0 htl hg ⟨c, r ++ b, by rw [hcr]; rfl, hc⟩
    rw [skip7 (texty_shown ht) (shown_last ht)] at this
    simp only [body3_param, body3_other, body7_param, body7_other, List.append_assoc, List.cons_append] at this ⊢
    exact this

theorem re7_entries : ∀ (es : List Entry), (∀ e ∈ es, WfEntry cl e) → ∀ b,
    replaceAll (re7 cl) ((es.flatMap fun e => ' ' :: body3 e) ++ b) = es.flatMap body7 ++ replaceAll (re7 cl) b
  | [], _, _ => rfl
  | e :: es, h, b => by
    have := re7_body (h e (by simp)) (w := [' ']) (by simp [blank]) (by simp) ((es.flatMap fun e => ' ' :: body3 e) ++ b)
    simp only [List.flatMap_cons, List.append_assoc, List.cons_append, List.nil_append] at this ⊢
    rw [this, re7_entries es (fun x hx => h x (by simp [hx]))]

theorem re7_end : replaceAll (re7 cl) "\n ".toList = "\n ".toList := by
  have h1 : re7 cl ['\n', ' '] = none := by simp [re7, List.dropWhile, blank, nl]
  have h2 : re7 cl [' '] = none := by simp [re7, List.dropWhile, blank]
  rw [show ("\n ".toList : Str) = '\n' :: ' ' :: [] from rfl, replaceAll_none h1, replaceAll_none h2, replaceAll_nil]

def pass7 (d : Doc) : Str := (' ' :: d.summary.shown) ++ (d.entries.flatMap body7 ++ "\n ".toList)

theorem re7_doc {d : Doc} (hd : Wf cl d) : replaceAll (re7 cl) (' ' :: pass3 d) = pass7 d := by
  obtain ⟨summary, entries⟩ := d
  obtain ⟨hs, he⟩ := hd
  simp only [pass3, pass7] at hs he ⊢
  have ht : Texty (' ' :: summary.shown) := texty_append (a := [' ']) ⟨by decide⟩ (texty_shown hs)
  have hl : ∃ r c, (' ' :: summary.shown) = r ++ [c] ∧ cl.space c = false := by
    obtain ⟨r, c, h, hc⟩ := shown_last hs
    exact ⟨' ' :: r, c, by rw [h]; rfl, hc⟩
  rw [← List.cons_append, skip7 ht hl]
  congr 1
  cases entries with
  | nil => exact re7_end
  | cons e es =>
    have := re7_body (he e (by simp)) (w := "\n \n\n ".toList) (by simp [blank, nl]) (by decide) ((es.flatMap fun e => ' ' :: body3 e) ++ "\n ".toList)
    simp only [List.append_assoc, List.flatMap_cons] at this ⊢
    rw [this, re7_entries es (fun x hx => he x (by simp [hx])), re7_end]

/-! The parameters. -/

theorem re8_other {c : Char} (s : Str) (h : ∀ t, c :: s ≠ '_' :: '@' :: t) : re8 cl (c :: s) = none := by
  unfold re8
  split
  · rename_i heq; exact absurd heq (h _)
  · rfl

theorem skip8 {a : Str} (h : ∀ c ∈ a, c ≠ '@') {b : Str} (hb : ∀ r, b ≠ '@' :: r) : replaceAll (re8 cl) (a ++ b) = a ++ replaceAll (re8 cl) b := by
  refine replaceAll_skip a b ?_
  intro x c y e
  refine re8_other _ ?_
  intro t ht
  simp only [List.cons.injEq] at ht
  cases y with
  | nil => exact hb t ht.2
  | cons z y =>
    have := ht.2
    simp only [List.cons_append, List.cons.injEq] at this
    exact h z (by rw [e]; simp) this.1

theorem texty_at {a : Str} (h : Texty a) : ∀ c ∈ a, c ≠ '@' := fun c hc => (h.chars c hc).2.1

theorem re8_param {name gap rest : Str} (hn0 : name ≠ []) (hn : ∀ c ∈ name, nameChar c = true) (hg : Gap cl gap)
    (hr : ∃ c r, rest = c :: r ∧ cl.space c = false) :
    replaceAll (re8 cl) ("_@param_ ".toList ++ (name ++ (gap ++ rest))) = "_@param_ `".toList ++ (name ++ ("` — >".toList ++ replaceAll (re8 cl) rest)) := by
  obtain ⟨g, gs, rfl, hg1, hg2⟩ := gap_cons hg
  obtain ⟨f, r, rfl, hf⟩ := hr
  have e : ∀ x : Str, "_@param_ ".toList ++ x = '_' :: '@' :: 'p' :: 'a' :: 'r' :: 'a' :: 'm' :: '_' :: ' ' :: x := fun x => by simp
  have : re8 cl ('_' :: '@' :: 'p' :: 'a' :: 'r' :: 'a' :: 'm' :: '_' :: ' ' :: (name ++ (g :: gs ++ f :: r))) =
      some ("_@param_ `".toList ++ name ++ "` — >".toList, f :: r) := by
    simp only [re8]
    rw [takeWhile_spaces name _ hn (by intro d r e; cases e; exact space_not_name hg1),
      dropWhile_spaces name _ hn (by intro d r e; cases e; exact space_not_name hg1),
      dropWhile_spaces (g :: gs) (f :: r) (by intro d hd; simp only [List.mem_cons] at hd; rcases hd with rfl | hd; exact hg1; exact hg2 d hd)
        (by intro d r e; cases e; exact hf), if_neg hn0]
  rw [e, replaceAll_some shortens8 this]
  simp only [List.append_assoc]

/-- What follows an entry does not start with `@`. -/
def NoAt (b : Str) : Prop := ∀ r, b ≠ '@' :: r

theorem re8_tag {tag rest : Str} (htl : ∀ c ∈ tag, letter c = true) (hp : tag ≠ "param".toList) : re8 cl ('_' :: '@' :: (tag ++ ("_ ".toList ++ rest))) = none := by
  cases h : re8 cl ('_' :: '@' :: (tag ++ ("_ ".toList ++ rest))) with
  | none => rfl
  | some p =>
    exfalso
    obtain ⟨n, w, e, _⟩ := re8_some h
    have e' : tag ++ ("_ ".toList ++ rest) = "param".toList ++ ("_ ".toList ++ (n ++ w ++ p.2)) := by
      have : "_@param_ ".toList ++ n ++ w ++ p.2 = '_' :: '@' :: ("param".toList ++ ("_ ".toList ++ (n ++ w ++ p.2))) := by simp
      rw [this] at e
      simpa using e
    have h1 := takeWhile_spaces (p := letter) tag ("_ ".toList ++ rest) htl (by intro c r e; cases e; decide)
    have h2 := takeWhile_spaces (p := letter) "param".toList ("_ ".toList ++ (n ++ w ++ p.2)) (by decide) (by intro c r e; cases e; decide)
    rw [e', h2] at h1
    exact hp h1.symm

theorem re8_body {e : Entry} (he : WfEntry cl e) {b : Str} (hb : NoAt b) : replaceAll (re8 cl) (body7 e ++ b) = e.shown ++ replaceAll (re8 cl) b := by
  cases e with
  | param name gap text =>
    obtain ⟨hn0, hn, _, hg, ht⟩ := he
    obtain ⟨c, r, hcr, hc⟩ := shown_first ht
    simp only [body7_param, body7_other, shown_param, shown_other, List.append_assoc]
    rw [show ∀ x : Str, "\n\n_@param_ ".toList ++ x = "\n\n".toList ++ ("_@param_ ".toList ++ x) from fun _ => rfl,
      skip8 (by decide) (by intro r h; cases h), re8_param hn0 hn hg ⟨c, r ++ b, by rw [hcr]; rfl, hc⟩, skip8 (texty_at (texty_shown ht)) hb]
    rfl
  | other tag gap text =>
    obtain ⟨ht0, htl, hp, _, hg, ht⟩ := he
    simp only [body7_param, body7_other, shown_param, shown_other, List.append_assoc]
    rw [show ∀ x : Str, "\n\n_@".toList ++ x = "\n\n".toList ++ ('_' :: '@' :: x) from fun _ => rfl, skip8 (by decide) (by intro r h; cases h),
      replaceAll_none (re8_tag htl hp), replaceAll_none (re8_other _ (by intro t h; cases h))]
    have hn : NoAt ("_ ".toList ++ (text.shown ++ b)) := by intro r h; cases h
    have hn' : NoAt (text.shown ++ b) := by
      obtain ⟨c, r, hcr, hc⟩ := shown_first ht
      intro r' h
      rw [hcr] at h
      cases h
      exact texty_at (texty_shown ht) '@' (by rw [hcr]; simp) rfl
    rw [skip8 (texty_at (texty_tag htl)) hn, skip8 (by decide) hn', skip8 (texty_at (texty_shown ht)) hb]
    rfl

theorem noAt_entries (es : List Entry) : NoAt (es.flatMap body7 ++ "\n ".toList) := by
  intro r h
  cases es with
  | nil => cases h
  | cons e es =>
    rw [List.flatMap_cons] at h
    cases e <;> cases h

theorem re8_entries : ∀ (es : List Entry), (∀ e ∈ es, WfEntry cl e) →
    replaceAll (re8 cl) (es.flatMap body7 ++ "\n ".toList) = es.flatMap Entry.shown ++ "\n ".toList
  | [], _ => by
    have := skip8 (cl := cl) (a := "\n ".toList) (by decide) (b := []) (by intro r h; cases h)
    simpa [replaceAll_nil] using this
  | e :: es, h => by
    simp only [List.flatMap_cons, List.append_assoc]
    rw [re8_body (h e (by simp)) (noAt_entries es), re8_entries es (fun x hx => h x (by simp [hx]))]

theorem re8_doc {d : Doc} (hd : Wf cl d) : replaceAll (re8 cl) (pass7 d) = d.shown := by
  unfold pass7 Doc.shown
  have := skip8 (cl := cl) (a := [' '] ++ d.summary.shown) (texty_at (texty_append (a := [' ']) ⟨by decide⟩ (texty_shown hd.1))) (noAt_entries d.entries)
  rw [re8_entries _ hd.2] at this
  simpa using this

theorem not_mem_shown {d : Doc} (hd : Wf cl d) : '(' ∉ d.shown := by
  unfold Doc.shown
  simp only [List.mem_append, List.mem_flatMap, not_or, not_exists, not_and]
  refine ⟨⟨⟨by decide, (not_mem_texty (texty_shown hd.1)).2.2⟩, ?_⟩, by decide⟩
  intro e he
  have := hd.2 e he
  cases e with
  | param name gap text =>
    obtain ⟨hn0, hn, _, hg, ht⟩ := this
    simp [shown_param, shown_other, not_mem_texty (texty_name hn), not_mem_texty (texty_shown ht)]
  | other tag gap text =>
    obtain ⟨ht0, htl, hp, _, hg, ht⟩ := this
    simp [shown_param, shown_other, not_mem_texty (texty_tag htl), not_mem_texty (texty_shown ht)]

/-! The word DEPRECATED: it does not occur. -/

def Clean (s : Str) : Prop := ¬ "DEPRECATED".toList <:+: s

theorem re10_id {s : Str} (h : Clean s) : replaceAll re10 s = s := by
  have := replaceAll_skip (m := re10) s [] (fun x c y e => by
    cases hm : re10 (c :: (y ++ [])) with
    | none => rfl
    | some p =>
      exfalso
      obtain ⟨hc, _⟩ := re10_some hm
      refine h ⟨x, p.2, ?_⟩
      rw [e, ← List.append_nil y, hc, List.append_assoc])
  simpa [replaceAll_nil] using this

theorem infix_split {p a b : Str} {c : Char} (hc : c ∉ p) (h : p <:+: a ++ c :: b) : p <:+: a ∨ p <:+: b := by
  obtain ⟨x, y, e⟩ := h
  rw [List.append_assoc, List.append_eq_append_iff] at e
  rcases e with ⟨z, e1, e2⟩ | ⟨z, e1, e2⟩
  · rw [List.append_eq_append_iff] at e2
    rcases e2 with ⟨w, e3, _⟩ | ⟨w, e3, e4⟩
    · exact Or.inl ⟨x, w, by rw [e1, e3, List.append_assoc]⟩
    · cases w with
      | nil => exact Or.inl ⟨x, [], by rw [e1, e3]; simp⟩
      | cons d w =>
        simp only [List.cons_append, List.cons.injEq] at e4
        exact absurd (by rw [e3, ← e4.1]; simp) hc
  · cases z with
    | nil =>
      simp only [List.nil_append] at e2
      cases p with
      | nil => exact Or.inl ⟨[], a, rfl⟩
      | cons d p =>
        simp only [List.cons_append, List.cons.injEq] at e2
        exact absurd (by rw [e2.1]; simp) hc
    | cons d z =>
      simp only [List.cons_append, List.cons.injEq] at e2
      exact Or.inr ⟨z, y, by rw [e2.2, List.append_assoc]⟩

theorem clean_sep {a b : Str} {c : Char} (hc : c ∉ "DEPRECATED".toList) (ha : Clean a) (hb : Clean b) : Clean (a ++ c :: b) :=
  fun h => (infix_split hc h).elim ha hb

theorem clean_nil : Clean [] := by unfold Clean; decide +kernel

/-- Texts with something between them that has no letters of the word. -/
theorem clean_between {a b : Str} (ha : Clean a) (hb : Clean b) : ∀ (g : Str), g ≠ [] → (∀ c ∈ g, c ∉ "DEPRECATED".toList) → Clean (a ++ (g ++ b))
  | [c], _, h => clean_sep (h c (by simp)) ha hb
  | c :: d :: g, _, h => by
    have := clean_between clean_nil hb (d :: g) (by simp) (fun e he => h e (by simp only [List.mem_cons] at he ⊢; exact Or.inr he))
    exact clean_sep (h c (by simp)) ha this

theorem gap_letters {g : Str} (hg : Gap cl g) : ∀ c ∈ g, c ∉ "DEPRECATED".toList := by
  intro c hc hm
  have h1 : letter c = true := by
    have : ∀ c ∈ "DEPRECATED".toList, letter c = true := by decide
    exact this c hm
  have := (hg.chars c hc).1
  rw [letter_not_space h1] at this
  cases this

theorem clean_para {p : Para} (hp : WfPara cl p) : Clean p.shown := by
  unfold Para.shown
  have h1 := hp.1.notDeprecated
  have h2 := hp.2
  generalize p.head = a at h1
  generalize p.more = more at h2
  induction more generalizing a with
  | nil => rw [List.flatMap_nil, List.append_nil]; exact h1
  | cons x more ih =>
    have := clean_between h1 (h2 x (by simp)).2.notDeprecated x.1 (h2 x (by simp)).1.some (gap_letters (h2 x (by simp)).1)
    have := ih _ this (fun y hy => h2 y (by simp [hy]))
    simpa using this

theorem clean_entry {e : Entry} (he : WfEntry cl e) {b : Str} (hb : Clean b) (h0 : ∃ c r, b = c :: r ∧ c = '\n') : ∀ {a : Str}, Clean a → Clean (a ++ (e.shown ++ b)) := by
  intro a ha
  obtain ⟨c, r, rfl, rfl⟩ := h0
  have hr : Clean r := fun h => hb (h.trans (List.suffix_cons _ _).isInfix)
  cases e with
  | param name gap text =>
    obtain ⟨_, _, hn, _, ht⟩ := he
    have h1 := clean_sep (c := '\n') (by decide) (clean_para ht) hr
    have h2 := clean_between (g := "` — >".toList) (a := name) hn h1 (by decide) (by decide)
    have h3 := clean_between (g := "_ `".toList) (a := "param".toList) (by unfold Clean; decide +kernel) h2 (by decide) (by decide)
    have h4 := clean_between (g := "\n\n_@".toList) ha h3 (by decide) (by decide)
    rw [shown_param]
    simpa using h4
  | other tag gap text =>
    obtain ⟨_, _, _, hn, _, ht⟩ := he
    have h1 := clean_sep (c := '\n') (by decide) (clean_para ht) hr
    have h2 := clean_between (g := "_ ".toList) (a := tag) hn h1 (by decide) (by decide)
    have h4 := clean_between (g := "\n\n_@".toList) ha h2 (by decide) (by decide)
    rw [shown_other]
    simpa using h4

theorem clean_entries : ∀ (es : List Entry), (∀ e ∈ es, WfEntry cl e) →
    Clean (es.flatMap Entry.shown ++ "\n ".toList) ∧ ∃ c r, es.flatMap Entry.shown ++ "\n ".toList = c :: r ∧ c = '\n'
  | [], _ => ⟨by unfold Clean; decide +kernel, '\n', [' '], rfl, rfl⟩
  | e :: es, h => by
    obtain ⟨h1, h2⟩ := clean_entries es (fun x hx => h x (by simp [hx]))
    have := clean_entry (h e (by simp)) h1 h2 clean_nil
    refine ⟨by simpa using this, ?_⟩
    cases e with
    | param name gap text => exact ⟨'\n', _, by rw [List.flatMap_cons, shown_param]; rfl, rfl⟩
    | other tag gap text => exact ⟨'\n', _, by rw [List.flatMap_cons, shown_other]; rfl, rfl⟩

theorem clean_doc {d : Doc} (hd : Wf cl d) : Clean d.shown := by
  obtain ⟨h1, c, r, h2, rfl⟩ := clean_entries d.entries hd.2
  unfold Doc.shown
  simp only [List.append_assoc]
  rw [h2] at h1 ⊢
  have hr : Clean r := fun h => h1 (h.trans (List.suffix_cons _ _).isInfix)
  exact clean_between (g := [' ']) clean_nil (clean_sep (by decide) (clean_para hd.1) hr) (by decide) (by decide)

/-- **C85** A documentation as people write it (a summary, then what is to be said about parameters, the result, errors, …, each with a
description) is shown as it should be: every entry in a paragraph of its own, with the tag in italics and the name of the parameter as code,
and descriptions of several lines in one piece. -/
theorem rendered_partial (cl : Classes) (d : Doc) (hd : Wf cl d) : toMarkdown cl d.written = d.shown := by
  unfold toMarkdown
  have h1 : re1 d.written = d.written := re1_eq (by rintro ⟨t, ht⟩; simp [Doc.written] at ht)
  have h4 : re4 ("* ".toList ++ pass3 d) = ' ' :: pass3 d := by simp [re4]
  obtain ⟨h5, h6⟩ := not_mem_pass3 hd
  rw [h1, re2_doc hd, re3_doc hd, h4, re5_id (by simp [h5]), re6_id (by simp [h6]), re7_doc hd, re8_doc hd, re9_id (not_mem_shown hd), re10_id (clean_doc hd)]

/-! ### The whole text -/

theorem lines_ne (s : Str) : lines s ≠ [] := by
  cases s with
  | nil => simp [lines]
  | cons c s =>
    simp only [lines]
    split
    · simp
    · split <;> simp

theorem lines_append (b : Str) : ∀ (a : Str), lines (a ++ '\n' :: b) = lines a ++ lines b
  | [] => by simp [lines]
  | c :: a => by
    simp only [List.cons_append, lines, lines_append b a]
    split
    · rfl
    · cases h : lines a with
      | nil => exact absurd h (lines_ne a)
      | cons l ls => rfl

theorem code_append : ∀ (a b : List Str), (∀ l ∈ a, fence l = false) → (code (a ++ b)) = (code b).map fun r => (a ++ r.1, r.2)
  | [], b, _ => by cases h : code b <;> simp [h]
  | l :: a, b, h => by
    simp only [List.cons_append, code, h l (by simp), Bool.false_eq_true, if_false, code_append a b (fun x hx => h x (by simp [hx]))]
    cases code b <;> simp

theorem join_eq : ∀ ls : List Str, join ls = ['\n'].intercalate ls
  | [] => rfl
  | [l] => by simp [join]
  | l :: m :: ls => by
    have e : join (l :: m :: ls) = l ++ '\n' :: join (m :: ls) := rfl
    rw [e, join_eq (m :: ls)]
    simp

/-- **C85** What Markdown shows as code is the text of the definition, and what it shows below is the documentation, unless a line of the
definition looks like the end of a block of code. -/
theorem layout_partial (cl : Classes) (source : Str) (docs : List Str) (h : ∀ l ∈ lines source, fence l = false) :
    ∃ ls, lines (hoverText cl true source docs) = "```sourcepawn".toList :: ls ∧
      code ls = some (lines source, [] :: "---".toList :: [] :: lines (toMarkdown cl (['\n'].intercalate docs))) := by
  rw [← join_eq]
  refine ⟨lines source ++ (lines "```".toList ++ ([] :: "---".toList :: [] :: lines (toMarkdown cl (join docs)))), ?_, ?_⟩
  · have e : hoverText cl true source docs = "```sourcepawn".toList ++ '\n' :: (source ++ '\n' :: ("```".toList ++ '\n' :: ([] ++ '\n' ::
        ("---".toList ++ '\n' :: ([] ++ '\n' :: toMarkdown cl (join docs)))))) := by
      have e0 : hoverText cl true source docs =
        ("```sourcepawn\n".toList ++ source ++ "\n```".toList) ++ "\n\n---\n\n".toList ++ toMarkdown cl (join docs) := rfl
      rw [e0]
      generalize toMarkdown cl (join docs) = m
      simp
    rw [e, lines_append, lines_append, lines_append, lines_append, lines_append, lines_append]
    simp [lines]
  · rw [code_append _ _ h]
    simp [lines, code, fence, List.isPrefixOf]

/-! Comments of one line each, as after `//`. -/

theorem replaceAll_id {m : Match} {s : Str} (h : ∀ x t r rest, s = x ++ t → m t = some (r, rest) → False) : replaceAll m s = s := by
  have := replaceAll_skip (m := m) s [] (fun x c y e => by
    cases hm : m (c :: (y ++ [])) with
    | none => rfl
    | some p => exact (h x (c :: y) p.1 p.2 e (by simpa using hm)).elim)
  simpa [replaceAll_nil] using this

/-- A text without characters with a meaning of their own is shown as it is. -/
theorem plain_shown (cl : Classes) (s : Str) (h : ∀ c ∈ s, c ≠ '*' ∧ c ≠ '@' ∧ c ≠ '<' ∧ c ≠ '>' ∧ c ≠ '(') (hd : ¬ "DEPRECATED".toList <:+: s) : toMarkdown cl s = s := by
  have at' : ∀ {x t : Str} {c : Char}, s = x ++ t → c ∈ t → c ≠ '*' ∧ c ≠ '@' ∧ c ≠ '<' ∧ c ≠ '>' ∧ c ≠ '(' := by
    intro x t c e hc
    exact h c (by rw [e]; simp [hc])
  have e1 : re1 s = s := re1_eq (fun ⟨t, e⟩ => (h '*' (by rw [← e]; simp)).1 rfl)
  have e2 : replaceAll (re2 cl) s = s := replaceAll_id fun x t r rest e hm => by
    obtain ⟨w, ht, -⟩ := re2_some hm
    exact (at' (c := '*') e (by rw [ht]; simp)).1 rfl
  have e3 : replaceAll (re3 cl) s = s := replaceAll_id fun x t r rest e hm => by
    obtain ⟨w, ht, -⟩ := re3_some hm
    exact (at' (c := '*') e (by rw [ht]; simp)).1 rfl
  have e4 : re4 s = s := by
    unfold re4
    split
    · exact absurd rfl (h '*' (by simp)).1
    · rfl
  have e5 : replaceAll re5 s = s := replaceAll_id fun x t r rest e hm => (at' (c := '<') e (by rw [(re5_some hm).1]; simp)).2.2.1 rfl
  have e6 : replaceAll re6 s = s := replaceAll_id fun x t r rest e hm => (at' (c := '>') e (by rw [(re6_some hm).1]; simp)).2.2.2.1 rfl
  have e7 : replaceAll (re7 cl) s = s := replaceAll_id fun x t r rest e hm => by
    obtain ⟨u, tag, w, ht, -⟩ := re7_some hm
    exact (at' (c := '@') e (by rw [ht]; simp)).2.1 rfl
  have e8 : replaceAll (re8 cl) s = s := replaceAll_id fun x t r rest e hm => by
    obtain ⟨name, w, ht, -⟩ := re8_some hm
    exact (at' (c := '@') e (by rw [ht]; simp)).2.1 rfl
  have e9 : replaceAll (re9 cl) s = s := replaceAll_id fun x t r rest e hm => by
    obtain ⟨call, ht, -, hc, -⟩ := re9_some hm
    exact (at' (c := '(') e (by rw [ht]; simp [hc])).2.2.2.2 rfl
  unfold toMarkdown
  rw [e1, e2, e3, e4, e5, e6, e7, e8, e9, re10_id hd]

theorem lines_join : ∀ (docs : List Str), docs ≠ [] → lines (join docs) = docs.flatMap lines
  | [d], _ => by simp [join]
  | d :: e :: ds, _ => by
    have : join (d :: e :: ds) = d ++ '\n' :: join (e :: ds) := rfl
    rw [this, lines_append, lines_join (e :: ds) (by simp)]
    rfl

theorem lines_one : ∀ (s : Str), '\n' ∉ s → lines s = [s]
  | [], _ => rfl
  | c :: s, h => by
    have hc : ¬ c = '\n' := fun e => h (by rw [e]; simp)
    simp only [lines, hc, if_false, lines_one s (fun hs => h (by simp [hs]))]

theorem lines_each : ∀ (docs : List Str), (∀ d ∈ docs, '\n' ∉ d) → docs.flatMap lines = docs
  | [], _ => rfl
  | d :: ds, h => by
    rw [List.flatMap_cons, lines_one d (h d (by simp)), lines_each ds (fun x hx => h x (by simp [hx]))]
    rfl

/-- **C85** Comments of one line each, with nothing in them that has a meaning of its own, are shown on a line each. -/
theorem comments_partial (cl : Classes) (docs : List Str) (h0 : docs ≠ [])
    (h : ∀ d ∈ docs, (∀ c ∈ d, c ≠ '*' ∧ c ≠ '@' ∧ c ≠ '<' ∧ c ≠ '>' ∧ c ≠ '(' ∧ c ≠ '\n') ∧ ¬ "DEPRECATED".toList <:+: d) :
    lines (toMarkdown cl (['\n'].intercalate docs)) = docs := by
  rw [← join_eq]
  have key : (∀ c ∈ join docs, c ≠ '*' ∧ c ≠ '@' ∧ c ≠ '<' ∧ c ≠ '>' ∧ c ≠ '(') ∧ Clean (join docs) := by
    clear h0
    induction docs with
    | nil => exact ⟨by simp [join], clean_nil⟩
    | cons d ds ih =>
      obtain ⟨i1, i2⟩ := ih (fun x hx => h x (by simp [hx]))
      obtain ⟨g1, g2⟩ := h d (by simp)
      cases ds with
      | nil => exact ⟨fun c hc => ⟨(g1 c hc).1, (g1 c hc).2.1, (g1 c hc).2.2.1, (g1 c hc).2.2.2.1, (g1 c hc).2.2.2.2.1⟩, g2⟩
      | cons e ds =>
        have : join (d :: e :: ds) = d ++ '\n' :: join (e :: ds) := rfl
        rw [this]
        refine ⟨fun c hc => ?_, clean_sep (by decide +kernel) g2 i2⟩
        rcases List.mem_append.1 hc with hc | hc
        · exact ⟨(g1 c hc).1, (g1 c hc).2.1, (g1 c hc).2.2.1, (g1 c hc).2.2.2.1, (g1 c hc).2.2.2.2.1⟩
        · rcases List.mem_cons.1 hc with rfl | hc
          · decide
          · exact i1 c hc
  rw [plain_shown cl _ key.1 key.2, lines_join docs h0, lines_each docs (fun d hd hn => absurd rfl ((h d hd).1 '\n' hn).2.2.2.2.2)]

/-! ### Cases -/

/-- White space and word characters of ASCII. -/
def ascii : Classes := ⟨Verif.Ide.Docs.isSpace, fun c => letter c || digit c || c == '_', fun _ _ => rfl, fun _ _ => rfl⟩

def w1 : Str := "Adds one.".toList
def w2 : Str := "Or two.".toList
def w3 : Str := "Number".toList
def w4 : Str := "as such.".toList
def w5 : Str := "Sum".toList
def g1 : Str := [' ']
def g2 : Str := [' ', ' ']
def nameX : Str := ['x']
def tagReturn : Str := "return".toList

def sample : Doc := ⟨⟨w1, [(g1, w2)]⟩, [.param nameX g2 ⟨w3, [(g2, w4)]⟩, .other tagReturn g2 ⟨w5, []⟩]⟩

theorem plain_of (s : Str) (h1 : ∀ c ∈ s, c ≠ '*' ∧ c ≠ '@' ∧ c ≠ '<' ∧ c ≠ '>' ∧ c ≠ '(' ∧ c ≠ '\n' ∧ c ≠ '\r') (h2 : s ≠ [])
    (h3 : (s.head?.all fun c => !ascii.space c) = true) (h4 : (s.reverse.head?.all fun c => !ascii.space c) = true)
    (h5 : ¬ "DEPRECATED".toList <:+: s) : Plain ascii s := by
  refine ⟨h1, ?_, ?_, h5⟩
  · obtain ⟨c, r, rfl⟩ := List.exists_cons_of_ne_nil h2
    exact ⟨c, r, rfl, by simpa using h3⟩
  · have hr : s.reverse ≠ [] := by simpa using h2
    obtain ⟨c, r, e⟩ := List.exists_cons_of_ne_nil hr
    refine ⟨r.reverse, c, ?_, ?_⟩
    · rw [← List.reverse_reverse s, e, List.reverse_cons]
    · rw [e] at h4
      simpa using h4

theorem p1 : Plain ascii w1 := plain_of w1 (by decide +kernel) (by decide +kernel) (by decide +kernel) (by decide +kernel) (by decide +kernel)
theorem p2 : Plain ascii w2 := plain_of w2 (by decide +kernel) (by decide +kernel) (by decide +kernel) (by decide +kernel) (by decide +kernel)
theorem p3 : Plain ascii w3 := plain_of w3 (by decide +kernel) (by decide +kernel) (by decide +kernel) (by decide +kernel) (by decide +kernel)
theorem p4 : Plain ascii w4 := plain_of w4 (by decide +kernel) (by decide +kernel) (by decide +kernel) (by decide +kernel) (by decide +kernel)
theorem p5 : Plain ascii w5 := plain_of w5 (by decide +kernel) (by decide +kernel) (by decide +kernel) (by decide +kernel) (by decide +kernel)
theorem gap1 : Gap ascii g1 := ⟨by decide +kernel, by decide +kernel⟩
theorem gap2 : Gap ascii g2 := ⟨by decide +kernel, by decide +kernel⟩

/-- Non-vacuity: two comments of one line. -/
example : lines (toMarkdown ascii (['\n'].intercalate [" Adds one.".toList, " Or two.".toList])) = [" Adds one.".toList, " Or two.".toList] :=
  comments_partial ascii _ (by decide) (by decide +kernel)

theorem sample_wf : Wf ascii sample := by
  refine ⟨⟨p1, ?_⟩, ?_⟩
  · intro x hx
    have : x = (g1, w2) := List.mem_singleton.1 hx
    subst this
    exact ⟨gap1, p2⟩
  · intro e he
    have he : e = .param nameX g2 ⟨w3, [(g2, w4)]⟩ ∨ e = .other tagReturn g2 ⟨w5, []⟩ := by
      have : e ∈ [Entry.param nameX g2 ⟨w3, [(g2, w4)]⟩, .other tagReturn g2 ⟨w5, []⟩] := he
      simpa using this
    rcases he with rfl | rfl
    · refine ⟨by decide +kernel, by decide +kernel, by decide +kernel, gap2, p3, ?_⟩
      intro x hx
      have : x = (g2, w4) := List.mem_singleton.1 hx
      subst this
      exact ⟨gap2, p4⟩
    · exact ⟨by decide +kernel, by decide +kernel, by decide +kernel, by decide +kernel, gap2, p5, fun x hx => absurd hx (List.not_mem_nil)⟩

example : sample.written = "* Adds one.\n * Or two.\n *\n * @param x  Number\n *  as such.\n * @return  Sum\n ".toList := by decide +kernel

example : toMarkdown ascii sample.written = " Adds one. Or two.\n\n_@param_ `x` — >Number  as such.\n\n_@return_ Sum\n ".toList :=
  (rendered_partial ascii sample sample_wf).trans (by decide +kernel)

example : ¬ ['*', '<'] <+: "* See vec<T> and max(a, b).".toList ∧ solid ascii "* a <b>".toList = "a<b>".toList ∧
    toMarkdown ascii "* a <b>".toList = " a \\<b\\>".toList := by decide +kernel

example : ∀ l ∈ lines "int f(int x)\n{\n}".toList, fence l = false := by decide +kernel

/-- A fence in a comment of the definition ends the code too early: the rest of the definition is shown as text. -/
theorem layout_refuted : ∃ ls, lines (hoverText ascii true "a /*\n```\n*/ b".toList []) = "```sourcepawn".toList :: ls ∧
    (code ls).map (·.1) = some ["a /*".toList] := ⟨["a /*".toList, "```".toList, "*/ b".toList, "```".toList, [], "---".toList, [], []], by decide +kernel⟩

/-- A parameter without a description runs into what follows it. -/
theorem no_description_refuted : toMarkdown ascii "* A.\n *\n * @param x\n * @return  Sum.\n ".toList =
    " A.\n\n_@param_ `x` — >_@return_ Sum.\n ".toList := by decide +kernel

/-- Lines without a space behind their star are glued together: the words `one` and `two` become one word. -/
theorem glued_refuted : toMarkdown ascii "one\n *two".toList = "onetwo".toList := by decide +kernel

/-- An angle bracket behind a backslash is not escaped: the backslashes escape each other. -/
theorem escape_refuted : toMarkdown ascii "\\<b>".toList = "\\\\<b\\>".toList := by decide +kernel

end Verif.Props.Markdown
