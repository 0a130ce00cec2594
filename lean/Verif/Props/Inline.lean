import Verif.Props.Markdown
/-!
# Calls, brackets and deprecations in a documentation (C85)
-/

namespace Verif.Props.Inline
open Verif.Ide.Docs (Str)
open Verif.Ide.Markdown
open Verif.Ide.Markdown.Spec Verif.Props.Markdown

/-- What the passes before the last two make of a text without stars and tags. -/
theorem quiet_passes (cl : Classes) (s : Str) (h : ∀ c ∈ s, c ≠ '*' ∧ c ≠ '@') :
    toMarkdown cl s = replaceAll re10 (replaceAll (re9 cl) (replaceAll (re8 cl) (replaceAll (re7 cl) (replaceAll re6 (replaceAll re5 s))))) := by
  have at' : ∀ {x t : Str} {c : Char}, s = x ++ t → c ∈ t → c ≠ '*' ∧ c ≠ '@' := by
    intro x t c e hc
    exact h c (by rw [e]; simp [hc])
  have e1 : re1 s = s := re1_eq (fun ⟨t, e⟩ => (h '*' (by rw [← e]; simp)).1 rfl)
  have e2 : replaceAll (re2 cl) s = s := replaceAll_id fun x t r rest e hm => by
    obtain ⟨w, ht, -⟩ := re2_some hm
    exact (at' (c := '*') e (by rw [ht]; simp)).1 rfl
  have e3 : replaceAll (re3 cl) s = s := replaceAll_id fun x t r rest e hm => by
    obtain ⟨w, ht, -⟩ := re3_some hm
    exact (at' (c := '*') e (by rw [ht]; simp)).1 rfl
  have e4 : re4 s = s := by
    unfold re4
    split
    · exact absurd rfl (h '*' (by simp)).1
    · rfl
  unfold toMarkdown
  rw [e1, e2, e3, e4]

theorem no_tags (cl : Classes) (s : Str) (h : ∀ c ∈ s, c ≠ '@') : replaceAll (re8 cl) (replaceAll (re7 cl) s) = s := by
  have at' : ∀ {x t : Str} {c : Char}, s = x ++ t → c ∈ t → c ≠ '@' := by
    intro x t c e hc
    exact h c (by rw [e]; simp [hc])
  have e7 : replaceAll (re7 cl) s = s := replaceAll_id fun x t r rest e hm => by
    obtain ⟨u, tag, w, ht, -⟩ := re7_some hm
    exact at' (c := '@') e (by rw [ht]; simp) rfl
  have e8 : replaceAll (re8 cl) s = s := replaceAll_id fun x t r rest e hm => by
    obtain ⟨name, w, ht, -⟩ := re8_some hm
    exact at' (c := '@') e (by rw [ht]; simp) rfl
  rw [e7, e8]

theorem pass5 : ∀ s : Str, replaceAll re5 s = s.flatMap fun c => if c = '<' then ['\\', c] else [c]
  | [] => rfl
  | c :: s => by
    by_cases hc : c = '<'
    · subst hc
      rw [replaceAll_some shortens5 (r := ['\\', '<']) (rest := s) rfl, pass5 s]
      simp
    · rw [replaceAll_none (m := re5) (by unfold re5; split; · rename_i e; cases e; exact absurd rfl hc
                                         · rfl), pass5 s]
      simp [hc]

theorem pass6 : ∀ s : Str, replaceAll re6 s = s.flatMap fun c => if c = '>' then ['\\', c] else [c]
  | [] => rfl
  | c :: s => by
    by_cases hc : c = '>'
    · subst hc
      rw [replaceAll_some shortens6 (r := ['\\', '>']) (rest := s) rfl, pass6 s]
      simp
    · rw [replaceAll_none (m := re6) (by unfold re6; split; · rename_i e; cases e; exact absurd rfl hc
                                         · rfl), pass6 s]
      simp [hc]

theorem escaped (s : Str) : replaceAll re6 (replaceAll re5 s) = escape s := by
  rw [pass6, pass5]
  unfold escape
  induction s with
  | nil => rfl
  | cons c s ih =>
    rw [List.flatMap_cons, List.flatMap_append, ih, List.flatMap_cons]
    by_cases h1 : c = '<'
    · subst h1; rfl
    · by_cases h2 : c = '>'
      · subst h2; rfl
      · simp [h1, h2]

theorem escape_append (a b : Str) : escape (a ++ b) = escape a ++ escape b := List.flatMap_append

theorem escape_id : ∀ {s : Str}, (∀ c ∈ s, c ≠ '<' ∧ c ≠ '>') → escape s = s
  | [], _ => rfl
  | c :: s, h => by
    have hc := h c (by simp)
    have ih := escape_id (s := s) fun d hd => h d (by simp [hd])
    unfold escape at ih ⊢
    rw [List.flatMap_cons, ih]
    simp [hc]

theorem mem_escape {s : Str} {c : Char} (h : c ∈ escape s) : c ∈ s ∨ c = '\\' := by
  obtain ⟨d, hd, hc⟩ := List.mem_flatMap.1 h
  split at hc
  · simp only [List.mem_cons, List.not_mem_nil, or_false] at hc
    rcases hc with rfl | rfl
    · exact .inr rfl
    · exact .inl hd
  · simp only [List.mem_cons, List.not_mem_nil, or_false] at hc
    exact .inl (hc ▸ hd)

/-- The last character stays. -/
theorem escape_last {s : Str} {c : Char} : escape (s ++ [c]) = (escape s ++ if c = '<' ∨ c = '>' then ['\\'] else []) ++ [c] := by
  rw [escape_append]
  unfold escape
  by_cases h : c = '<' ∨ c = '>' <;> simp [h]

/-! ### Names and arguments -/

theorem ascii_not_word (cl : Classes) {c : Char} (h : c.toNat < 128) (h' : (letter c || digit c || c == '_') = false) : cl.word c = false := by
  rw [cl.word_ascii c h, h']

theorem word_ne (cl : Classes) {c : Char} (h : cl.word c = true) : c ≠ '*' ∧ c ≠ '@' ∧ c ≠ '(' ∧ c ≠ '<' ∧ c ≠ '>' ∧ c ≠ '`' := by
  refine ⟨?_, ?_, ?_, ?_, ?_, ?_⟩ <;> (rintro rfl; rw [ascii_not_word cl (by decide) (by decide)] at h; cases h)

theorem arg_char {c : Char} (h : c.isAlphanum = true ∨ c = '_' ∨ c = ' ' ∨ c = ':') : argChar c = true := by
  rcases h with h | rfl | rfl | rfl
  · simp only [Char.isAlphanum, Char.isAlpha, Char.isUpper, Char.isLower, Char.isDigit, Bool.or_eq_true, Bool.and_eq_true, decide_eq_true_eq] at h
    have key : letter c = true ∨ digit c = true := by
      simp only [letter, digit, Bool.or_eq_true, Bool.and_eq_true, decide_eq_true_eq]
      rcases h with (⟨h1, h2⟩ | ⟨h1, h2⟩) | ⟨h1, h2⟩
      · exact .inl (.inr ⟨h1, h2⟩)
      · exact .inl (.inl ⟨h1, h2⟩)
      · exact .inr ⟨h1, h2⟩
    rcases key with h | h <;> simp [argChar, h]
  all_goals decide

theorem arg_ne {c : Char} (h : c.isAlphanum = true ∨ c = '_' ∨ c = ' ' ∨ c = ':') : c ≠ '*' ∧ c ≠ '@' ∧ c ≠ '<' ∧ c ≠ '>' := by
  refine ⟨?_, ?_, ?_, ?_⟩ <;> (rintro rfl; revert h; decide)

theorem code_ne {cl : Classes} {k : Call} (h : WfCall cl k) : ∀ c ∈ k.code, c ≠ '*' ∧ c ≠ '@' ∧ c ≠ '<' ∧ c ≠ '>' := by
  intro c hc
  simp only [Call.code, List.cons_append, List.mem_append, List.mem_cons, List.not_mem_nil, or_false] at hc
  rcases hc with (hc | rfl | hc) | rfl
  · have := word_ne cl (h.name.2 c hc); exact ⟨this.1, this.2.1, this.2.2.2.1, this.2.2.2.2.1⟩
  · decide
  · exact arg_ne (h.args c hc)
  · decide

/-! ### Calls -/

theorem re9_call {cl : Classes} {name args rest : Str} (h0 : name ≠ []) (hn : ∀ c ∈ name, cl.word c = true)
    (ha : ∀ c ∈ args, argChar c = true) :
    re9 cl (name ++ '(' :: args ++ ')' :: rest) = some ('`' :: name ++ '(' :: args ++ [')', '`'], rest) := by
  have hw : ∀ c r, '(' :: (args ++ ')' :: rest) = c :: r → cl.word c = false := by
    intro c r e; cases e; exact ascii_not_word cl (by decide) (by decide)
  have hb : ∀ c r, ')' :: rest = c :: r → argChar c = false := by intro c r e; cases e; decide
  have e : name ++ '(' :: args ++ ')' :: rest = name ++ '(' :: (args ++ ')' :: rest) := by simp
  unfold re9
  rw [e, takeWhile_spaces name _ hn hw, dropWhile_spaces name _ hn hw, if_neg h0]
  simp only [dropWhile_spaces args _ ha hb, takeWhile_spaces args _ ha hb]

/-- No call starts in a text that has no parenthesis and does not end in a word. -/
theorem re9_before {cl : Classes} {a b : Str} (h : ∀ c ∈ a, c ≠ '(') (hl : ∀ r c, a = r ++ [c] → cl.word c = false) :
    replaceAll (re9 cl) (a ++ b) = a ++ replaceAll (re9 cl) b := by
  refine replaceAll_skip a b fun x c y e => ?_
  have hd : ∃ d t, (c :: (y ++ b)).dropWhile cl.word = d :: t ∧ d ≠ '(' := by
    have : ∀ (z : Str), z ≠ [] → (∀ d ∈ z, d ≠ '(') → (∀ r d, z = r ++ [d] → cl.word d = false) →
        ∃ d t, (z ++ b).dropWhile cl.word = d :: t ∧ d ≠ '(' := by
      intro z
      induction z with
      | nil => intro h; exact absurd rfl h
      | cons d z ih =>
        intro _ h1 h2
        cases hw : cl.word d with
        | false => exact ⟨d, z ++ b, by simp [List.dropWhile, hw], h1 d (by simp)⟩
        | true =>
          have hz : z ≠ [] := by
            rintro rfl
            have := h2 [] d rfl
            rw [hw] at this; cases this
          obtain ⟨f, t, h3, h4⟩ := ih hz (fun f hf => h1 f (by simp [hf])) (fun r f hr => h2 (d :: r) f (by rw [hr]; rfl))
          exact ⟨f, t, by rw [← h3]; simp [List.dropWhile, hw], h4⟩
    exact this (c :: y) (by simp) (fun d hd => h d (by rw [e]; exact List.mem_append_right _ hd))
      (fun r d hr => hl (x ++ r) d (by rw [e, hr]; simp))
  obtain ⟨d, t, hd, hne⟩ := hd
  unfold re9
  split
  · rfl
  · rw [hd]
    split
    · rename_i heq; cases heq; exact absurd rfl hne
    · rfl

theorem re9_some_call {cl : Classes} {k : Call} (h : WfCall cl k) (rest : Str) :
    replaceAll (re9 cl) (escape k.before ++ (k.code ++ rest)) = k.shown ++ replaceAll (re9 cl) rest := by
  rw [re9_before (fun c hc => ?_) (fun r c e => ?_)]
  · obtain ⟨c, n, hn⟩ : ∃ c n, k.name = c :: n := by
      cases hk : k.name with
      | nil => exact absurd hk h.name.1
      | cons c n => exact ⟨c, n, rfl⟩
    have hm := re9_call (rest := rest) h.name.1 h.name.2 (fun c hc => arg_char (h.args c hc))
    have e : k.code ++ rest = c :: (n ++ '(' :: k.args ++ ')' :: rest) := by simp [Call.code, hn]
    rw [show k.name ++ '(' :: k.args ++ ')' :: rest = c :: (n ++ '(' :: k.args ++ ')' :: rest) by rw [hn]; rfl] at hm
    rw [e, replaceAll_some shortens9 hm]
    simp [Call.shown, Call.code]
  · rcases mem_escape hc with hc | rfl
    · exact (h.before c hc).2.2
    · decide
  · rcases List.eq_nil_or_concat k.before with hb | ⟨b, d, hb⟩
    · rw [hb] at e; simp [escape] at e
    · rw [List.concat_eq_append] at hb
      rw [hb, escape_last] at e
      have := List.append_inj_right' e rfl
      cases this
      exact h.apart b c hb

/-! ### The word DEPRECATED -/

theorem clean_infix {a b : Str} (h : Clean b) (hi : a <:+: b) : Clean a := fun ha => h (ha.trans hi)

theorem clean_escape : ∀ (n : Nat) (s : Str), s.length ≤ n → ∀ {a : Str}, Clean (a ++ s) → Clean (a ++ escape s)
  | _, [], _, a, h => h
  | n + 1, c :: s, hn, a, h => by
    by_cases hc : c = '<' ∨ c = '>'
    · have e : escape (c :: s) = '\\' :: c :: escape s := by unfold escape; simp [hc]
      have hcc : c ∉ "DEPRECATED".toList := by rcases hc with rfl | rfl <;> decide +kernel
      rw [e]
      refine clean_sep (by decide +kernel) (clean_infix h (List.prefix_append _ _).isInfix) ?_
      refine clean_sep (a := []) hcc clean_nil ?_
      have := clean_escape n s (by simp at hn; omega) (a := []) (clean_infix h ⟨a ++ [c], [], by simp⟩)
      simpa using this
    · have e : escape (c :: s) = c :: escape s := by unfold escape; simp [hc]
      rw [e]
      have := clean_escape n s (by simp at hn; omega) (a := a ++ [c]) (by simpa using h)
      simpa using this

theorem clean_calls : ∀ (calls : List Call) (last : Str), Clean (calls.flatMap Call.written ++ last) → Clean (calls.flatMap Call.shown ++ escape last)
  | [], last, h => clean_escape last.length last (Nat.le_refl _) (a := []) h
  | k :: calls, last, h => by
    have e : (k :: calls).flatMap Call.shown ++ escape last = escape k.before ++ '`' :: (k.code ++ '`' :: (calls.flatMap Call.shown ++ escape last)) := by
      simp [Call.shown]
    have e' : (k :: calls).flatMap Call.written ++ last = k.before ++ (k.code ++ (calls.flatMap Call.written ++ last)) := by simp [Call.written]
    rw [e'] at h
    rw [e]
    refine clean_sep (by decide +kernel) ?_ (clean_sep (by decide +kernel) ?_ ?_)
    · exact clean_escape _ _ (Nat.le_refl _) (a := []) (clean_infix h (List.prefix_append _ _).isInfix)
    · exact clean_infix h ⟨k.before, calls.flatMap Call.written ++ last, by simp⟩
    · exact clean_calls calls last (clean_infix h ⟨k.before ++ k.code, [], by simp⟩)

/-! ### Theorems -/

theorem re9_calls {cl : Classes} (last : Str) (hl : Quiet last) : ∀ (calls : List Call), (∀ k ∈ calls, WfCall cl k) →
    replaceAll (re9 cl) (escape (calls.flatMap Call.written ++ last)) = calls.flatMap Call.shown ++ escape last
  | [], _ => by
    refine re9_id fun h => ?_
    rcases mem_escape h with h | h
    · exact (hl '(' h).2.2 rfl
    · cases h
  | k :: calls, h => by
    have ih := re9_calls last hl calls fun x hx => h x (by simp [hx])
    have e' : (k :: calls).flatMap Call.written ++ last = k.before ++ (k.code ++ (calls.flatMap Call.written ++ last)) := by simp [Call.written]
    have hk := h k (by simp)
    rw [e', escape_append, escape_append, escape_id (fun c hc => (code_ne hk c hc).2.2), re9_some_call hk, ih]
    simp

/-- **C85** In a text without stars and tags, calls like `max(a)` are shown as code, `<` and `>` are escaped, and everything else is shown as it
is, unless the word DEPRECATED occurs. -/
theorem inline_partial (cl : Classes) (calls : List Call) (last : Str) (hc : ∀ k ∈ calls, WfCall cl k) (hl : Quiet last)
    (hd : ¬ "DEPRECATED".toList <:+: calls.flatMap Call.written ++ last) :
    toMarkdown cl (calls.flatMap Call.written ++ last) = calls.flatMap Call.shown ++ escape last := by
  have hq : ∀ c ∈ calls.flatMap Call.written ++ last, c ≠ '*' ∧ c ≠ '@' := by
    intro c h
    rcases List.mem_append.1 h with h | h
    · obtain ⟨k, hk, h⟩ := List.mem_flatMap.1 h
      rcases List.mem_append.1 h with h | h
      · exact ⟨((hc k hk).before c h).1, ((hc k hk).before c h).2.1⟩
      · exact ⟨(code_ne (hc k hk) c h).1, (code_ne (hc k hk) c h).2.1⟩
    · exact ⟨(hl c h).1, (hl c h).2.1⟩
  rw [quiet_passes cl _ hq, escaped, no_tags cl _ (fun c h => ?_), re9_calls last hl calls hc, re10_id (clean_calls calls last hd)]
  rcases mem_escape h with h | rfl
  · exact (hq c h).2
  · decide

/-- **C85** The word DEPRECATED starts a paragraph of its own, in bold. `pre` ends where the word first occurs. -/
theorem deprecated_partial (cl : Classes) (pre post : Str) (h1 : ∀ c ∈ pre ++ post, c ≠ '*' ∧ c ≠ '@' ∧ c ≠ '<' ∧ c ≠ '>' ∧ c ≠ '(')
    (h2 : ¬ "DEPRECATED".toList <:+: pre ++ "DEPRECATE".toList) (h3 : ¬ "DEPRECATED".toList <:+: post) :
    toMarkdown cl (pre ++ "DEPRECATED".toList ++ post) = pre ++ "\n\n**DEPRECATED**".toList ++ post := by
  have hq : ∀ c ∈ pre ++ "DEPRECATED".toList ++ post, c ≠ '*' ∧ c ≠ '@' ∧ c ≠ '<' ∧ c ≠ '>' ∧ c ≠ '(' := by
    intro c hc
    simp only [List.mem_append] at hc
    rcases hc with (hc | hc) | hc
    · exact h1 c (by simp [hc])
    · revert c; decide +kernel
    · exact h1 c (by simp [hc])
  rw [quiet_passes cl _ (fun c hc => ⟨(hq c hc).1, (hq c hc).2.1⟩), escaped, escape_id (fun c hc => ⟨(hq c hc).2.2.1, (hq c hc).2.2.2.1⟩),
    no_tags cl _ (fun c hc => (hq c hc).2.1), re9_id (fun hc => (hq _ hc).2.2.2.2 rfl), List.append_assoc, replaceAll_skip pre _ (fun x c y e => ?_)]
  · rw [show "DEPRECATED".toList ++ post = 'D' :: ("EPRECATED".toList ++ post) from rfl,
      replaceAll_some shortens10 (r := "\n\n**DEPRECATED**".toList) (rest := post) rfl, re10_id h3]
    simp
  · cases hm : re10 (c :: (y ++ ("DEPRECATED".toList ++ post))) with
    | none => rfl
    | some p =>
      exfalso
      obtain ⟨hc, _⟩ := re10_some hm
      have hp : "DEPRECATED".toList <+: (c :: y ++ "DEPRECATE".toList) ++ 'D' :: post := ⟨p.2, by rw [← hc]; simp⟩
      refine h2 ?_
      rw [e]
      have : "DEPRECATED".toList <+: c :: y ++ "DEPRECATE".toList := by
        rw [List.prefix_iff_eq_take] at hp ⊢
        rw [List.take_append_of_le_length (by simp)] at hp
        exact hp
      exact this.isInfix.trans ⟨x, [], by simp⟩

/-! ### Cases -/

def seeMax : Call := ⟨"See vec<T> and ".toList, "max_of".toList, "int a: 1".toList⟩
def andF : Call := ⟨", ".toList, "f".toList, []⟩

theorem seeMax_wf : WfCall ascii seeMax :=
  ⟨by unfold Quiet; decide +kernel, fun r c e => by
    have : c = ' ' := by
      have h := congrArg List.getLast? e
      rw [List.getLast?_append] at h
      have h' : seeMax.before.getLast? = some ' ' := by decide +kernel
      rw [h'] at h; simpa using h.symm
    subst this; decide, ⟨by decide +kernel, by decide +kernel⟩, by decide +kernel⟩

theorem andF_wf : WfCall ascii andF :=
  ⟨by unfold Quiet; decide +kernel, fun r c e => by
    have : c = ' ' := by
      have h := congrArg List.getLast? e
      rw [List.getLast?_append] at h
      have h' : andF.before.getLast? = some ' ' := by decide +kernel
      rw [h'] at h; simpa using h.symm
    subst this; decide, ⟨by decide +kernel, by decide +kernel⟩, by decide +kernel⟩

example : toMarkdown ascii "See vec<T> and max_of(int a: 1), f() > 2.".toList = "See vec\\<T\\> and `max_of(int a: 1)`, `f()` \\> 2.".toList :=
  (inline_partial ascii [seeMax, andF] " > 2.".toList
    (by intro k hk
        simp only [List.mem_cons, List.not_mem_nil, or_false] at hk
        rcases hk with rfl | rfl
        · exact seeMax_wf
        · exact andF_wf)
    (by unfold Quiet; decide +kernel) (by decide +kernel)).trans (by decide +kernel)

example : toMarkdown ascii "Old. DEPRECATED Use g.".toList = "Old. \n\n**DEPRECATED** Use g.".toList :=
  (deprecated_partial ascii "Old. ".toList " Use g.".toList (by decide +kernel) (by decide +kernel) (by decide +kernel)).trans (by decide +kernel)

end Verif.Props.Inline
