import Verif.Flycheck.SpComp
/-!
# C40: the command line; C57: the compiler's output
-/

namespace Verif.Props.SpComp
open Verif.Flycheck Verif.Flycheck.Spec

/-! ### C40 -/

/-- **C40, the arguments**: the file, the include directories, the directory of the file, its `include` if there is one, the output, and the options. -/
theorem arguments_are (parent : Str → Option Str) (join : Str → Str) (exists_ : Str → Bool) (root out : Str) (incs extra : List Str) :
    ∃ own, buildArgs parent join exists_ root out incs extra =
        root :: (incs.map ("-i".toList ++ ·) ++ own ++ ("-o".toList ++ out) :: "--syntax-only".toList :: extra) ∧
      (parent root = none → own = []) ∧
      ∀ p, parent root = some p → own = ("-i".toList ++ p) :: ([join p].filter exists_).map ("-i".toList ++ ·) := by
  refine ⟨match parent root with
    | some p => ("-i".toList ++ p) :: (if exists_ (join p) then ["-i".toList ++ join p] else [])
    | none => [], ?_, ?_, ?_⟩
  · simp only [buildArgs]
    cases parent root <;> simp
  · intro h; simp [h]
  · intro p h
    cases he : exists_ (join p) <;> simp [h, he]

/-- **C40, on macOS with ARM**: the compiler is run, under `arch -x86_64`, with exactly the arguments. -/
theorem command_mac (command : Str) (args : List Str) : checkCommand true command args = ("arch".toList, "-x86_64".toList :: command :: args) := rfl

/-- **C40 is violated** on all other systems: the compiler is run, but with two arguments before its own: `-x86_64`, and its own path as
if it were a file to compile. -/
theorem command_refuted (command : Str) (args : List Str) :
    (checkCommand false command args).1 = command ∧ (checkCommand false command args).2 = "-x86_64".toList :: command :: args ∧ (checkCommand false command args).2 ≠ args := by
  refine ⟨rfl, rfl, ?_⟩
  intro h
  have := congrArg List.length h
  simp [checkCommand] at this
  omega

/-! ### C57 -/

theorem le_iff (a b : Char) : a ≤ b ↔ a.toNat ≤ b.toNat := Iff.rfl

theorem pathChar_iff (c : Char) : isPathChar c = true ↔ PathChar c := by
  simp only [isPathChar, PathChar, Char.isAlphanum, Char.isAlpha, Char.isUpper, Char.isLower, Char.isDigit, decide_eq_true_eq, Bool.or_eq_true,
    Bool.and_eq_true, List.mem_cons, List.not_mem_nil, or_false]
  constructor
  · rintro (h | h | h | h | h | h | h | h | h | h)
    all_goals first | (exact .inl (.inl (.inl h))) | (exact .inl (.inl (.inr h))) | (exact .inl (.inr h)) | (exact .inr (by simp [h]))
  · rintro (((h | h) | h) | h)
    · exact .inr (.inr (.inr (.inl h)))
    · exact .inr (.inr (.inr (.inr (.inl h))))
    · exact .inr (.inr (.inr (.inr (.inr (.inr (.inr (.inl h)))))))
    · rcases h with h | h | h | h | h | h | h <;> simp [h]

theorem isDig_iff (c : Char) : isDig c = c.isDigit := by
  rw [Bool.eq_iff_iff]
  simp only [isDig, Char.isDigit, decide_eq_true_eq, Bool.and_eq_true]
  exact Iff.rfl

theorem digit_of (c : Char) (h : isDig c = true) : c.toNat - '0'.toNat < 10 ∧ c = Char.ofNat ('0'.toNat + (c.toNat - '0'.toNat)) := by
  simp only [isDig, decide_eq_true_eq, le_iff] at h
  have h1 : ('0' : Char).toNat = 48 := rfl
  have h2 : ('9' : Char).toNat = 57 := rfl
  have h3 : '0'.toNat + (c.toNat - '0'.toNat) = c.toNat := by omega
  exact ⟨by omega, by rw [h3, Char.ofNat_toNat]⟩

theorem of_digit (d : Nat) (h : d < 10) : isDig (Char.ofNat ('0'.toNat + d)) = true ∧ (Char.ofNat ('0'.toNat + d)).toNat - '0'.toNat = d := by
  have : d = 0 ∨ d = 1 ∨ d = 2 ∨ d = 3 ∨ d = 4 ∨ d = 5 ∨ d = 6 ∨ d = 7 ∨ d = 8 ∨ d = 9 := by omega
  rcases this with rfl | rfl | rfl | rfl | rfl | rfl | rfl | rfl | rfl | rfl <;> decide

theorem value_snoc (l : Str) (c : Char) : value (l ++ [c]) = value l * 10 + (c.toNat - '0'.toNat) := by simp [value]

theorem decimal_of {l : Str} {n : Nat} (h : Decimal l n) : l.all isDig = true ∧ value l = n := by
  induction h with
  | nil => exact ⟨rfl, rfl⟩
  | snoc d _ hd hc ih =>
    obtain ⟨h1, h2⟩ := of_digit d hd
    subst hc
    refine ⟨by rw [List.all_append, ih.1, List.all_cons, h1]; rfl, ?_⟩
    rw [value_snoc, ih.2, h2, Nat.mul_comm]

theorem of_decimal (k : Nat) : ∀ l : Str, l.length = k → l.all isDig = true → Decimal l (value l) := by
  induction k with
  | zero => intro l hl _; rw [List.length_eq_zero_iff.1 hl]; exact .nil
  | succ k ih =>
    intro l hl h
    have hne : l ≠ [] := by intro e; rw [e] at hl; simp at hl
    obtain ⟨a, c, rfl⟩ : ∃ a c, l = a ++ [c] := ⟨l.dropLast, l.getLast hne, (List.dropLast_concat_getLast hne).symm⟩
    simp only [List.all_append, List.all_cons, List.all_nil, Bool.and_true, Bool.and_eq_true] at h
    obtain ⟨h1, h2⟩ := digit_of c h.2
    have := Decimal.snoc (c := c) _ (ih a (by simpa using hl) h.1) h1 h2
    rw [value_snoc, Nat.mul_comm]
    exact this

theorem strip_append (a b : Str) : strip a (a ++ b) = some b := by
  induction a with
  | nil => rfl
  | cons c a ih => simp [strip, ih]

theorem strip_some : ∀ (a l r : Str), strip a l = some r → l = a ++ r := by
  intro a
  induction a with
  | nil => intro l r h; simp only [strip, Option.some.injEq] at h; exact h
  | cons c a ih =>
    intro l r h
    cases l with
    | nil => simp [strip] at h
    | cons d l =>
      simp only [strip] at h
      split at h
      · next hc => rw [hc, ih l r h]; rfl
      · simp at h

theorem strip_ne {c d : Char} (h : c ≠ d) (cs ds : Str) : strip (c :: cs) (d :: ds) = none := by simp only [strip, h, if_false]

theorem severity_append (sev : Severity) (r : Str) : stripSeverity (Severity.text sev ++ ' ' :: r) = some (sev, r) := by
  have e1 : "error ".toList = 'e' :: "rror ".toList := by decide
  have e2 : "fatal error ".toList = 'f' :: "atal error ".toList := by decide
  have g1 : "error".toList ++ ' ' :: r = "error ".toList ++ r := by
    rw [show "error ".toList = "error".toList ++ [' '] by decide]; simp only [List.append_assoc, List.cons_append, List.nil_append]
  have g2 : "fatal error".toList ++ ' ' :: r = "fatal error ".toList ++ r := by
    rw [show "fatal error ".toList = "fatal error".toList ++ [' '] by decide]; simp only [List.append_assoc, List.cons_append, List.nil_append]
  have g3 : "warning".toList ++ ' ' :: r = "warning ".toList ++ r := by
    rw [show "warning ".toList = "warning".toList ++ [' '] by decide]; simp only [List.append_assoc, List.cons_append, List.nil_append]
  have f2 : "fatal error ".toList ++ r = 'f' :: ("atal error ".toList ++ r) := by rw [e2]; rfl
  have f3 : "warning ".toList ++ r = 'w' :: ("arning ".toList ++ r) := by
    rw [show "warning ".toList = 'w' :: "arning ".toList by decide]; rfl
  unfold stripSeverity Severity.text
  cases sev with
  | error => simp only [g1, strip_append]
  | fatalError =>
    have h1 : strip "error ".toList ("fatal error ".toList ++ r) = none := by rw [e1, f2]; exact strip_ne (by decide) _ _
    simp only [g2, h1, strip_append]
  | warning =>
    have h1 : strip "error ".toList ("warning ".toList ++ r) = none := by rw [e1, f3]; exact strip_ne (by decide) _ _
    have h2 : strip "fatal error ".toList ("warning ".toList ++ r) = none := by rw [e2, f3]; exact strip_ne (by decide) _ _
    simp only [g3, h1, h2, strip_append, Option.map_some]

theorem severity_some {l r : Str} {sev : Severity} (h : stripSeverity l = some (sev, r)) : l = Severity.text sev ++ ' ' :: r := by
  unfold stripSeverity at h
  split at h
  · next r' h1 =>
    simp only [Option.some.injEq, Prod.mk.injEq] at h
    obtain ⟨rfl, rfl⟩ := h
    rw [strip_some _ _ _ h1]; rfl
  · split at h
    · next r' h1 =>
      simp only [Option.some.injEq, Prod.mk.injEq] at h
      obtain ⟨rfl, rfl⟩ := h
      rw [strip_some _ _ _ h1]; rfl
    · simp only [Option.map_eq_some_iff, Prod.mk.injEq] at h
      obtain ⟨r', h1, rfl, rfl⟩ := h
      rw [strip_some _ _ _ h1]; rfl

theorem span_append {p : Char → Bool} {a : Str} (ha : a.all p = true) (c : Char) (hc : p c = false) (r : Str) :
    (a ++ c :: r).takeWhile p = a ∧ (a ++ c :: r).dropWhile p = c :: r := by
  induction a with
  | nil => simp [List.takeWhile, List.dropWhile, hc]
  | cons x a ih =>
    simp only [List.all_cons, Bool.and_eq_true] at ha
    have := ih ha.2
    simp [List.takeWhile_cons, List.dropWhile_cons, ha.1, this.1, this.2]

theorem takeWhile_all {p : Char → Bool} {a : Str} (h : a.all p = true) : a.takeWhile p = a := by
  induction a with
  | nil => rfl
  | cons x a ih =>
    simp only [List.all_cons, Bool.and_eq_true] at h
    simp [List.takeWhile_cons, h.1, ih h.2]

/-- The expression matches what the compiler prints. -/
theorem match_printed (isD isS : Char → Bool) (path num : Str) (sev : Severity) (code blanks msg : Str) (hD : isD ')' = false) (hpath : path.all isPathChar = true)
    (hnum : num.all isD = true) (hn0 : num ≠ []) (hcode : code.all isDig = true) (hb : blanks.all isS = true) (hb0 : blanks ≠ [])
    (hm : ∀ c, msg.head? = some c → isS c = false) (hnl : '\n' ∉ msg) :
    matchAt isD isS (printed path num sev code blanks msg) = some (path, num, sev, code, msg) := by
  obtain ⟨t1, d1⟩ := span_append hpath '(' (by decide) (num ++ (") : ".toList ++ (Severity.text sev ++ (' ' :: code ++ (':' :: blanks ++ msg)))))
  obtain ⟨t2, d2⟩ := span_append hnum ')' hD (" : ".toList ++ (Severity.text sev ++ (' ' :: code ++ (':' :: blanks ++ msg))))
  obtain ⟨t3, d3⟩ := span_append hcode ':' (by decide) (blanks ++ msg)
  have t4 : (blanks ++ msg).takeWhile isS = blanks ∧ (blanks ++ msg).dropWhile isS = msg := by
    cases msg with
    | nil =>
      rw [List.append_nil]
      refine ⟨takeWhile_all hb, ?_⟩
      have := List.takeWhile_append_dropWhile (p := isS) (l := blanks)
      rw [takeWhile_all hb] at this
      simpa using this
    | cons c msg => exact span_append hb c (hm c rfl) msg
  have t5 : msg.takeWhile (· ≠ '\n') = msg := by
    apply takeWhile_all
    simp only [List.all_eq_true, decide_eq_true_eq]
    intro x hx he
    subst he; exact hnl hx
  have e2 : strip ") : ".toList (')' :: (" : ".toList ++ (Severity.text sev ++ (' ' :: code ++ (':' :: blanks ++ msg))))) =
      some (Severity.text sev ++ (' ' :: code ++ (':' :: blanks ++ msg))) := strip_append ") : ".toList _
  unfold matchAt printed
  simp only [List.cons_append] at t1 d1 ⊢
  rw [d1, t1]
  simp only [strip, if_true]
  have r2 : num ++ (") : ".toList ++ (Severity.text sev ++ ' ' :: (code ++ ':' :: (blanks ++ msg)))) =
      num ++ ')' :: (" : ".toList ++ (Severity.text sev ++ (' ' :: code ++ (':' :: blanks ++ msg)))) := rfl
  rw [r2, t2, d2, if_neg hn0]
  simp only [e2]
  have r3 : stripSeverity (Severity.text sev ++ (' ' :: code ++ (':' :: blanks ++ msg))) = some (sev, code ++ ':' :: (blanks ++ msg)) := severity_append sev _
  have r4 : strip [':'] (':' :: (blanks ++ msg)) = some (blanks ++ msg) := strip_append [':'] _
  simp only [r3, d3, t3, r4, if_true, t4.1, t4.2, if_neg hb0, t5]

/-- **C57, what the compiler prints is understood.** A line `path(number) : severity code: message` gives the diagnostic with that path,
line (counted from zero), severity, code and message. -/
theorem output_understood (checked : Bool) (isD isS : Char → Bool) (path num : Str) (n : Nat) (sev : Severity) (code blanks msg : Str)
    (hD : ∀ c, c.isDigit = true → isD c = true) (hD' : isD ')' = false) (hpath : ∀ c ∈ path, PathChar c) (habs : path.head? = some '/')
    (hnum : Decimal num n) (hpos : 0 < n) (hmax : n < 2 ^ 32) (hcode : ∀ c ∈ code, c.isDigit = true) (hb : ∀ c ∈ blanks, isS c = true) (hb0 : blanks ≠ [])
    (hm : ∀ c, msg.head? = some c → isS c = false) (hnl : '\n' ∉ msg) :
    tryFromLine checked isD isS (printed path num sev code blanks msg) = .diag ⟨path, n - 1, sev, code, msg⟩ := by
  obtain ⟨hdig, rfl⟩ := decimal_of hnum
  clear hnum
  have hnum := hdig
  have hn0 : num ≠ [] := by intro e; subst e; exact absurd hpos (by decide)
  have hpath : path.all isPathChar = true := List.all_eq_true.2 fun c hc => (pathChar_iff c).2 (hpath c hc)
  have hcode : code.all isDig = true := List.all_eq_true.2 fun c hc => by rw [isDig_iff]; exact hcode c hc
  have hb : blanks.all isS = true := List.all_eq_true.2 hb
  have hD : ∀ c, isDig c = true → isD c = true := fun c hc => hD c (by rw [← isDig_iff]; exact hc)
  have hnum' : num.all isD = true := by
    simp only [List.all_eq_true] at hnum ⊢
    exact fun c hc => hD c (hnum c hc)
  have hmatch := match_printed isD isS path num sev code blanks msg hD' hpath hnum' hn0 hcode hb hb0 hm hnl
  have hs : search isD isS (printed path num sev code blanks msg) = some (path, num, sev, code, msg) := by
    cases hl : printed path num sev code blanks msg with
    | nil => rw [hl] at hmatch; exact hmatch
    | cons c l => rw [hl] at hmatch; simp only [search, hmatch]
  have hp : parseU32 num = some (value num) := by simp only [parseU32, hnum, hmax, and_self, if_true]
  simp only [tryFromLine, hs, habs, if_true, hp]
  cases hv : value num with
  | zero => omega
  | succ n => simp

example : tryFromLine true isDig (· = ' ') (printed "/c.sp".toList "12".toList .error "017".toList " ".toList "x".toList) = .diag ⟨"/c.sp".toList, 11, .error, "017".toList, "x".toList⟩ :=
  output_understood true isDig (· = ' ') _ _ 12 .error _ _ _ (fun c h => by rw [isDig_iff]; exact h) (by decide) (by decide) rfl
    (.snoc (l := ['1']) (n := 1) 2 (.snoc (l := []) (n := 0) 1 .nil (by decide) rfl) (by decide) rfl) (by decide) (by decide) (by decide) (by decide) (by decide)
    (by decide) (by decide)

theorem match_some {isD isS : Char → Bool} {l path num code msg : Str} {sev : Severity} (h : matchAt isD isS l = some (path, num, sev, code, msg)) :
    ∃ blanks rest, l = printed path num sev code blanks (msg ++ rest) ∧ blanks ≠ [] ∧ blanks.all isS = true ∧ num ≠ [] ∧ code.all isDig = true ∧
      (rest = [] ∨ rest.head? = some '\n') := by
  unfold matchAt at h
  split at h
  · simp at h
  · next r h1 =>
    split at h
    · simp at h
    · next hn0 =>
      split at h
      · simp at h
      · next r1 h2 =>
        split at h
        · simp at h
        · next sev' r2 h3 =>
          split at h
          · simp at h
          · next r3 h4 =>
            split at h
            · simp at h
            · next hb0 =>
              simp only [Option.some.injEq, Prod.mk.injEq] at h
              obtain ⟨rfl, rfl, rfl, rfl, rfl⟩ := h
              refine ⟨r3.takeWhile isS, (r3.dropWhile isS).dropWhile (· ≠ '\n'), ?_, hb0, List.all_takeWhile, hn0, List.all_takeWhile, ?_⟩
              · have e1 := strip_some _ _ _ h1
                have e2 := strip_some _ _ _ h2
                have e3 := severity_some h3
                have e4 := strip_some _ _ _ h4
                unfold printed
                rw [List.takeWhile_append_dropWhile]
                conv => lhs; rw [← List.takeWhile_append_dropWhile (p := isPathChar) (l := l), e1]
                congr 1
                simp only [List.cons_append, List.nil_append, List.cons.injEq, true_and]
                conv => lhs; rw [← List.takeWhile_append_dropWhile (p := isD) (l := r), e2]
                congr 2
                rw [e3]
                congr 2
                conv => lhs; rw [← List.takeWhile_append_dropWhile (p := isDig) (l := r2), e4]
                congr 1
                simp only [List.cons_append, List.nil_append, List.takeWhile_append_dropWhile]
              · generalize r3.dropWhile isS = w
                induction w with
                | nil => exact .inl rfl
                | cons c w ih =>
                  by_cases hc : c = '\n'
                  · subst hc; right; simp [List.dropWhile_cons]
                  · simpa [List.dropWhile_cons, hc] using ih

/-- **C57, nothing is made up.** A diagnostic comes from a line with such a message in it. (With overflow checks; without them the line
number is `2^32 - 1` if the compiler printed zero.) -/
theorem output_sound (isD isS : Char → Bool) (line : Str) (d : Diag) (h : tryFromLine true isD isS line = .diag d) :
    ∃ before num blanks rest, line = before ++ printed d.path num d.severity d.code blanks (d.message ++ rest) ∧ d.path.head? = some '/' ∧
      Decimal num (d.line + 1) ∧ d.line + 1 < 2 ^ 32 ∧ (rest = [] ∨ rest.head? = some '\n') := by
  unfold tryFromLine at h
  split at h
  · simp at h
  · next path num sev code msg hs =>
    have hl : ∃ before l', line = before ++ l' ∧ matchAt isD isS l' = some (path, num, sev, code, msg) := by
      clear h
      induction line with
      | nil => exact ⟨[], [], rfl, hs⟩
      | cons c l ih =>
        simp only [search] at hs
        split at hs
        · next r hr => rw [Option.some.injEq] at hs; subst hs; exact ⟨[], c :: l, rfl, hr⟩
        · obtain ⟨b, l', rfl, h2⟩ := ih hs
          exact ⟨c :: b, l', rfl, h2⟩
    obtain ⟨before, l', rfl, hm⟩ := hl
    obtain ⟨blanks, rest, rfl, -, -, -, -, hrest⟩ := match_some hm
    split at h
    · next habs =>
      have hp : ∀ n, parseU32 num = some n → num.all isDig = true ∧ value num = n ∧ value num < 2 ^ 32 := by
        intro n hn
        unfold parseU32 at hn
        split at hn
        · next hc => rw [Option.some.injEq] at hn; exact ⟨hc.1, hn, hc.2⟩
        · simp at hn
      split at h
      · simp at h
      · simp at h
      · next n hn =>
        simp only [Parsed.diag.injEq] at h
        subst h
        obtain ⟨a, b, c⟩ := hp _ hn
        have hd := of_decimal _ num rfl a
        rw [b] at hd c
        exact ⟨before, num, blanks, rest, rfl, habs, hd, c, hrest⟩
    · simp at h

/-- **C57 is violated** for a message without a line (`(0)`): the thread that reads the output panics, or, without overflow checks, the
diagnostic is placed at line 4294967295. -/
theorem line_zero_refuted :
    tryFromLine true isDig (· = ' ') "/a.sp(0) : fatal error 183: x".toList = .panic ∧
    tryFromLine false isDig (· = ' ') "/a.sp(0) : fatal error 183: x".toList = .diag ⟨"/a.sp".toList, 4294967295, .fatalError, "183".toList, "x".toList⟩ := by
  decide

/-- **C57 is violated** for paths with other characters: the message is dropped, or is taken for one about another file. -/
theorem path_refuted :
    tryFromLine true isDig (· = ' ') "/a+b/c.sp(12) : error 017: x".toList = .none ∧
    tryFromLine true isDig (· = ' ') "/a(1)/c.sp(12) : error 017: x".toList = .diag ⟨"/c.sp".toList, 11, .error, "017".toList, "x".toList⟩ := by
  decide

example : tryFromLine true isDig (· = ' ') "/a b/c.sp(12) : error 017: undefined symbol \"x\"".toList =
    .diag ⟨"/a b/c.sp".toList, 11, .error, "017".toList, "undefined symbol \"x\"".toList⟩ := by decide

end Verif.Props.SpComp
