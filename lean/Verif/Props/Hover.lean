import Verif.Ide.Hover
import Verif.Props.Offsets
import Verif.Props.MacroCall
/-!
# C77: hovering over a macro shows its expansion
-/

namespace Verif.Props.Hover

open Verif.Pre Verif.Pre.Spec Verif.Ide.MacroDef Verif.Ide.Hover Verif.Props.Position Verif.Props.Offsets

/-- The changes of the uses of a stretch take its length in the source to its length in the preprocessed text. -/
theorem shifted_describes {n : Nat} : ∀ (pre : List Seg) (c : Nat) (os : List Offset) (q : Nat), Describes n c pre os →
    shifted os (q + userLen pre) = q + serverLen pre
  | [], c, os, q, h => by simp only [Describes] at h; subst h; simp [shifted, userLen, serverLen]
  | .text k :: pre, c, os, q, h => by
    have := shifted_describes pre (c + k) os (q + k) h
    simp only [userLen, serverLen, List.map_cons, List.sum_cons, Seg.user, Seg.server] at this ⊢
    rw [show q + (k + (List.map Seg.user pre).sum) = q + k + (List.map Seg.user pre).sum by omega, this]; omega
  | .use k a o :: pre, c, os, q, h => by
    obtain ⟨x, os', rfl, h1, h2, h3, h4⟩ := h
    have := shifted_describes pre (c + k + a) os' (q + o) h4
    simp only [userLen, serverLen, List.map_cons, List.sum_cons, Seg.user, Seg.server] at this ⊢
    simp only [shifted, List.foldl_cons] at this ⊢
    rw [show addSigned (q + (k + a + (List.map Seg.user pre).sum)) x.shift = q + o + (List.map Seg.user pre).sum by
      simp only [addSigned, Offset.shift, h2, h3, Int.ofNat_eq_natCast]; omega, this]
    omega

theorem describes_split {n : Nat} : ∀ (pre : List Seg) (c : Nat) (k a o : Nat) (post : List Seg) (os : List Offset),
    Describes n c (pre ++ .use k a o :: post) os → ∃ os1 x os2, os = os1 ++ x :: os2 ∧ Describes n c pre os1 ∧
      x.range = ⟨⟨n, c + userLen pre⟩, ⟨n, c + userLen pre + k⟩⟩ ∧ x.diff = Int.ofNat o - Int.ofNat k ∧
      Describes n (c + userLen pre + k + a) post os2
  | [], c, k, a, o, post, os, h => by
    obtain ⟨x, os', rfl, h1, h2, h3, h4⟩ := h
    exact ⟨[], x, os', rfl, rfl, by simpa [userLen] using h1, h2, by simpa [userLen] using h4⟩
  | .text m :: pre, c, k, a, o, post, os, h => by
    obtain ⟨os1, x, os2, e, h1, h2, h3, h4⟩ := describes_split pre (c + m) k a o post os h
    refine ⟨os1, x, os2, e, h1, ?_, h3, ?_⟩
    · rw [h2]; simp only [userLen, List.map_cons, List.sum_cons, Seg.user, Nat.add_assoc]
    · simpa only [userLen, List.map_cons, List.sum_cons, Seg.user, Nat.add_assoc] using h4
  | .use m b r :: pre, c, k, a, o, post, os, h => by
    obtain ⟨y, os', rfl, g1, g2, g3, g4⟩ := h
    obtain ⟨os1, x, os2, e, h1, h2, h3, h4⟩ := describes_split pre (c + m + b) k a o post os' g4
    refine ⟨y :: os1, x, os2, by rw [e]; rfl, ⟨y, os1, rfl, g1, g2, g3, h1⟩, ?_, h3, ?_⟩
    · rw [h2]; simp only [userLen, List.map_cons, List.sum_cons, Seg.user, Nat.add_assoc]
    · simpa only [userLen, List.map_cons, List.sum_cons, Seg.user, Nat.add_assoc] using h4

theorem describes_within {n : Nat} : ∀ (l : List Seg) (c : Nat) (os : List Offset), Describes n c l os → Named l →
    ∀ x ∈ os, x.range.s.line = n ∧ x.range.e.line = n ∧ c ≤ x.range.s.char ∧ x.range.s.char < x.range.e.char ∧ x.range.e.char ≤ c + userLen l
  | [], c, os, h, _, x, hx => by simp only [Describes] at h; subst h; simp at hx
  | .text k :: l, c, os, h, hn, x, hx => by
    have := describes_within l (c + k) os h (fun a b d hm => hn a b d (by simp [hm])) x hx
    simp only [userLen, List.map_cons, List.sum_cons, Seg.user] at this ⊢
    omega
  | .use k a o :: l, c, os, h, hn, x, hx => by
    obtain ⟨y, os', rfl, h1, h2, h3, h4⟩ := h
    have hk := hn k a o (by simp)
    rcases List.mem_cons.1 hx with rfl | hx
    · rw [h1]
      simp only [userLen, List.map_cons, List.sum_cons, Seg.user]
      exact ⟨trivial, trivial, by omega, by omega, by omega⟩
    · have := describes_within l (c + k + a) os' h4 (fun a b d hm => hn a b d (by simp [hm])) x hx
      simp only [userLen, List.map_cons, List.sum_cons, Seg.user] at this ⊢
      omega

theorem contains_line {x : Offset} {n u : Nat} (hs : x.range.s.line = n) (he : x.range.e.line = n) :
    x.contains ⟨n, u⟩ = true ↔ x.range.s.char ≤ u ∧ u ≤ x.range.e.char := by
  have h1 : ¬ (x.range.s.line > n ∨ x.range.e.line < n) := by omega
  unfold Offset.contains
  rw [if_neg h1]
  split
  · next h => simp only at h; simp only [Bool.false_eq_true, false_iff]; omega
  · next h => simp only at h; simp only [true_iff]; omega

theorem dropWhile_trim (p : Char → Bool) : ∀ t : Str, ∃ a, t = a ++ t.dropWhile p ∧ (∀ c ∈ a, p c = true) ∧ ∀ c, (t.dropWhile p).head? = some c → p c = false
  | [] => ⟨[], rfl, by simp, by simp⟩
  | c :: t => by
    cases hc : p c with
    | false => exact ⟨[], by simp [List.dropWhile, hc], by simp, by simp [List.dropWhile, hc]⟩
    | true =>
      obtain ⟨a, h1, h2, h3⟩ := dropWhile_trim p t
      have e : (c :: t).dropWhile p = t.dropWhile p := by simp [List.dropWhile, hc]
      refine ⟨c :: a, by rw [e, List.cons_append, ← h1], ?_, by rw [e]; exact h3⟩
      intro d hd
      rcases List.mem_cons.1 hd with rfl | hd
      · exact hc
      · exact h2 d hd

/-- `str::trim` removes the white space at both ends, and nothing else. -/
theorem trim_trimmed (t : Str) : Verif.Text.Trimmed t (trim t) := by
  obtain ⟨a, h1, h2, h3⟩ := dropWhile_trim Verif.Text.whiteSpace t
  obtain ⟨b, g1, g2, g3⟩ := dropWhile_trim Verif.Text.whiteSpace (t.dropWhile Verif.Text.whiteSpace).reverse
  have e : t.dropWhile Verif.Text.whiteSpace = trim t ++ b.reverse := by
    unfold trim
    rw [← List.reverse_append, ← g1, List.reverse_reverse]
  refine ⟨a, b.reverse, by rw [List.append_assoc, ← e, ← h1], ?_, ?_⟩
  · intro c hc
    rcases List.mem_append.1 hc with hc | hc
    · exact h2 c hc
    · exact g2 c (List.mem_reverse.1 hc)
  · rintro c (hc | hc)
    · refine h3 c ?_
      rw [e]
      cases ht : trim t with
      | nil => rw [ht] at hc; cases hc
      | cons d r => rw [ht] at hc; simpa using hc
    · refine g3 c ?_
      unfold trim at hc
      rwa [List.getLast?_reverse] at hc

/-- A text has only one such rest, so nothing else is shown. -/
theorem trimmed_unique {t u : Str} (h : Verif.Text.Trimmed t u) : u = trim t := by
  obtain ⟨a, b, rfl, h1, h2⟩ := h
  have drop : ∀ (a r : Str), (∀ c ∈ a, Verif.Text.whiteSpace c = true) → (∀ c, r.head? = some c → Verif.Text.whiteSpace c = false) →
      (a ++ r).dropWhile Verif.Text.whiteSpace = r := by
    intro a
    induction a with
    | nil =>
      intro r _ hr
      cases r with
      | nil => rfl
      | cons c r => simp [List.dropWhile, hr c rfl]
    | cons c a ih =>
      intro r ha hr
      simp only [List.cons_append, List.dropWhile, ha c (by simp)]
      exact ih r (fun d hd => ha d (by simp [hd])) hr
  cases u with
  | nil =>
    have : (a ++ [] ++ b).dropWhile Verif.Text.whiteSpace = [] := by
      have := drop (a ++ b) [] h1 (by simp)
      simpa using this
    unfold trim
    rw [this]; rfl
  | cons c u =>
    unfold trim
    rw [List.append_assoc, drop a _ (fun d hd => h1 d (by simp [hd])) (by intro d hd; exact h2 d (.inl (by simpa using hd))), List.reverse_append,
      drop b.reverse _ (fun d hd => h1 d (by simp [List.mem_reverse.1 hd])) (by intro d hd; exact h2 d (.inr (by rwa [List.head?_reverse] at hd))),
      List.reverse_reverse]

/-- **C77, for a line**: where the recorded offsets describe the line, hovering over the name of a macro finds its use and shows what is
written in its place in the preprocessed line. Macros with arguments are included. -/
theorem hover_line (out : List Str) (offsets : List (Nat × Offset)) (n : Nat) (pre : List Seg) (k a o : Nat) (post : List Seg) (u : Nat) (txt : Str)
    (hd : Describes n 0 (pre ++ .use k a o :: post) (onLine offsets n)) (hn : Named (pre ++ .use k a o :: post))
    (ht : (textLines out)[n]? = some txt) (hlen : serverLen (pre ++ .use k a o :: post) = txt.length)
    (hu : userLen pre ≤ u ∧ u ≤ userLen pre + k) (hadj : ∀ x ∈ onLine offsets n, x.range.e.char ≠ userLen pre) :
    ∃ x ∈ onLine offsets n, x.range = ⟨⟨n, userLen pre⟩, ⟨n, userLen pre + k⟩⟩ ∧ (onLine offsets n).find? (·.contains ⟨n, u⟩) = some x ∧
      ∃ shown, Verif.Text.Trimmed ((txt.drop (serverLen pre)).take o) shown ∧ hoverText out offsets ⟨n, u⟩ x = some shown := by
  obtain ⟨os1, x, os2, e, h1, h2, h3, h4⟩ := describes_split pre 0 k a o post _ hd
  rw [Nat.zero_add] at h2 h4
  have hn1 : Named pre := fun a b d hm => hn a b d (by simp [hm])
  have hn2 : Named post := fun a b d hm => hn a b d (by simp [hm])
  have hk : 0 < k := hn k a o (by simp)
  have w1 := describes_within pre 0 os1 h1 hn1
  have w2 := describes_within post _ os2 h4 hn2
  refine ⟨x, by rw [e]; simp, h2, ?_, _, trim_trimmed _, ?_⟩
  · rw [e, List.find?_append]
    have hno : os1.find? (·.contains ⟨n, u⟩) = none := by
      rw [List.find?_eq_none]
      intro y hy hc
      obtain ⟨y1, y2, y3, y4, y5⟩ := w1 y hy
      have := (contains_line y1 y2).1 hc
      exact hadj y (by rw [e]; simp [hy]) (by omega)
    rw [hno, Option.none_or, List.find?_cons_of_pos]
    exact (contains_line (by rw [h2]) (by rw [h2])).2 (by rw [h2]; exact hu)
  · have hprev : (onLine offsets n).filter (fun p => decide (p.range.s.char < x.range.s.char)) = os1 := by
      rw [e, List.filter_append, List.filter_cons_of_neg (by simp), List.filter_eq_self.2, List.filter_eq_nil_iff.2, List.append_nil]
      · intro y hy
        have := w2 y hy
        simp only [h2, decide_eq_true_eq]; omega
      · intro y hy
        have := w1 y hy
        simp only [h2, decide_eq_true_eq]; omega
    have hs : shifted os1 x.range.s.char = serverLen pre := by
      have := shifted_describes pre 0 os1 0 h1
      rw [h2]; simpa using this
    have he : addSigned (shifted os1 x.range.e.char) x.diff = serverLen pre + o := by
      have := shifted_describes pre 0 os1 k h1
      rw [h2]
      dsimp only
      rw [Nat.add_comm (userLen pre) k, this, h3]
      simp only [addSigned, Int.ofNat_eq_natCast]; omega
    have hle : serverLen pre + o ≤ txt.length := by
      rw [← hlen, serverLen_append]
      simp only [serverLen, List.map_cons, List.sum_cons, Seg.server]; omega
    simp only [hoverText, hprev, hs, he, ht, Option.bind_some, slice]
    rw [if_pos ⟨by omega, hle⟩, Nat.add_sub_cancel_left]
    rfl

/-! ### Files -/

theorem onLine_mark (ofs : List (Nat × Offset)) (n : Nat) : onLine (ofs.map (fun e => (e.1, mark e.2))) n = (onLine ofs n).map mark := by
  unfold onLine
  rw [List.filter_map, List.map_map, List.map_map]
  rfl

theorem onLine_uses : ∀ (lines : List Line) (n : Nat), (∀ i line, lines[i]? = some line → ∀ u ∈ line.uses, u.name.range.s.line = n + i) →
    (∀ e ∈ lines.flatMap (fun l => l.uses.map fun u => (u.name.range.s.line, useMark l.macros u.name)), n ≤ e.1) ∧ ∀ i line, lines[i]? = some line →
      onLine (lines.flatMap (fun l => l.uses.map fun u => (u.name.range.s.line, useMark l.macros u.name))) (n + i) = line.uses.map (fun u => useMark line.macros u.name)
  | [], n, _ => by simp
  | l :: ls, n, h => by
    obtain ⟨ih1, ih2⟩ := onLine_uses ls (n + 1) (fun i line hl s hs => by have := h (i + 1) line (by simpa using hl) s hs; omega)
    have h0 : ∀ s ∈ l.uses, s.name.range.s.line = n := h 0 l rfl
    have e0 : l.uses.map (fun u => (u.name.range.s.line, useMark l.macros u.name)) = l.uses.map (fun s => (n, useMark l.macros s.name)) :=
      List.map_congr_left fun s hs => by rw [h0 s hs]
    refine ⟨fun e he => ?_, fun i line hl => ?_⟩
    · rw [List.flatMap_cons, e0] at he
      rcases List.mem_append.1 he with he | he
      · obtain ⟨s, -, rfl⟩ := List.mem_map.1 he; exact Nat.le_refl _
      · have := ih1 e he; omega
    · rw [List.flatMap_cons, onLine_append, e0]
      cases i with
      | zero =>
        simp only [List.getElem?_cons_zero, Option.some.injEq] at hl
        subst hl
        rw [onLine_none (l := ls.flatMap _) (fun e he => by have := ih1 e he; omega), List.append_nil]
        simp only [onLine, Nat.add_zero]
        rw [List.filter_eq_self.2 (by simp), List.map_map]
        rfl
      | succ i =>
        rw [List.getElem?_cons_succ] at hl
        rw [onLine_none (l := l.uses.map _) (fun e he => by obtain ⟨s, -, rfl⟩ := List.mem_map.1 he; dsimp only; omega), List.nil_append,
          show n + (i + 1) = n + 1 + i by omega]
        exact ih2 i line hl

/-- What is recorded for a line are its uses. -/
theorem line_marks {env : Env} {fr : Front} {toks : List Sym} {lines : List Line} (h : File env 0 fr toks lines) {ofs : List (Nat × Offset)}
    (h8 : ofs.map (fun e => (e.1, mark e.2)) = lines.flatMap (fun l => l.uses.map fun u => (u.name.range.s.line, useMark l.macros u.name)))
    {n : Nat} {line : Line} (hl : lines[n]? = some line) : (onLine ofs n).map mark = line.uses.map (fun u => useMark line.macros u.name) := by
  have := (onLine_uses lines 0 (fun i line hl u hu => ((file_lines h i line hl).each u hu).line.1)).2 n line hl
  rw [← h8, Nat.zero_add, onLine_mark] at this
  exact this

/-- The use at a position is found. -/
theorem find_use {ms : Macros} {n : Nat} {us : List Use} {os : List Offset} (hp : Arranged ms n 0 us)
    (h : os.map mark = us.map (fun u => useMark ms u.name)) {w : Use} (hw : w ∈ us) {u : Nat} (h1 : w.name.range.s.char ≤ u)
    (h2 : u ≤ w.name.range.e.char) (hadj : ∀ w' ∈ us, w'.name.range.e ≠ w.name.range.s) :
    ∃ o ∈ os, os.find? (·.contains ⟨n, u⟩) = some o ∧ mark o = useMark ms w.name := by
  obtain ⟨l1, l2, e⟩ := List.append_of_mem hw
  rw [e, List.map_append, List.map_cons, List.map_eq_append_iff] at h
  obtain ⟨o1, o2, rfl, g1, g2⟩ := h
  rw [List.map_eq_cons_iff] at g2
  obtain ⟨o, o3, rfl, g2, g3⟩ := g2
  have q3 := hp.order
  rw [e] at q3
  have q4 := (List.pairwise_append.1 q3).2.2
  have rng : ∀ {o : Offset} {s : Sym}, mark o = useMark ms s → o.range = s.range := fun h => (Prod.mk.inj h).1
  refine ⟨o, by simp, ?_, g2⟩
  rw [List.find?_append, List.find?_eq_none.2, Option.none_or, List.find?_cons_of_pos]
  · rw [contains_line (by rw [rng g2]; exact (hp.each w hw).line.1) (by rw [rng g2]; exact (hp.each w hw).line.2), rng g2]
    exact ⟨h1, h2⟩
  · intro x hx hc
    obtain ⟨y, hy, g4⟩ := List.mem_map.1 (show mark x ∈ l1.map (fun u => useMark ms u.name) by rw [← g1]; exact List.mem_map.2 ⟨x, hx, rfl⟩)
    have hy' : y ∈ us := by rw [e]; simp [hy]
    have wy := hp.each y hy'
    rw [contains_line (by rw [rng g4.symm]; exact wy.line.1) (by rw [rng g4.symm]; exact wy.line.2), rng g4.symm] at hc
    have := q4 y hy w (by simp)
    refine hadj y hy' ?_
    have ws := (hp.each w hw).line
    have wl := wy.line
    have wn := wy.name
    cases hye : y.name.range.e with
    | mk a b =>
      cases hss : w.name.range.s with
      | mk a' b' =>
        rw [hye] at wl hc wn
        rw [hss] at ws h1 this
        simp only [Pos.mk.injEq] at *
        omega

/-- **C62, from the source to the answer (for files of a class)**: files of code, definitions, includes, conditional directives and code that is not
compiled. On every name of a macro in code (in calls as well) and in conditions, going to the definition finds the item that the macro in force has the number of. -/
theorem goto_use_partial (env : Env) (ms : Macros) (tokens : List Sym) (lines : List Line) (hf : File env 0 ⟨ms, 0, []⟩ tokens lines) :
    ∃ r, Gives env ms tokens (.result r) ∧ ∀ (n : Nat) (line : Line), lines[n]? = some line → ∀ w ∈ line.uses, ∀ m, line.macros w.name.text = some m →
      (∀ w' ∈ line.uses, w'.name.range.e ≠ w.name.range.s) → ∀ u, w.name.range.s.char ≤ u → u ≤ w.name.range.e.char →
      ∀ trees item, getMacro (trees m.fileId) m.idx = some item → ∃ o, gotoMacro trees r.offsets ⟨n, u⟩ = some (o, item) ∧ o.range = w.name.range := by
  obtain ⟨f, r, -, -, ofs, am, h1, -, -, h4, -, -, -, -, -, h8⟩ := file_result hf
  simp only [List.nil_append] at h4
  refine ⟨r, Verif.Props.Conditional.gives_of f h1, ?_⟩
  intro n line hl w hw m hm hadj u hu1 hu2 trees item hitem
  have harr := file_lines hf n line hl
  rw [Nat.zero_add] at harr
  obtain ⟨o, -, ho, hom⟩ := find_use harr (line_marks hf h8 hl) hw hu1 hu2 hadj
  simp only [mark, useMark, hm, Option.map_some, Prod.mk.injEq, Option.some.injEq] at hom
  refine ⟨o, ?_, hom.1⟩
  rw [h4]
  simp only [gotoMacro, ho, hom.2.1, hom.2.2, hitem, Option.bind_eq_bind, Option.bind_some]

/-- Each offset of a described line is that of a use. -/
theorem describes_mem {n : Nat} : ∀ (l : List Seg) (c : Nat) (os : List Offset), Describes n c l os → ∀ x ∈ os,
    ∃ pre k a o post, l = pre ++ .use k a o :: post ∧ x.range = ⟨⟨n, c + userLen pre⟩, ⟨n, c + userLen pre + k⟩⟩
  | [], c, os, h, x, hx => by simp only [Describes] at h; subst h; simp at hx
  | .text k :: l, c, os, h, x, hx => by
    obtain ⟨pre, k', a, o, post, rfl, e⟩ := describes_mem l (c + k) os h x hx
    refine ⟨.text k :: pre, k', a, o, post, rfl, ?_⟩
    rw [e]; simp only [userLen, List.map_cons, List.sum_cons, Seg.user, Nat.add_assoc]
  | .use k a o :: l, c, os, h, x, hx => by
    obtain ⟨y, os', rfl, h1, h2, h3, h4⟩ := h
    rcases List.mem_cons.1 hx with rfl | hx
    · exact ⟨[], k, a, o, l, rfl, by simpa [userLen] using h1⟩
    · obtain ⟨pre, k', a', o', post, rfl, e⟩ := describes_mem l (c + k + a) os' h4 x hx
      refine ⟨.use k a o :: pre, k', a', o', post, rfl, ?_⟩
      rw [e]; simp only [userLen, List.map_cons, List.sum_cons, Seg.user, Nat.add_assoc]

/-- **C77, from the source to the answer (for files of a class)**: files of code, definitions, includes, conditional directives and code that is not
compiled. On every line of code, hovering over the name in any macro use (a call as well) that does not touch the one before it marks the name and shows
the macro in force with what the use stands for, up to blanks. What is missing: expansions nested too deep (C24), uses that expand to nothing, and what is
missing in `Offsets.positions_partial`. -/
theorem hover_partial (env : Env) (ms : Macros) (tokens : List Sym) (lines : List Line) (hf : File env 0 ⟨ms, 0, []⟩ tokens lines) (hb : Unbroken lines) :
    ∃ r, Gives env ms tokens (.result r) ∧ ∀ (n : Nat) (line : Line), lines[n]? = some line → line.kept → ∀ w ∈ line.uses,
      ∀ m, line.macros w.name.text = some m → (∀ w' ∈ line.uses, w'.name.range.e ≠ w.name.range.s) → ∀ u, w.name.range.s.char ≤ u → u ≤ w.name.range.e.char →
      ∀ full, Means line.macros w full → ∀ trees item, getMacro (trees m.fileId) m.idx = some item →
        ∃ text shown, Spelled full text ∧ Verif.Text.Trimmed text shown ∧
          macroHover r.out trees r.offsets ⟨n, u⟩ = some (w.name.range, item, some shown) := by
  obtain ⟨f, r, outs, ofs, am, h1, -, h3, h4, -, h7, h8⟩ := file_text hf hb
  refine ⟨r, Verif.Props.Conditional.gives_of f h1, ?_⟩
  intro n line hn hkept w hs m hm hadj u hu1 hu2 full hfull trees item hitem
  obtain ⟨txt, ht, hok⟩ := h7 n line hn
  obtain ⟨segs, hok, -⟩ := hok hkept
  have harr := file_lines hf n line hn
  rw [Nat.zero_add] at harr
  have uniq : ∀ a ∈ line.uses, ∀ b ∈ line.uses, a.name.range.s = b.name.range.s → a = b := fun a ha b hb => arranged_start harr ha hb
  obtain ⟨o, ho, hor⟩ : ∃ o ∈ onLine ofs n, o.range = w.name.range := by
    have : useMark line.macros w.name ∈ (onLine ofs n).map mark := by rw [line_marks hf h8 hn]; exact List.mem_map.2 ⟨w, hs, rfl⟩
    obtain ⟨o, ho, e⟩ := List.mem_map.1 this
    exact ⟨o, ho, (Prod.mk.inj e).1⟩
  obtain ⟨pre, k, a, l, post, rfl, hr⟩ := describes_mem _ _ _ hok.describes o ho
  rw [Nat.zero_add] at hr
  obtain ⟨s', hs', hu', hr', -, hw⟩ := hok.spans pre k a l post rfl
  have : s' = w := uniq s' hs' w hs (by rw [hr', ← hor, hr])
  subst this
  rw [h4]
  obtain ⟨x, hx, hxr, hfind, shown, htrim, htext⟩ := hover_line r.out ofs n pre k a l post u txt hok.describes hok.named (by rw [h3]; exact ht) hok.same.2.1
    (by rw [hr'] at hu1 hu2; exact ⟨hu1, hu2⟩) (fun x hx e => by
      obtain ⟨s2, q1, q2, q3, -⟩ := hok.uses x hx
      obtain ⟨w1, w2, -⟩ := describes_within _ _ _ hok.describes hok.named x hx
      refine hadj s2 q1 ?_
      rw [← q3, hr']
      cases hxe : x.range.e with
      | mk a b =>
        rw [hxe] at w2 e
        simp only at w2 e
        rw [w2, e])
  obtain ⟨s2, q1, q2, q3, m', q4, q5, q6⟩ := hok.uses x hx
  have : s2 = s' := uniq s2 q1 s' hs' (by rw [← q3, hxr, hr'])
  subst this
  rw [hm] at q4; cases q4
  refine ⟨_, shown, written_full hw (harr.each s2 hs) hfull, htrim, ?_⟩
  have hgoto : gotoMacro trees ofs ⟨n, u⟩ = some (x, item) := by
    simp only [gotoMacro, hfind, q5, q6, hitem, Option.bind_eq_bind, Option.bind_some]
  simp only [macroHover, hgoto, Option.map_some, htext, hxr, hr']

/-! ### Examples -/

/-- Trees in which macro 0 and 1 are items. -/
def sampleTree : Nat → Verif.Hir.Items.Tree := fun _ =>
  { top := [.macroDef 0, .macroDef 1], macros := [⟨"A", 0⟩, ⟨"B", 1⟩] }

/-- The second line of the sample file is `⇥B z`, `B` is `x A`, `A` is `1 + 2`: hovering over `B` shows `x 1 + 2`. -/
example : ∃ r, preprocess ⟨.debug, 0, fun _ ms => ms⟩ 60 sampleMacros sampleTokens = some (.result r) ∧
    (macroHover r.out sampleTree r.offsets ⟨1, 2⟩).map (fun h => (h.1, h.2.2)) = some (⟨⟨1, 1⟩, ⟨1, 2⟩⟩, some "x 1 + 2".toList) := by
  exact ⟨_, rfl, by decide⟩

/-- Its hypotheses hold of it. -/
example : Full sampleMacros 2 [(.ident, "B".toList)]
    [(.ident, "x".toList), (.intLit, "1".toList), (.op .plus, "+".toList), (.intLit, "2".toList)] := by
  refine .use (b := [(.ident, "x".toList), (.intLit, "1".toList), (.op .plus, "+".toList), (.intLit, "2".toList)]) (r := [])
    (m := ⟨0, 1, none, 0, [⟨.ident, "x".toList, ⟨0, 1⟩, none⟩, ⟨.ident, "A".toList, ⟨0, 1⟩, none⟩]⟩) (by decide) rfl ?_ .nil
  refine .undefined (by decide) (.use (b := [(.intLit, "1".toList), (.op .plus, "+".toList), (.intLit, "2".toList)]) (r := [])
    (m := ⟨0, 0, none, 0, [⟨.intLit, "1".toList, ⟨0, 1⟩, some 1⟩, ⟨.op .plus, "+".toList, ⟨0, 1⟩, none⟩, ⟨.intLit, "2".toList, ⟨0, 1⟩, some 2⟩]⟩)
    (by decide) rfl ?_ .nil)
  exact .keep (by decide) (by decide) (.keep (by decide) (by decide) (.keep (by decide) (by decide) .nil))

/-- The sample file with directives: hovering over `A` on line 2 shows `12`. -/
example : ∃ r, preprocess dirEnv 60 (fun _ => none) dirTokens = some (.result r) ∧
    (macroHover r.out sampleTree r.offsets ⟨2, 0⟩).map (fun h => (h.1, h.2.2)) = some (⟨⟨2, 0⟩, ⟨2, 1⟩⟩, some "12".toList) :=
  ⟨_, rfl, by decide⟩

example : ∃ r, Gives dirEnv (fun _ => none) dirTokens (.result r) ∧ ∃ text shown, Spelled [(.intLit, "12".toList)] text ∧ Verif.Text.Trimmed text shown ∧
    macroHover r.out sampleTree r.offsets ⟨2, 0⟩ = some (⟨⟨2, 0⟩, ⟨2, 1⟩⟩, ⟨"A", 0⟩, some shown) := by
  obtain ⟨r, h1, h2⟩ := hover_partial _ _ _ _ dir_file dir_unbroken
  refine ⟨r, h1, h2 2 _ rfl (.inl rfl) ⟨sampleTok .ident "A" 2 0, []⟩ (by simp) dirMacro rfl ?_ 0 (by decide) (by decide) _ (.name (d := 1) (by decide) ?_) _ _ rfl⟩
  · intro s hs; simp at hs; subst hs; decide
  · exact .use (b := [(.intLit, "12".toList)]) (r := []) (m := dirMacro) (by decide) rfl (.keep (by decide) (by decide) (.blank (by decide) .nil)) .nil

/-- **C77 is violated** in conditions: hovering over `A` in `#if A > 2` finds the macro but shows no expansion. -/
theorem condition_refuted : ∃ r, Gives dirEnv (fun _ => none) dirTokens (.result r) ∧
    (macroHover r.out sampleTree r.offsets ⟨1, 4⟩).map (fun h => (h.1, h.2.2)) = some (⟨⟨1, 4⟩, ⟨1, 5⟩⟩, none) :=
  ⟨_, Verif.Props.Conditional.gives_of 60 rfl, by decide⟩

/-- `x E A;` with `E` empty and `A` as `1 + 2`. -/
def emptyBefore : List Sym :=
  [sampleTok .ident "x" 0 0, sampleTok .ident "E" 0 2 1, sampleTok .ident "A" 0 4 1, sampleTok .semicolon ";" 0 5, sampleTok .eof "" 0 6]

def emptyMacros : Macros := fun x => if x = "E".toList then some ⟨0, 1, none, 0, []⟩ else sampleMacros x

/-- **C77 is violated** after a use of an empty macro on the line: the preprocessed text is `x 1 + 2;`, hovering over `A` shows `+ 2;`. -/
theorem hover_refuted : ∃ r, Gives ⟨.debug, 0, fun _ ms => ms⟩ emptyMacros emptyBefore (.result r) ∧ r.out = ["x 1 + 2;".toList] ∧
    (macroHover r.out sampleTree r.offsets ⟨0, 4⟩).map (·.2.2) = some (some "+ 2;".toList) :=
  ⟨_, Verif.Props.Conditional.gives_of 40 rfl, by decide, by decide⟩

def callTree : Nat → Verif.Hir.Items.Tree := fun _ =>
  { top := [.macroDef 0, .macroDef 1, .macroDef 2], macros := [⟨"A", 0⟩, ⟨"B", 1⟩, ⟨"F", 2⟩] }

/-- The sample file with a call: hovering over `F` in `y = F(ab,A) z` shows what the call stands for, `foo(ab) + 1 + 2`. -/
example : ∃ r, Gives callEnv callMacros callTokens (.result r) ∧ ∃ full text shown, Spelled full text ∧ Verif.Text.Trimmed text shown ∧ full.length = 8 ∧
    macroHover r.out callTree r.offsets ⟨0, 4⟩ = some (⟨⟨0, 4⟩, ⟨0, 5⟩⟩, ⟨"F", 2⟩, some shown) := by
  obtain ⟨r, h1, h2⟩ := hover_partial _ _ _ _ (call_file callEnv) call_unbroken
  obtain ⟨text, shown, h3, h5, h4⟩ := h2 0 _ rfl (.inl rfl) callUse (by simp) callMacro rfl (by intro w hw; simp at hw; subst hw; decide) 4 (by decide) (by decide) _ call_means callTree ⟨"F", 2⟩ rfl
  exact ⟨r, h1, _, text, shown, h3, h5, rfl, h4⟩

example : ∃ r, preprocess callEnv 60 callMacros callTokens = some (.result r) ∧
    (macroHover r.out callTree r.offsets ⟨0, 4⟩).map (·.2.2) = some (some "foo(ab) + 1 + 2".toList) :=
  ⟨_, rfl, by decide⟩

/-- **C77 is violated** in the arguments of a call: there is nothing to show for `A` in `y = F(ab,A) z`. -/
theorem argument_refuted : ∃ r, Gives callEnv callMacros callTokens (.result r) ∧ callMacros "A".toList ≠ none ∧
    macroHover r.out callTree r.offsets ⟨0, 9⟩ = none :=
  ⟨_, Verif.Props.Conditional.gives_of 60 rfl, by decide, by decide⟩

/-- The sample file with a call of a macro that calls another one: hovering over `INC` in `y=INC(a) z` shows `(a+1*a+1)`. -/
def deepTree : Nat → Verif.Hir.Items.Tree := fun _ =>
  { top := [.macroDef 0, .macroDef 1, .macroDef 2], macros := [⟨"SQ", 0⟩, ⟨"INC", 1⟩, ⟨"ONE", 2⟩] }

example : ∃ r, Gives callEnv Verif.Props.MacroDeep.exDeep deepTokens (.result r) ∧ ∃ full text shown, Spelled full text ∧ Verif.Text.Trimmed text shown ∧ full.length = 9 ∧
    macroHover r.out deepTree r.offsets ⟨0, 3⟩ = some (⟨⟨0, 2⟩, ⟨0, 5⟩⟩, ⟨"INC", 1⟩, some shown) := by
  obtain ⟨r, h1, h2⟩ := hover_partial _ _ _ _ (deep_file callEnv) deep_unbroken
  obtain ⟨text, shown, h3, h5, h4⟩ := h2 0 _ rfl (.inl rfl) deepUse (by simp) Verif.Props.MacroDeep.exInc (by decide) (by intro w hw; simp at hw; subst hw; decide) 3 (by decide) (by decide) _
    (.deepCall (d := 2) deep_call (by decide) Verif.Props.MacroDeep.inc_deep) deepTree ⟨"INC", 1⟩ rfl
  exact ⟨r, h1, _, text, shown, h3, h5, rfl, h4⟩

example : ∃ r, preprocess callEnv 60 Verif.Props.MacroDeep.exDeep deepTokens = some (.result r) ∧
    (macroHover r.out deepTree r.offsets ⟨0, 3⟩).map (·.2.2) = some (some "(a+1*a+1)".toList) :=
  ⟨_, rfl, by decide⟩

end Verif.Props.Hover
