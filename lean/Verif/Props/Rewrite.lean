import Verif.Pre.RewriteSpec
import Verif.Props.Hover
/-!
# C103: the text that is analysed is the file with its macros replaced
-/

namespace Verif.Props.Rewrite
open Verif.Pre Verif.Pre.Spec Verif.Props.Offsets Verif.Props.Position

/-- Text before what is rewritten. -/
theorem rewritten_text {ms : Macros} {c : Nat} {us : List Use} {src txt a a' : Str} (h : Rewritten ms (c + a.length) us src txt)
    (ha : a.map shown = a'.map shown) : Rewritten ms c us (a ++ src) (a' ++ txt) := by
  generalize hd : c + a.length = d at h
  cases h with
  | rest h => exact .rest (by rw [List.map_append, List.map_append, ha, h])
  | @use _ u us b b' used src txt t full h1 h2 h3 h4 h5 h6 =>
    have e : c + (a ++ b).length = d + b.length := by rw [List.length_append]; omega
    rw [← List.append_assoc a, ← List.append_assoc a']
    refine .use (by rw [List.map_append, List.map_append, ha, h1]) (by rw [e]; exact h2) (by rw [e]; exact h3) h4 h5 (by rw [e]; exact h6)

theorem slice {α β : Type} {f : α → β} {s t : List α} {i j n : Nat}
    (h : ∀ k < n, (s[i + k]?).map f = (t[j + k]?).map f) : ((s.drop i).take n).map f = ((t.drop j).take n).map f := by
  apply List.ext_getElem?
  intro k
  by_cases hk : k < n
  · rw [List.getElem?_map, List.getElem?_map, List.getElem?_take_of_lt hk, List.getElem?_take_of_lt hk, List.getElem?_drop, List.getElem?_drop]
    exact h k hk
  · rw [List.getElem?_eq_none (by simp; omega), List.getElem?_eq_none (by simp; omega)]

theorem split_at {α : Type} (l : List α) (i n : Nat) : l.drop i = (l.drop i).take n ++ l.drop (i + n) := by
  rw [← List.drop_drop, List.take_append_drop]

/-- The offsets of a stretch of a line are those of its uses. -/
theorem line_rewritten {ms : Macros} {all : List Use} {n L : Nat} {src txt : Str} {allSegs : List Seg} {allOs : List Offset} {am : List (Rng × Rng)}
    (hok : LineOk ms all n L src txt allSegs allOs am) (harr : Arranged ms n 0 all) (hfull : ∀ u ∈ all, ∃ full, Means ms u full) :
    ∀ (segs pre : List Seg) (us : List Use) (os : List Offset), allSegs = pre ++ segs → Describes n (userLen pre) segs os →
      os.map (·.range) = us.map (·.name.range) → (∀ u ∈ us, u ∈ all) → Rewritten ms (userLen pre) us (src.drop (userLen pre)) (txt.drop (serverLen pre)) := by
  intro segs
  induction segs with
  | nil =>
    intro pre us os he hd hm hsub
    rw [List.append_nil] at he; subst he
    cases (show os = [] from hd)
    cases us with
    | cons u us => simp at hm
    | nil =>
      refine .rest ?_
      rw [hok.same.1, hok.same.2.1, List.drop_length, List.drop_length]
  | cons s segs ih =>
    intro pre us os he hd hm hsub
    have he' : allSegs = (pre ++ [s]) ++ segs := by rw [he]; simp
    have hlu : userLen pre + s.user ≤ src.length := by
      rw [← hok.same.1, he, userLen_append]
      simp only [userLen, List.map_cons, List.sum_cons]; omega
    have hls : serverLen pre + s.server ≤ txt.length := by
      rw [← hok.same.2.1, he, serverLen_append]
      simp only [serverLen, List.map_cons, List.sum_cons]; omega
    have eu : userLen (pre ++ [s]) = userLen pre + s.user := by rw [userLen_append]; simp [userLen]
    have es : serverLen (pre ++ [s]) = serverLen pre + s.server := by rw [serverLen_append]; simp [serverLen]
    cases s with
    | text k =>
      have hd' : Describes n (userLen pre + k) segs os := hd
      have := ih (pre ++ [.text k]) us os he' (by rw [eu]; exact hd') hm hsub
      rw [eu, es] at this
      have hlu' : userLen pre + k ≤ src.length := hlu
      rw [split_at src (userLen pre) k, split_at txt (serverLen pre) k]
      refine rewritten_text ?_ (slice fun j hj => hok.same.2.2 pre k segs j he hj)
      rw [List.length_take, List.length_drop, Nat.min_eq_left (by omega)]
      exact this
    | use k a o =>
      obtain ⟨x, os', rfl, hx, -, -, hd'⟩ := hd
      cases us with
      | nil => simp at hm
      | cons u us =>
        simp only [List.map_cons, List.cons.injEq] at hm
        obtain ⟨v, hv, -, hr, hstop, hw⟩ := hok.spans pre k a o segs he
        have hu : u ∈ all := hsub u (by simp)
        have : v = u := arranged_start harr hv hu (by rw [hr, ← hm.1, hx])
        subst this
        obtain ⟨full, hfu⟩ := hfull v hu
        have := ih (pre ++ [.use k a o]) us os' he' (by rw [eu]; simpa [Seg.user, Nat.add_assoc] using hd') hm.2 fun w hw => hsub w (by simp [hw])
        rw [eu, es] at this
        have hlu' : userLen pre + (k + a) ≤ src.length := hlu
        have hlen : ((src.drop (userLen pre)).take (k + a)).length = k + a := by
          rw [List.length_take, List.length_drop, Nat.min_eq_left (by omega)]
        rw [split_at src (userLen pre) (k + a), split_at txt (serverLen pre) o]
        exact Rewritten.use (a := []) (a' := []) rfl (by rw [hr]; simp) (by rw [hstop, hlen]; simp; omega) hfu
          (written_full hw (harr.each v hu) hfu) (by rw [hlen]; simpa [Seg.user, Seg.server] using this)

/-- **C103 (for files of a class)**: preprocessing a file gives as many lines as the file has. A line of code (or of a definition, an include, a comment) is
the line of the file in which the uses of macros are replaced, in order and in full, with what was in force there, and everything else is kept. A line
with a condition, or that is not compiled, has nothing left of it but comments. What is missing: files outside of the class (calls over several lines, uses that
expand to nothing, expansions nested too deep (C24), files with errors). -/
theorem analysed_text_partial (env : Env) (ms : Macros) (tokens : List Sym) (lines : List Line) (hf : File env 0 ⟨ms, 0, []⟩ tokens lines)
    (hb : Unbroken lines) : ∃ r, Gives env ms tokens (.result r) ∧ (textLines r.out).length = lines.length ∧
      ∀ (i : Nat) (line : Line) (txt : Str), lines[i]? = some line → (textLines r.out)[i]? = some txt →
        (line.kept → Rewritten line.macros 0 line.uses line.src txt) ∧ (¬ line.kept → OnlyComments tokens txt) := by
  obtain ⟨f, r, outs, ofs, am, h1, h2, h3, h4, h6, h7, h8⟩ := file_text_all hf hb
  refine ⟨r, Verif.Props.Conditional.gives_of f h1, by rw [h3]; exact h6, fun i line txt hl ht => ?_⟩
  obtain ⟨txt', ht', hn, hk⟩ := h7 i line hl
  rw [h3, ht'] at ht; cases ht
  refine ⟨fun hkept => ?_, fun hkept => (hn hkept).2⟩
  obtain ⟨segs, hok, -⟩ := hk hkept
  have harr := file_lines hf i line hl
  rw [Nat.zero_add] at harr
  have hm := congrArg (List.map Prod.fst) (Verif.Props.Hover.line_marks hf h8 hl)
  rw [List.map_map, List.map_map] at hm
  exact line_rewritten hok harr (fun u hu => by
    obtain ⟨full, hfu, -⟩ := (hb line (List.mem_of_getElem? hl) hkept).2 u hu
    exact ⟨full, hfu⟩) segs [] line.uses _ rfl hok.describes hm fun _ h => h

/-! ### Examples -/

/-- `#define A 12`, `#if A > 2`, `A z`, `#else`, `z`, `#endif`, ` A`. -/
example : ∃ r, Gives dirEnv (fun _ => none) dirTokens (.result r) ∧ (textLines r.out).length = 7 ∧
    ∀ (i : Nat) (line : Line) (txt : Str), dirLines[i]? = some line → (textLines r.out)[i]? = some txt →
      (line.kept → Rewritten line.macros 0 line.uses line.src txt) ∧ (¬ line.kept → OnlyComments dirTokens txt) :=
  analysed_text_partial _ _ _ _ dir_file dir_unbroken

/-- What its lines are. -/
example : ∃ r, Gives dirEnv (fun _ => none) dirTokens (.result r) ∧
    textLines r.out = ["#define A 12".toList, [], "12 z".toList, [], [], [], " 12".toList] :=
  ⟨_, Verif.Props.Conditional.gives_of 200 (r := _) rfl, by decide +kernel⟩

/-- `y = F(ab,A) z`. -/
example : ∃ r, Gives callEnv callMacros callTokens (.result r) ∧ (textLines r.out).length = 1 ∧
    ∀ (i : Nat) (line : Line) (txt : Str), callLines[i]? = some line → (textLines r.out)[i]? = some txt →
      (line.kept → Rewritten line.macros 0 line.uses line.src txt) ∧ (¬ line.kept → OnlyComments callTokens txt) :=
  analysed_text_partial _ _ _ _ (call_file _) call_unbroken

/-- Rewriting it leaves no choice but blanks in what the call stands for. -/
example (txt : Str) (h : Rewritten dirMacros 0 [⟨sampleTok .ident "A" 2 0, []⟩] "A z".toList txt) (hd : ∀ full, Means dirMacros ⟨sampleTok .ident "A" 2 0, []⟩ full →
    full = [(.intLit, "12".toList)]) : ∃ t, txt = "12".toList ++ t ∧ t.map shown = " z".toList := by
  generalize hsrc : "A z".toList = s at h
  cases h with
  | @use _ _ _ a a' used src txt t full h1 h2 h3 h4 h5 h6 =>
    have ha : a = [] := by
      cases a with
      | nil => rfl
      | cons c a => simp [sampleTok] at h2
    subst ha
    have ha' : a' = [] := by simpa using h1.symm
    subst ha'
    cases hd _ h4
    cases h5
    · cases h6 with
      | rest h =>
        have hu : used.length = 1 := by
          have : used.length = "A".length := by simpa [Use.stop, sampleTok] using h3.symm
          rw [this]; rfl
        match used, hu with
        | [c], _ =>
          simp only [List.nil_append, List.cons_append] at hsrc
          have : src = [' ', 'z'] := by
            have := congrArg List.tail hsrc
            simpa using this.symm
          subst this
          exact ⟨txt, rfl, by rw [← h]; decide⟩
    · rename_i h; nomatch h

end Verif.Props.Rewrite
