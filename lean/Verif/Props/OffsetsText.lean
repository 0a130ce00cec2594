import Verif.Props.OffsetsFile
import Verif.Props.MacroDeep
/-!
# C29, from the source to the answer: the lines of the preprocessed text
-/

namespace Verif.Props.Offsets
open Verif.Pre Verif.Pre.Spec Verif.Props.Position
open Verif.Props.Lines (breaks_append breaks_blanks)

/-! ### What is written for a use -/

theorem spelled_of : ∀ (t : Tok) (ts : List Tok), Spelled ((t :: ts).map ofTok) (t.text ++ textOf ts)
  | t, [] => by
    rw [textOf, List.append_nil]
    exact Spelled.one (ofTok t)
  | t, t' :: ts => by
    have := spelled_of t' ts
    have e : textOf (t' :: ts) = List.replicate t'.sym.delta.col.natAbs ' ' ++ (t'.text ++ textOf ts) := by simp only [textOf, blanks]
    rw [e]
    exact Spelled.cons (ofTok t) t'.sym.delta.col.natAbs this

/-- What is written for a use is spelt as what it stands for. -/
theorem written_full {ms : Macros} {u : Use} {text : Str} (h : Written ms u text) {n c : Nat} (harr : Arranged1 ms n c u) {r : List KT}
    (hm : Means ms u r) : Spelled r text := by
  obtain ⟨f, rest, t, ts, d, hx, rfl⟩ := h
  have key : ∀ {out : List Tok} {k : Nat}, Verif.Props.Macros.ExpandsTo ms true u.name.tok (u.args ++ rest) [] [] ⟨rest, out, [], .ok k⟩ → out = t :: ts := by
    intro out k ⟨g, hg⟩
    have h1 := hg f
    have h2 := Verif.Props.MacroTerm.expand_mono ms true u.name.tok (u.args ++ rest) [] [] f g _ hx
    rw [Nat.add_comm, h1] at h2
    simp only [Option.some.injEq, XOut.mk.injEq, true_and] at h2
    exact h2.1
  cases hm with
  | @name s d _ hd hf =>
    obtain ⟨out, rfl, hg⟩ := Verif.Props.Macros.object_macro_partial ms true s.tok rest [] [] _ r hd hf (.inl rfl)
    rw [List.append_nil] at hg
    rw [key hg]
    exact spelled_of t ts
  | call hc hd hf =>
    obtain ⟨out, k, rfl, hg⟩ := Verif.Props.MacroCall.call_partial hc (fun x hx => by rw [(harr.args x hx).1, harr.line.2]) rest hd hf
    rw [key hg]
    exact spelled_of t ts
  | deepName hk hms hp hd hf =>
    obtain ⟨out, rfl, hg⟩ := Verif.Props.MacroDeep.use_partial (allow := true) hms hp hk harr.delta.1 rest [] [] hd hf (.inl rfl)
    rw [List.append_nil] at hg
    rw [key hg]
    exact spelled_of t ts
  | @deepCall s args _ _ _ _ _ _ hc hd hf =>
    obtain ⟨l, mid, e, rfl, hl, -, he, hsep⟩ := hc.tokens
    obtain ⟨out, rfl, hg⟩ := Verif.Props.MacroDeep.call_partial (allow := true) hc.kind hc.isMacro hc.isParams hc.oneLine hl he hsep hc.enough hc.arguments hc.made
      (fun x hx => by
        rcases List.mem_cons.1 hx with rfl | hx
        · rw [harr.line.1, harr.line.2]; exact ⟨rfl, rfl⟩
        · have := harr.args x (by rcases List.mem_cons.1 hx with rfl | hx <;> simp_all)
          rw [this.1, this.2, harr.line.2]; exact ⟨rfl, rfl⟩)
      (fun x hx => by
        rcases List.mem_cons.1 hx with rfl | hx
        · exact harr.delta.1
        · exact harr.delta.2 x (by simp [hx]))
      rest [] [] hd hf (.inl rfl)
    rw [List.append_nil] at hg
    have hg' : Verif.Props.Macros.ExpandsTo ms true s.tok (l :: (mid ++ [e]) ++ rest) [] [] ⟨rest, out, [], .ok (e.range.e.char - l.range.s.char)⟩ := by simpa using hg
    rw [key hg']
    exact spelled_of t ts

theorem breaks_spelled {r : List KT} {t : Str} (h : Spelled r t) (hb : ∀ k ∈ r, breaks k.2 = 0) : breaks t = 0 := by
  induction h with
  | one k => exact hb k (by simp)
  | cons k n _ ih =>
    have h1 := hb k (by simp)
    have h2 := ih fun x hx => hb x (by simp [hx])
    rw [breaks_append, breaks_append, h1, h2]
    simp [breaks, List.count_replicate]

/-! ### The lines -/

theorem no_break {t : Str} : breaks t = 0 ↔ ∀ i : Nat, t[i]? ≠ some '\n' := by
  rw [breaks, List.count_eq_zero]
  constructor
  · intro h i hi
    exact h (List.mem_of_getElem? hi)
  · intro h hm
    obtain ⟨i, hi⟩ := List.mem_iff_getElem?.1 hm
    exact h i hi

/-- Every column is in a stretch. -/
theorem server_cases : ∀ (segs : List Seg) (j : Nat), j < serverLen segs →
    (∃ pre k post i, segs = pre ++ .text k :: post ∧ i < k ∧ j = serverLen pre + i) ∨
    ∃ pre k a o post i, segs = pre ++ .use k a o :: post ∧ i < o ∧ j = serverLen pre + i
  | [], j, h => by simp [serverLen] at h
  | s :: segs, j, h => by
    have e : serverLen (s :: segs) = s.server + serverLen segs := by simp [serverLen]
    by_cases hj : j < s.server
    · cases s with
      | text k => exact .inl ⟨[], k, segs, j, rfl, hj, by simp [serverLen]⟩
      | use k a o => exact .inr ⟨[], k, a, o, segs, j, rfl, hj, by simp [serverLen]⟩
    · rcases server_cases segs (j - s.server) (by omega) with ⟨pre, k, post, i, rfl, hi, hji⟩ | ⟨pre, k, a, o, post, i, rfl, hi, hji⟩
      · refine .inl ⟨s :: pre, k, post, i, rfl, hi, ?_⟩
        have : serverLen (s :: pre) = s.server + serverLen pre := by simp [serverLen]
        omega
      · refine .inr ⟨s :: pre, k, a, o, post, i, rfl, hi, ?_⟩
        have : serverLen (s :: pre) = s.server + serverLen pre := by simp [serverLen]
        omega

theorem line_breaks {ms : Macros} {uses : List Use} {n L : Nat} {src txt : Str} {segs : List Seg} {os : List Offset} {am : List (Rng × Rng)}
    (h : LineOk ms uses n L src txt segs os am) (hs : breaks src = 0) (hu : ∀ u ∈ uses, ∀ t, Written ms u t → breaks t = 0) : breaks txt = 0 := by
  rw [no_break]
  intro j hj
  have hlt : j < serverLen segs := by
    rw [h.same.2.1]
    exact (List.getElem?_eq_some_iff.1 hj).1
  rcases server_cases segs j hlt with ⟨pre, k, post, i, e, hi, rfl⟩ | ⟨pre, k, a, o, post, i, e, hi, rfl⟩
  · have := h.same.2.2 pre k post i e hi
    rw [hj] at this
    cases hc : src[userLen pre + i]? with
    | none => rw [hc] at this; simp at this
    | some c =>
      rw [hc] at this
      simp only [Option.map_some, Option.some.injEq] at this
      have : c = '\n' := shown_break.1 this
      subst this
      exact no_break.1 hs _ hc
  · obtain ⟨u, hu', -, -, -, hw⟩ := h.spans pre k a o post e
    refine no_break.1 (hu u hu' _ hw) i ?_
    rw [List.getElem?_take_of_lt hi, List.getElem?_drop]
    exact hj

/-- The result of preprocessing a file, line by line. -/
theorem file_text_all {env : Env} {ms : Macros} {tokens : List Sym} {lines : List Line} (hf : File env 0 ⟨ms, 0, []⟩ tokens lines) (hb : Unbroken lines) :
    ∃ f r outs ofs am, pLoop env f { lexer := tokens, macros := ms } = some (.result r) ∧ r.argsMap = am ∧ textLines r.out = outs ∧ r.offsets = ofs ∧
      outs.length = lines.length ∧
      (∀ (i : Nat) (line : Line), lines[i]? = some line → ∃ txt, outs[i]? = some txt ∧ (¬ line.kept → Bare tokens txt) ∧
        (line.kept → ∃ segs, LineOk line.macros line.uses i (counted (lines.take i)) line.src txt segs (onLine ofs i) (onLine am i) ∧
          ∀ u ∈ line.uses, ∀ x, Copied line.macros u x → ∃ e ∈ onLine am i, e.1 = x.range)) ∧
      ofs.map (fun e => (e.1, mark e.2)) = lines.flatMap (fun l => l.uses.map fun u => (u.name.range.s.line, useMark l.macros u.name)) := by
  obtain ⟨f, r, pushed, outs, ofs, am, h1, h2, h3, h4, -, -, h5, h6, h7, h8⟩ := file_result hf
  simp only [List.nil_append, Nat.zero_add] at h2 h3 h4 h7
  refine ⟨f, r, outs, ofs, am, h1, h2, ?_, h4, h6, fun i line hl => ?_, h8⟩
  · rw [textLines, h3, h5.2.2]
    refine splitLines_join h5.2.1 fun l hl => ?_
    obtain ⟨i, hi⟩ := List.mem_iff_getElem?.1 hl
    have hlt : i < lines.length := by rw [← h6]; exact (List.getElem?_eq_some_iff.1 hi).1
    obtain ⟨txt, ht, hn, hk⟩ := h7 i lines[i] (List.getElem?_eq_getElem hlt)
    rw [hi] at ht; cases ht
    by_cases hkept : lines[i].kept
    · obtain ⟨segs, hok, -⟩ := hk hkept
      obtain ⟨b1, b2⟩ := hb lines[i] (List.getElem_mem hlt) hkept
      refine line_breaks hok b1 fun u hu t hw => ?_
      obtain ⟨full, hm, hfull⟩ := b2 u hu
      exact breaks_spelled (written_full hw ((file_lines hf i _ (List.getElem?_eq_getElem hlt)).each u hu) hm) hfull
    · exact (hn hkept).1
  · obtain ⟨txt, ht, hn, hk⟩ := h7 i line hl
    exact ⟨txt, ht, hn, hk⟩

/-- The result of preprocessing a file, line by line. -/
theorem file_text {env : Env} {ms : Macros} {tokens : List Sym} {lines : List Line} (hf : File env 0 ⟨ms, 0, []⟩ tokens lines) (hb : Unbroken lines) :
    ∃ f r outs ofs am, pLoop env f { lexer := tokens, macros := ms } = some (.result r) ∧ r.argsMap = am ∧ textLines r.out = outs ∧ r.offsets = ofs ∧
      outs.length = lines.length ∧
      (∀ (i : Nat) (line : Line), lines[i]? = some line → ∃ txt, outs[i]? = some txt ∧
        (line.kept → ∃ segs, LineOk line.macros line.uses i (counted (lines.take i)) line.src txt segs (onLine ofs i) (onLine am i) ∧
          ∀ u ∈ line.uses, ∀ x, Copied line.macros u x → ∃ e ∈ onLine am i, e.1 = x.range)) ∧
      ofs.map (fun e => (e.1, mark e.2)) = lines.flatMap (fun l => l.uses.map fun u => (u.name.range.s.line, useMark l.macros u.name)) := by
  obtain ⟨f, r, outs, ofs, am, h1, h2, h3, h4, h6, h7, h8⟩ := file_text_all hf hb
  refine ⟨f, r, outs, ofs, am, h1, h2, h3, h4, h6, fun i line hl => ?_, h8⟩
  obtain ⟨txt, ht, -, hk⟩ := h7 i line hl
  exact ⟨txt, ht, hk⟩

end Verif.Props.Offsets
