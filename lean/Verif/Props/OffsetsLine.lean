import Verif.Pre.OffsetsSpec
import Verif.Props.Position
import Verif.Props.MacroDeep
import Verif.Props.Conditional
/-!
# C29, from the source to the answer: a line of code
-/

namespace Verif.Props.Offsets
open Verif.Pre Verif.Pre.Spec Verif.Props.Position

/-! ### Lines and their two texts -/

/-- The two texts of a line. -/
def Same (l : List Seg) (src txt : Str) : Prop :=
  userLen l = src.length ∧ serverLen l = txt.length ∧ ∀ pre k post i, l = pre ++ .text k :: post → i < k →
    (src[userLen pre + i]?).map shown = (txt[serverLen pre + i]?).map shown

theorem same_append {l l' : List Seg} {src src' txt txt' : Str} (h : Same l src txt) (h' : Same l' src' txt') :
    Same (l ++ l') (src ++ src') (txt ++ txt') := by
  refine ⟨by rw [userLen_append, h.1, h'.1, List.length_append], by rw [serverLen_append, h.2.1, h'.2.1, List.length_append], ?_⟩
  intro pre k post i he hi
  rcases List.append_eq_append_iff.1 he with ⟨as, h1, h2⟩ | ⟨bs, h1, h2⟩
  · -- inside of the second
    subst h1
    have := h'.2.2 as k post i h2 hi
    rw [userLen_append, serverLen_append, h.1, h.2.1, Nat.add_assoc, Nat.add_assoc, List.getElem?_append_right (by omega),
      List.getElem?_append_right (by omega)]
    simpa using this
  · cases bs with
    | nil =>
      simp only [List.append_nil] at h1
      simp only [List.nil_append] at h2
      subst h1
      have := h'.2.2 [] k post i (by simpa using h2.symm) hi
      rw [h.1, h.2.1, List.getElem?_append_right (by omega), List.getElem?_append_right (by omega)]
      simpa [userLen, serverLen] using this
    | cons b bs =>
      simp only [List.cons_append, List.cons.injEq] at h2
      obtain ⟨rfl, rfl⟩ := h2
      have := h.2.2 pre k bs i h1 hi
      have l1 : userLen pre + i < src.length := by
        rw [← h.1, h1, userLen_append]; simp only [userLen, List.map_cons, List.sum_cons, Seg.user]; omega
      have l2 : serverLen pre + i < txt.length := by
        rw [← h.2.1, h1, serverLen_append]; simp only [serverLen, List.map_cons, List.sum_cons, Seg.server]; omega
      rw [List.getElem?_append_left l1, List.getElem?_append_left l2]
      exact this

theorem same_nil : Same [] [] [] := ⟨rfl, rfl, by intro pre k post i h; simp at h⟩

theorem same_text {a b : Str} (h : a.map shown = b.map shown) : Same [.text a.length] a b := by
  have hl : a.length = b.length := by simpa using congrArg List.length h
  refine ⟨by simp [userLen, Seg.user], by simp [serverLen, Seg.server, hl], ?_⟩
  intro pre k post i he hi
  cases pre with
  | nil =>
    have := congrArg (·[i]?) h
    simpa [userLen, serverLen] using this
  | cons p pre => simp at he

theorem same_use (a a' b : Str) : Same [.use a.length a'.length b.length] (a ++ a') b := by
  refine ⟨by simp [userLen, Seg.user], by simp [serverLen, Seg.server], ?_⟩
  intro pre k post i he hi
  cases pre with
  | nil => simp at he
  | cons p pre => simp at he

theorem describes_append {n : Nat} : ∀ (l l' : List Seg) (c : Nat) (os os' : List Offset), Describes n c l os →
    Describes n (c + userLen l) l' os' → Describes n c (l ++ l') (os ++ os') := by
  intro l
  induction l with
  | nil => intro l' c os os' h h'; simp only [Describes] at h; subst h; simpa [userLen] using h'
  | cons s l ih =>
    intro l' c os os' h h'
    cases s with
    | text k =>
      refine ih l' (c + k) os os' h ?_
      simp only [userLen, List.map_cons, List.sum_cons, Seg.user] at h' ⊢
      rw [Nat.add_assoc]; exact h'
    | use k a o =>
      obtain ⟨x, os1, rfl, h1, h2, h3, h4⟩ := h
      refine ⟨x, os1 ++ os', rfl, h1, h2, h3, ih l' _ _ _ h4 ?_⟩
      simp only [userLen, List.map_cons, List.sum_cons, Seg.user] at h' ⊢
      rw [show c + k + a + (List.map Seg.user l).sum = c + (k + a + (List.map Seg.user l).sum) by omega]
      exact h'

/-- A column of the line is in text that both see or in a use of a macro. -/
theorem column_cases {n : Nat} : ∀ (l : List Seg) (c : Nat) (os : List Offset) (u : Nat), Describes n c l os →
    u < userLen l → (∃ pre k post i, l = pre ++ .text k :: post ∧ i < k ∧ u = userLen pre + i) ∨
      (∃ pre k a o post, l = pre ++ .use k a o :: post ∧ userLen pre ≤ u ∧ u < userLen pre + k + a) := by
  intro l
  induction l with
  | nil => intro c os u _ h; simp [userLen] at h
  | cons s l ih =>
    intro c os u hd hu
    cases s with
    | text k =>
      by_cases h : u < k
      · exact Or.inl ⟨[], k, l, u, rfl, h, by simp [userLen]⟩
      · have hu' : u - k < userLen l := by
          simp only [userLen, List.map_cons, List.sum_cons, Seg.user] at hu ⊢; omega
        rcases ih (c + k) os (u - k) hd hu' with ⟨pre, k', post, i, e, hi, he⟩ | ⟨pre, k', a, o, post, e, h1, h2⟩
        · refine Or.inl ⟨.text k :: pre, k', post, i, by rw [e]; rfl, hi, ?_⟩
          simp only [userLen, List.map_cons, List.sum_cons, Seg.user] at he ⊢; omega
        · refine Or.inr ⟨.text k :: pre, k', a, o, post, by rw [e]; rfl, ?_⟩
          simp only [userLen, List.map_cons, List.sum_cons, Seg.user] at h1 h2 ⊢; omega
    | use k a o =>
      obtain ⟨x, os1, rfl, h1, h2, h3, h4⟩ := hd
      by_cases h : u < k + a
      · exact Or.inr ⟨[], k, a, o, l, rfl, by simp [userLen], by simp [userLen]; omega⟩
      · have hu' : u - k - a < userLen l := by
          simp only [userLen, List.map_cons, List.sum_cons, Seg.user] at hu ⊢; omega
        rcases ih (c + k + a) os1 (u - k - a) h4 hu' with ⟨pre, k', post, i, e, hi, he⟩ | ⟨pre, k', a', o', post, e, h1, h2⟩
        · refine Or.inl ⟨.use k a o :: pre, k', post, i, by rw [e]; rfl, hi, ?_⟩
          simp only [userLen, List.map_cons, List.sum_cons, Seg.user] at he ⊢; omega
        · refine Or.inr ⟨.use k a o :: pre, k', a', o', post, by rw [e]; rfl, ?_⟩
          simp only [userLen, List.map_cons, List.sum_cons, Seg.user] at h1 h2 ⊢; omega

/-! ### Writing the tokens of an expansion -/

/-- Text of tokens with the blanks before them. -/
def textOf : List Tok → Str
  | [] => []
  | t :: ts => blanks t.sym.delta.col ++ (t.text ++ textOf ts)

theorem reaches_trans {env : Env} {a b c : PSt} (h : Reaches env a b) (h' : Reaches env b c) : Reaches env a c := by
  induction h with
  | refl => exact h'
  | step h1 h2 _ ih => exact .step h1 h2 (ih h')

theorem blanks_length {n : Int} (h : 0 ≤ n) : Int.ofNat (blanks n).length = n := by
  simp only [blanks, List.length_replicate, Int.ofNat_eq_natCast]; omega

/-- A plain token is written. -/
theorem active_plain {env : Env} {f : Nat} {t : Tok} {st : PSt} (hk : PlainKind t.kind) (hid : t.kind = .ident → st.macros t.text = none)
    (hi : st.intr = none) : processActive env f t st = .next (pushSym t.sym st) := by
  unfold processActive
  split
  · rename_i h; rw [h] at hk; exact hk.elim
  · rename_i d h
    rw [h] at hk
    cases d <;> first | exact hk.elim | rfl
  · rename_i h; rw [h] at hk; exact hk.elim
  · rename_i h
    simp [processIdent, hi, hid h]
  · rename_i h; rw [h] at hk; exact hk.elim
  · rename_i h; rw [h] at hk; exact hk.elim
  · have : ({ st with intr := none } : PSt) = st := by rw [← hi]
    simp [hi, this]
  · simp [hi]
  · rename_i h; rw [h] at hk; exact hk.elim
  · rfl

theorem plain_not_eof {k : Kind} (h : PlainKind k) : k ≠ .eof := by intro e; rw [e] at h; exact h

/-- What is recorded for a token: where it comes from and where it goes, if it is part of an argument. -/
def argEntry (t : Tok) (p : Pos) : List (Nat × Rng × Rng) :=
  match t.orig with
  | some r => [(r.s.line, r, ⟨⟨p.line, (Int.ofNat p.char + t.sym.delta.col).toNat⟩,
      ⟨p.line, (Int.ofNat p.char + t.sym.delta.col).toNat + (t.sym.range.e.char - t.sym.range.s.char)⟩⟩)]
  | none => []

theorem noteArg_eq (t : Tok) (st : PSt) : noteArg t st = { st with argsMap := st.argsMap ++ argEntry t st.pos } := by
  unfold noteArg argEntry
  cases t.orig <;> simp [currentRange]

/-- The entries `new` are those of the tokens `ts`, written from column `c` of line `L` on. -/
def Noted (L c : Nat) (ts : List Tok) (new : List (Nat × Rng × Rng)) : Prop :=
  (∀ e ∈ new, ∃ a t b, ts = a ++ t :: b ∧ t.orig = some e.2.1 ∧ e.1 = e.2.1.s.line ∧
    e.2.2.s = ⟨L, c + (textOf a).length + (blanks t.sym.delta.col).length⟩) ∧
  ∀ t ∈ ts, ∀ r, t.orig = some r → ∃ e ∈ new, e.2.1 = r

theorem noted_nil {L c : Nat} : Noted L c [] [] := ⟨by simp, by simp⟩

theorem noted_cons {L c : Nat} {t : Tok} {ts : List Tok} {new : List (Nat × Rng × Rng)} (ht : 0 ≤ t.sym.delta.col)
    (h : Noted L (c + (blanks t.sym.delta.col).length + t.text.length) ts new) : Noted L c (t :: ts) (argEntry t ⟨L, c⟩ ++ new) := by
  have hb := blanks_length ht
  constructor
  · intro e he
    rcases List.mem_append.1 he with he | he
    · unfold argEntry at he
      split at he
      · rename_i r hr
        simp only [List.mem_singleton] at he
        subst he
        refine ⟨[], t, ts, rfl, hr, rfl, ?_⟩
        simp only [Pos.mk.injEq, true_and, textOf, List.length_nil, Nat.add_zero]
        simp only [Int.ofNat_eq_natCast] at hb ⊢; omega
      · simp at he
    · obtain ⟨a, t', b, h1, h2, h3, h4⟩ := h.1 e he
      refine ⟨t :: a, t', b, by rw [h1]; rfl, h2, h3, ?_⟩
      rw [h4]
      simp only [Pos.mk.injEq, true_and, textOf, List.length_append]; omega
  · intro x hx r hr
    rcases List.mem_cons.1 hx with rfl | hx
    · refine ⟨_, List.mem_append_left _ (by unfold argEntry; rw [hr]; exact List.mem_singleton_self _), rfl⟩
    · obtain ⟨e, he, h'⟩ := h.2 x hx r hr
      exact ⟨e, List.mem_append_right _ he, h'⟩

theorem textOf_append : ∀ (a b : List Tok), textOf (a ++ b) = textOf a ++ textOf b := by
  intro a
  induction a with
  | nil => intro b; rfl
  | cons t a ih => intro b; simp [textOf, ih]

/-- Where a recorded token is found. -/
theorem noted_found {L : Nat} {line : Str} {ts : List Tok} {new : List (Nat × Rng × Rng)} (h : Noted L line.length ts new) :
    ∀ e ∈ new, ∃ t ∈ ts, t.orig = some e.2.1 ∧ e.1 = e.2.1.s.line ∧ e.2.2.s.line = L ∧ Found (line ++ textOf ts) e.2.2.s.char t.text := by
  intro e he
  obtain ⟨a, t, b, rfl, h2, h3, h4⟩ := h.1 e he
  refine ⟨t, by simp, h2, h3, by rw [h4], line ++ (textOf a ++ blanks t.sym.delta.col), textOf b, by simp [textOf_append, textOf], ?_⟩
  rw [h4]; simp; omega

/-- The tokens on the expansion stack are written one after the other. -/
theorem drain {env : Env} {ms : Macros} {O : Option Rng → Str → Prop} : ∀ (ts : List Tok) (st : PSt), st.stack = ts → (∀ t ∈ ts, Left PlainKind ms O t) →
    st.macros = ms → st.intr = none → skipping st.conds = false → ∀ c, st.colOffset = some c →
    ∃ st' new, Reaches env st st' ∧ st'.stack = [] ∧ st'.line = st.line ++ textOf ts ∧ st'.colOffset = some (c + Int.ofNat (textOf ts).length) ∧
      st'.macros = ms ∧ st'.intr = none ∧ st'.conds = st.conds ∧ st'.lexer = st.lexer ∧ st'.out = st.out ∧ st'.disabled = st.disabled ∧
      st'.offsets = st.offsets ∧ st'.argsMap = st.argsMap ++ new ∧ st'.expanded = st.expanded ∧ st'.argsDiff = st.argsDiff ∧ st'.idx = st.idx ∧
      st'.pos = ⟨st.pos.line, st.pos.char + (textOf ts).length⟩ ∧ Noted st.pos.line st.pos.char ts new := by
  intro ts
  induction ts with
  | nil =>
    intro st hs _ hm hi _ c hc
    exact ⟨st, [], .refl _, hs, by simp [textOf], by simp [textOf, hc], hm, hi, rfl, rfl, rfl, rfl, rfl, by simp, rfl, rfl, rfl, by simp [textOf], noted_nil⟩
  | cons t ts ih =>
    intro st hs hl hm hi hsk c hc
    obtain ⟨l1, l2, l3, l4⟩ := hl t (by simp)
    let st1 : PSt := { st with stack := ts, colOffset := some (c + t.sym.delta.col + Int.ofNat t.text.length), argsMap := st.argsMap ++ argEntry t st.pos }
    have hn : pNext st = some (t, { st with stack := ts, colOffset := some (c + t.sym.delta.col + Int.ofNat t.text.length) }) := by
      simp only [pNext, hs, hc]
    have hp : pStep env 0 t { st with stack := ts, colOffset := some (c + t.sym.delta.col + Int.ofNat t.text.length) } = .next (pushSym t.sym st1) := by
      simp only [pStep, noteArg_eq]
      rw [if_neg (by simp [hsk])]
      exact active_plain l1 (fun e => by show st.macros t.text = none; rw [hm]; exact l2 e) hi
    have hne : t.sym.kind ≠ .eof := plain_not_eof l1
    obtain ⟨st', new, r, f1, f2, f3, f4, f5, f6, f7, f8, f9, f10, f11, f12, f13, f14, f15, f16⟩ := ih (pushSym t.sym st1) (by simp [pushSym, hne, pushWs, st1])
      (fun x hx => hl x (by simp [hx])) (by simp [pushSym, hne, pushWs, st1, hm]) (by simp [pushSym, hne, pushWs, st1, hi])
      (by simp [pushSym, hne, pushWs, st1, hsk]) (c + t.sym.delta.col + Int.ofNat t.text.length) (by simp [pushSym, hne, pushWs, st1])
    refine ⟨st', argEntry t st.pos ++ new, .step hn hp r, f1, ?_, ?_, f4, f5, ?_, ?_, ?_, ?_, ?_, ?_, ?_, ?_, ?_, ?_, ?_⟩
    · rw [f2]; simp [pushSym, hne, pushWs, st1, textOf, Tok.text]
    · rw [f3]
      have := blanks_length l3
      simp only [textOf, List.length_append, Int.ofNat_eq_natCast, Int.natCast_add] at this ⊢
      congr 1; omega
    · rw [f6]; simp [pushSym, hne, pushWs, st1]
    · rw [f7]; simp [pushSym, hne, pushWs, st1]
    · rw [f8]; simp [pushSym, hne, pushWs, st1]
    · rw [f9]; simp [pushSym, hne, pushWs, st1]
    · rw [f10]; simp [pushSym, hne, pushWs, st1]
    · rw [f11]; simp [pushSym, hne, pushWs, st1]
    · rw [f12]; simp [pushSym, hne, pushWs, st1]
    · rw [f13]; simp [pushSym, hne, pushWs, st1]
    · rw [f14]; simp [pushSym, hne, pushWs, st1]
    · rw [f15]
      simp only [pushSym, hne, pushWs, st1, if_false, textOf, List.length_append, blanks, List.length_replicate, Tok.text, Pos.mk.injEq, true_and]
      omega
    · refine noted_cons l3 ?_
      have e : (pushSym t.sym st1).pos = ⟨st.pos.line, st.pos.char + (blanks t.sym.delta.col).length + t.text.length⟩ := by
        simp [pushSym, hne, pushWs, st1, blanks, Tok.text]
      rw [e] at f16
      exact f16

/-! ### A line -/

/-- `text` is what is written for the use `u`: the tokens it expands to, the blanks before the first one left out. -/
def Written (ms : Macros) (u : Use) (text : Str) : Prop :=
  ∃ f rest t ts d, expandIdentifier ms true f u.name.tok (u.args ++ rest) [] [] = some ⟨rest, t :: ts, [], .ok d⟩ ∧ text = t.text ++ textOf ts

/-- Each macro use of the line has its expansion written in its place. -/
def Spans (ms : Macros) (uses : List Use) (n : Nat) (segs : List Seg) (txt : Str) : Prop :=
  ∀ pre k a o post, segs = pre ++ .use k a o :: post → ∃ u ∈ uses, IsUse ms u.name ∧
    u.name.range = ⟨⟨n, userLen pre⟩, ⟨n, userLen pre + k⟩⟩ ∧ u.stop = userLen pre + k + a ∧ Written ms u ((txt.drop (serverLen pre)).take o)

theorem spans_nil {ms : Macros} {uses : List Use} {n : Nat} {txt : Str} : Spans ms uses n [] txt := by
  intro pre k a o post h; simp at h

/-- More text after the line changes nothing. -/
theorem spans_text {ms : Macros} {uses : List Use} {n : Nat} {segs : List Seg} {txt : Str} (h : Spans ms uses n segs txt)
    (hl : serverLen segs = txt.length) (k : Nat) (more : Str) : Spans ms uses n (segs ++ [.text k]) (txt ++ more) := by
  intro pre k' a o post e
  rcases List.eq_nil_or_concat post with rfl | ⟨post, x, rfl⟩
  · have := congrArg List.getLast? e
    simp at this
  · rw [List.concat_eq_append, ← List.cons_append, ← List.append_assoc] at e
    have e' := (List.append_inj' e rfl).1
    obtain ⟨s, h1, h2, h3, h4, h5⟩ := h pre k' a o post e'
    refine ⟨s, h1, h2, h3, h4, ?_⟩
    have : serverLen pre + o ≤ txt.length := by
      rw [← hl, e', serverLen_append]
      simp only [serverLen, List.map_cons, List.sum_cons, Seg.server]; omega
    rw [List.drop_append_of_le_length (by omega), List.take_append_of_le_length (by simp; omega)]
    exact h5

/-- One more use. -/
theorem spans_use {ms : Macros} {uses : List Use} {n : Nat} {segs : List Seg} {txt : Str} (h : Spans ms uses n segs txt)
    (hl : serverLen segs = txt.length) {u : Use} (hs : u ∈ uses) (hu : IsUse ms u.name) {k a : Nat}
    (hr : u.name.range = ⟨⟨n, userLen segs⟩, ⟨n, userLen segs + k⟩⟩) (ha : u.stop = userLen segs + k + a) {more : Str} (hw : Written ms u more) :
    Spans ms uses n (segs ++ [.use k a more.length]) (txt ++ more) := by
  intro pre k' a' o post e
  rcases List.eq_nil_or_concat post with rfl | ⟨post, x, rfl⟩
  · have e' := List.append_inj' e rfl
    obtain ⟨rfl, e'⟩ := e'
    simp only [List.cons.injEq, Seg.use.injEq, and_true] at e'
    obtain ⟨rfl, rfl, rfl⟩ := e'
    refine ⟨u, hs, hu, hr, ha, ?_⟩
    rw [hl]; simpa using hw
  · rw [List.concat_eq_append, ← List.cons_append, ← List.append_assoc] at e
    have e' := (List.append_inj' e rfl).1
    obtain ⟨s, h1, h2, h3, h4, h5⟩ := h pre k' a' o post e'
    refine ⟨s, h1, h2, h3, h4, ?_⟩
    have : serverLen pre + o ≤ txt.length := by
      rw [← hl, e', serverLen_append]
      simp only [serverLen, List.map_cons, List.sum_cons, Seg.server]; omega
    rw [List.drop_append_of_le_length (by omega), List.take_append_of_le_length (by simp; omega)]
    exact h5

theorem found_append {txt x : Str} {c : Nat} (h : Found txt c x) (more : Str) : Found (txt ++ more) c x := by
  obtain ⟨a, b, rfl, h⟩ := h
  exact ⟨a, b ++ more, by simp, h⟩

/-- The entries `am` lead from tokens of arguments to their copies in the text of line `L`. -/
def ArgsOk (uses : List Use) (L : Nat) (txt : Str) (am : List (Rng × Rng)) : Prop :=
  ∀ e ∈ am, ∃ u ∈ uses, ∃ x ∈ u.inner, e.1 = x.range ∧ e.2.s.line = L ∧ Found txt e.2.s.char x.text

theorem argsOk_append {uses : List Use} {L : Nat} {txt : Str} {am : List (Rng × Rng)} (h : ArgsOk uses L txt am) (more : Str) :
    ArgsOk uses L (txt ++ more) am := by
  intro e he
  obtain ⟨u, hu, x, hx, h1, h2, h3⟩ := h e he
  exact ⟨u, hu, x, hx, h1, h2, found_append h3 more⟩

/-- The offsets and entries recorded for a line describe it. -/
structure LineOk (ms : Macros) (uses : List Use) (n L : Nat) (src txt : Str) (segs : List Seg) (os : List Offset) (am : List (Rng × Rng)) : Prop where
  same : Same segs src txt
  describes : Describes n 0 segs os
  named : Named segs
  nonEmpty : NonEmpty segs
  spans : Spans ms uses n segs txt
  args : ArgsOk uses L txt am
  uses : ∀ o ∈ os, ∃ u ∈ uses, IsUse ms u.name ∧ o.range = u.name.range ∧ ∃ m, ms u.name.text = some m ∧ o.idx = m.idx ∧ o.fileId = m.fileId

theorem lineOk_nil {ms : Macros} {uses : List Use} {n L : Nat} : LineOk ms uses n L [] [] [] [] [] :=
  ⟨same_nil, rfl, by simp [Named], by simp [NonEmpty], spans_nil, by simp [ArgsOk], by simp⟩

/-- Text that is copied. -/
theorem lineOk_text {ms : Macros} {uses : List Use} {n L : Nat} {src txt : Str} {segs : List Seg} {os : List Offset} {am : List (Rng × Rng)}
    (h : LineOk ms uses n L src txt segs os am)
    {a b : Str} (hab : a.map shown = b.map shown) : LineOk ms uses n L (src ++ a) (txt ++ b) (segs ++ [.text a.length]) os am := by
  refine ⟨same_append h.same (same_text hab), ?_, ?_, ?_, spans_text h.spans h.same.2.1 _ _, argsOk_append h.args b, h.uses⟩
  · have := describes_append segs [.text a.length] 0 os [] h.describes rfl
    simpa using this
  · intro k a o hm
    rcases List.mem_append.1 hm with hm | hm
    · exact h.named k a o hm
    · simp at hm
  · intro k a o hm
    rcases List.mem_append.1 hm with hm | hm
    · exact h.nonEmpty k a o hm
    · simp at hm

/-- A macro use. -/
theorem lineOk_use {ms : Macros} {uses : List Use} {n L : Nat} {src txt : Str} {segs : List Seg} {os : List Offset} {am new : List (Rng × Rng)}
    (h : LineOk ms uses n L src txt segs os am)
    {u : Use} {m : Macro} (hmem : u ∈ uses) (hk : u.name.kind = .ident) (hm : ms u.name.text = some m) (ht : u.name.text ≠ [])
    (hr : u.name.range = ⟨⟨n, src.length⟩, ⟨n, src.length + u.name.text.length⟩⟩) {asrc : Str} (ha : u.stop = src.length + u.name.text.length + asrc.length)
    {more : Str} (hmore : more ≠ []) (hw : Written ms u more) (hnew : ArgsOk uses L (txt ++ more) new) :
    LineOk ms uses n L (src ++ (u.name.text ++ asrc)) (txt ++ more) (segs ++ [.use u.name.text.length asrc.length more.length])
      (os ++ [⟨u.name.range, Int.ofNat more.length - Int.ofNat u.name.text.length, asrc.length, m.idx, m.fileId⟩]) (am ++ new) := by
  have hu : IsUse ms u.name := ⟨hk, by rw [hm]; simp⟩
  have hul : userLen segs = src.length := h.same.1
  refine ⟨same_append h.same (same_use _ _ _), ?_, ?_, ?_, ?_, ?_, ?_⟩
  · refine describes_append segs _ 0 os _ h.describes ?_
    refine ⟨_, [], rfl, ?_, rfl, rfl, rfl⟩
    show u.name.range = _
    rw [hr, hul, Nat.zero_add]
  · intro k a o' hm
    rcases List.mem_append.1 hm with hm | hm
    · exact h.named k a o' hm
    · simp at hm
      rw [hm.1]; exact List.length_pos_iff.2 ht
  · intro k a o' hm
    rcases List.mem_append.1 hm with hm | hm
    · exact h.nonEmpty k a o' hm
    · simp at hm
      rw [hm.2.2]; exact List.length_pos_iff.2 hmore
  · exact spans_use h.spans h.same.2.1 hmem hu (by rw [hul]; exact hr) (by rw [hul]; exact ha) hw
  · intro e he
    rcases List.mem_append.1 he with he | he
    · exact argsOk_append h.args more e he
    · exact hnew e he
  · intro x hx
    rcases List.mem_append.1 hx with hx | hx
    · exact h.uses x hx
    · simp at hx; subst hx; exact ⟨u, hmem, hu, rfl, m, hm, rfl, rfl⟩

/-- What an offset says about its use. -/
def mark (o : Offset) : Rng × Option (Nat × Nat) := (o.range, some (o.idx, o.fileId))

def useMark (ms : Macros) (s : Sym) : Rng × Option (Nat × Nat) := (s.range, (ms s.text).map fun m => (m.idx, m.fileId))

/-- Offsets, with the one of the last expansion that is not recorded yet. -/
def recorded (n : Nat) (st : PSt) : List (Nat × Offset) :=
  st.offsets ++ match st.expanded with
    | none => []
    | some (x, idx, fid) => [(n, ⟨x.range, st.colOffset.getD 0 - Int.ofNat (x.range.e.char - x.range.s.char), st.argsDiff, idx, fid⟩)]

/-- What was written so far: the lines, the entries for arguments, and the number of the line as the code counts it. -/
structure Past where
  out  : List Str
  args : List (Nat × Rng × Rng)
  line : Nat

/-- More entries, for line `n` of the source. -/
def Past.add (p : Past) (n : Nat) (am : List (Rng × Rng)) : Past := { p with args := p.args ++ am.map fun e => (n, e) }

/-- One more line. -/
def Past.push (p : Past) (txt : Str) : Past := { p with out := p.out ++ [txt], line := p.line + 1 }

/-- The line of a condition that is evaluated: the code does not count it (lib.rs:456-458). -/
def Past.jump (p : Past) : Past := { p with out := p.out ++ [[]] }

/-- The state between two tokens. -/
structure Calm (fr : Front) (past : Past) (st : PSt) : Prop where
  stack : st.stack = []
  intr : st.intr = none
  disabled : st.disabled = []
  macros : st.macros = fr.macros
  idx : st.idx = fr.count
  conds : st.conds = fr.conds
  args : st.argsMap = past.args
  out : st.out = past.out
  pending : st.expanded = none → st.colOffset = none
  line : st.pos.line = past.line

/-- A calm state after a token was read. -/
structure Quiet (fr : Front) (past : Past) (base : List (Nat × Offset)) (st : PSt) : Prop where
  calm : Calm fr past st
  expanded : st.expanded = none
  offsets : st.offsets = base

/-- At the start of a line. -/
def Fresh (st : PSt) : Prop := st.line = [] ∧ st.pos.char = 0

/-- The state in the middle of line `n`, of which `src` has been read. -/
structure LineAt (fr : Front) (n : Nat) (past : Past) (base : List (Nat × Offset)) (src : Str) (segs : List Seg) (os : List Offset) (am : List (Rng × Rng))
    (uses : List Use) (st : PSt) : Prop where
  calm : Calm fr (past.add n am) st
  recorded : recorded n st = base ++ os.map (fun o => (n, o))
  col : st.pos.char = st.line.length
  ok : LineOk fr.macros uses n past.line src st.line segs os am

theorem lineAt_quiet {fr : Front} {n : Nat} {past : Past} {base : List (Nat × Offset)} {uses : List Use} {st : PSt} (h : Quiet fr past base st)
    (hl : Fresh st) : LineAt fr n past base [] [] [] [] uses st :=
  ⟨by have := h.calm; unfold Past.add; simpa using this, by simp [Offsets.recorded, h.expanded, h.offsets], by rw [hl.1, hl.2]; rfl,
    by rw [hl.1]; exact lineOk_nil⟩

/-- Reading the next token of line `n`. -/
theorem read {fr : Front} {n : Nat} {past : Past} {base : List (Nat × Offset)} {src : Str} {segs : List Seg} {os : List Offset} {am : List (Rng × Rng)}
    {uses : List Use} {st : PSt} (h : LineAt fr n past base src segs os am uses st) {s : Sym} {ss : List Sym} (hl : st.lexer = s :: ss)
    (hs : s.range.s.line = n) :
    ∃ st1, pNext st = some (s.tok, st1) ∧ Quiet fr (past.add n am) (base ++ os.map (fun o => (n, o))) st1 ∧ st1.lexer = ss ∧ st1.line = st.line ∧
      st1.pos = st.pos := by
  have hr := h.recorded
  unfold recorded at hr
  have hc := h.calm
  cases he : st.expanded with
  | none =>
    rw [he] at hr
    exact ⟨{ st with lexer := ss }, by simp only [pNext, hc.stack, hl, he],
      ⟨⟨hc.stack, hc.intr, hc.disabled, hc.macros, hc.idx, hc.conds, hc.args, hc.out, hc.pending, hc.line⟩, he, by simpa using hr⟩, rfl, rfl, rfl⟩
  | some p =>
    obtain ⟨x, idx, fid⟩ := p
    rw [he] at hr
    refine ⟨{ st with
          lexer := ss
          expanded := none
          offsets := st.offsets ++ [(s.range.s.line,
            ⟨x.range, st.colOffset.getD 0 - Int.ofNat (x.range.e.char - x.range.s.char), st.argsDiff, idx, fid⟩)]
          colOffset := none
          argsDiff := 0 }, by simp only [pNext, hc.stack, hl, he],
      ⟨⟨hc.stack, hc.intr, hc.disabled, hc.macros, hc.idx, hc.conds, hc.args, hc.out, fun _ => rfl, hc.line⟩, rfl, by rw [← hr, hs]⟩, rfl, rfl, rfl⟩

/-- Reading a token when nothing waits to be recorded. -/
theorem read_quiet {fr : Front} {past : Past} {base : List (Nat × Offset)} {st : PSt} (h : Quiet fr past base st) {s : Sym} {ss : List Sym}
    (hl : st.lexer = s :: ss) : pNext st = some (s.tok, { st with lexer := ss }) ∧ Quiet fr past base { st with lexer := ss } := by
  have hc := h.calm
  exact ⟨by simp only [pNext, hc.stack, hl, h.expanded],
    ⟨hc.stack, hc.intr, hc.disabled, hc.macros, hc.idx, hc.conds, hc.args, hc.out, hc.pending, hc.line⟩, h.expanded, h.offsets⟩

theorem shown_blanks {ws : Str} (h : Blanks ws) : ws.map shown = (blanks (Int.ofNat ws.length)).map shown := by
  have h1 : ws.map shown = List.replicate ws.length ' ' := by
    rw [List.eq_replicate_iff]
    refine ⟨by simp, ?_⟩
    intro b hb
    obtain ⟨c, hc, rfl⟩ := List.mem_map.1 hb
    exact h c hc
  rw [h1]
  simp [blanks, shown]

/-- Writing a token. -/
theorem pushSym_quiet {fr : Front} {past : Past} {base : List (Nat × Offset)} {st : PSt} (h : Quiet fr past base st) {s : Sym} (hne : s.kind ≠ .eof) :
    Quiet fr past base (pushSym s st) ∧ (pushSym s st).line = st.line ++ (blanks s.delta.col ++ s.text) ∧ (pushSym s st).lexer = st.lexer ∧
      (pushSym s st).pos.char = st.pos.char + (blanks s.delta.col ++ s.text).length := by
  obtain ⟨⟨c1, c2, c3, c4, c5, c6, c7, c8, c9, c10⟩, h2, h3⟩ := h
  have e : pushSym s st = { st with pos := ⟨st.pos.line, st.pos.char + s.delta.col.natAbs + s.text.length⟩, line := st.line ++ blanks s.delta.col ++ s.text } := by
    simp [pushSym, hne, pushWs]
  rw [e]
  exact ⟨⟨⟨c1, c2, c3, c4, c5, c6, c7, c8, c9, c10⟩, h2, h3⟩, by simp, rfl, by simp [blanks]; omega⟩

/-- A plain token of the line. -/
theorem plain_token {env : Env} {fr : Front} (hact : skipping fr.conds = false) {n : Nat} {past : Past} {base : List (Nat × Offset)} {src : Str}
    {segs : List Seg} {os : List Offset} {am : List (Rng × Rng)} {uses : List Use} {st : PSt} (h : LineAt fr n past base src segs os am uses st) {s : Sym}
    {ss : List Sym} (hl : st.lexer = s :: ss) {ws : Str} (hws : Blanks ws) (hk : PlainKind s.kind) (hd : s.delta.col = Int.ofNat ws.length)
    (hr : s.range.s.line = n) (hu : ¬ IsUse fr.macros s) :
    ∃ st' segs', Reaches env st st' ∧ st'.lexer = ss ∧ LineAt fr n past base (src ++ (ws ++ s.text)) segs' os am uses st' := by
  obtain ⟨st1, hn, hq, f1, f2, f3⟩ := read h hl hr
  have hne : s.kind ≠ .eof := plain_not_eof hk
  have hp : pStep env 0 s.tok st1 = .next (pushSym s st1) := by
    show (if skipping st1.conds then _ else processActive env 0 s.tok st1) = _
    rw [if_neg (by rw [hq.calm.conds, hact]; simp)]
    refine active_plain hk (fun e => ?_) hq.calm.intr
    rw [hq.calm.macros]
    exact Classical.byContradiction fun hx => hu ⟨e, hx⟩
  obtain ⟨hq', e1, e2, e3⟩ := pushSym_quiet hq hne
  refine ⟨pushSym s st1, segs ++ [.text (ws ++ s.text).length], .step hn hp (.refl _), by rw [e2, f1], hq'.calm, ?_, ?_, ?_⟩
  · simp [Offsets.recorded, hq'.expanded, hq'.offsets]
  · rw [e3, e1, f2, f3, h.col, List.length_append (as := st.line)]
  · rw [e1, f2]
    refine lineOk_text h.ok ?_
    rw [List.map_append, List.map_append, hd, shown_blanks hws]

/-- A macro use of the line. -/
theorem use_token {env : Env} {fr : Front} (hact : skipping fr.conds = false) {n : Nat} {past : Past} {base : List (Nat × Offset)} {src : Str}
    {segs : List Seg} {os : List Offset} {am : List (Rng × Rng)} {uses : List Use} {st : PSt} (h : LineAt fr n past base src segs os am uses st) {u : Use}
    {ss : List Sym} (hl : st.lexer = u.name :: (u.args ++ ss)) {ws : Str} (hws : Blanks ws) (ht : u.name.text ≠ []) (hd : u.name.delta.col = Int.ofNat ws.length)
    (hr : u.name.range = ⟨⟨n, src.length + ws.length⟩, ⟨n, src.length + ws.length + u.name.text.length⟩⟩) (hu : IsUse fr.macros u.name) {asrc : Str}
    (hstop : u.stop = src.length + ws.length + u.name.text.length + asrc.length) (hinner : ∀ x ∈ u.inner, x.range.s.line = n)
    (hx : ∃ f t ts, expandIdentifier fr.macros true f u.name.tok (u.args ++ ss) [] [] = some ⟨ss, t :: ts, [], .ok asrc.length⟩ ∧
      (∀ x ∈ t :: ts, Left PlainKind fr.macros (From u.inner) x) ∧ (t.sym.delta = u.name.delta ∧ t.text ≠ []) ∧
      ∀ x, Copied fr.macros u x → ∃ y ∈ t :: ts, y.orig = some x.range) (hmem : u ∈ uses) :
    ∃ st' segs' os' am', Reaches env st st' ∧ st'.lexer = ss ∧ os'.map mark = os.map mark ++ [useMark fr.macros u.name] ∧
      (∀ e ∈ am, e ∈ am') ∧ (∀ x, Copied fr.macros u x → ∃ e ∈ am', e.1 = x.range) ∧
      LineAt fr n past base (src ++ (ws ++ (u.name.text ++ asrc))) segs' os' am' uses st' := by
  obtain ⟨st1, hn, hq, f1, f2, f3⟩ := read h hl (by rw [hr])
  have hd0 : 0 ≤ u.name.delta.col := by rw [hd]; simp
  obtain ⟨f, t, ts, hx, hleft, ⟨hdt, htt⟩, hcop⟩ := hx
  obtain ⟨⟨c1, c2, c3, c4, c5, c6, c7, c8, c9, c10⟩, hexp0, hoff0⟩ := hq
  have hsk : skipping st1.conds = false := by rw [c6]; exact hact
  cases hmac : fr.macros u.name.text with
  | none => exact absurd hmac hu.2
  | some m =>
    let st2 : PSt := { st1 with lexer := ss, stack := t :: ts, disabled := [], expanded := some (u.name, m.idx, m.fileId), argsDiff := asrc.length }
    have hp : pStep env f u.name.tok st1 = .next st2 := by
      have hk : u.name.tok.kind = .ident := hu.1
      have htx : u.name.tok.text = u.name.text := rfl
      show (if skipping st1.conds then _ else processActive env f u.name.tok st1) = _
      rw [if_neg (by rw [hsk]; simp)]
      simp only [processActive, hk, processIdent, c2, reduceCtorEq, if_false, htx, c4, hmac, c3, List.not_mem_nil, f1, c1, hx, st2]
      rfl
    obtain ⟨l1, l2, l3, l4⟩ := hleft t (by simp)
    -- the first token of the expansion
    let st3 : PSt := { st2 with stack := ts, colOffset := some (Int.ofNat t.text.length), argsMap := st1.argsMap ++ argEntry t st1.pos }
    have hn3 : pNext st2 = some (t, { st2 with stack := ts, colOffset := some (Int.ofNat t.text.length) }) := by
      have : st2.colOffset = none := c9 hexp0
      show some (t, { st2 with stack := ts, colOffset := some (match st2.colOffset with | none => _ | some o => _) }) = _
      rw [this]
    have hp3 : pStep env 0 t { st2 with stack := ts, colOffset := some (Int.ofNat t.text.length) } = .next (pushSym t.sym st3) := by
      simp only [pStep, noteArg_eq]
      rw [if_neg (by show ¬ skipping st1.conds = true; simp [hsk])]
      exact active_plain l1 (fun e => by show st1.macros t.text = none; rw [c4]; exact l2 e) c2
    have hne : t.sym.kind ≠ .eof := plain_not_eof l1
    obtain ⟨st', new, r, g1, g2, g3, g4, g5, g6, g7, g8, g9, g10, g11, g12, g13, g14, g15, g16⟩ := drain (env := env) (ms := fr.macros) ts (pushSym t.sym st3)
      (by simp [pushSym, hne, pushWs, st3, st2]) (fun x hx => hleft x (by simp [hx])) (by simp [pushSym, hne, pushWs, st3, st2, c4])
      (by simp [pushSym, hne, pushWs, st3, st2, c2]) (by simp [pushSym, hne, pushWs, st3, st2, hsk]) (Int.ofNat t.text.length)
      (by simp [pushSym, hne, pushWs, st3])
    have hlexer : st'.lexer = ss := by rw [g7]; simp [pushSym, hne, pushWs, st3, st2]
    have hline : st'.line = st.line ++ blanks u.name.delta.col ++ (t.text ++ textOf ts) := by
      rw [g2]
      have : t.sym.delta.col = u.name.delta.col := by rw [hdt]
      simp [pushSym, hne, pushWs, st3, st2, f2, this, Tok.text]
    have hline' : st'.line = st.line ++ textOf (t :: ts) := by
      rw [hline, textOf, hdt]; simp
    have hpos3 : (pushSym t.sym st3).pos = ⟨past.line, st.line.length + (blanks t.sym.delta.col).length + t.text.length⟩ := by
      have h1 : st1.pos.line = past.line := c10
      have h2 : st1.pos.char = st.line.length := by rw [f3]; exact h.col
      simp [pushSym, hne, pushWs, st3, st2, h1, h2, blanks, Tok.text]
    have hnoted : Noted past.line st.line.length (t :: ts) (argEntry t ⟨past.line, st.line.length⟩ ++ new) := by
      refine noted_cons l3 ?_
      rw [hpos3] at g16
      exact g16
    have hpos1 : st1.pos = ⟨past.line, st.line.length⟩ := by
      have h1 : st1.pos.line = past.line := c10
      have h2 : st1.pos.char = st.line.length := by rw [f3]; exact h.col
      rw [← h1, ← h2]
    let all := argEntry t ⟨past.line, st.line.length⟩ ++ new
    have hkey : ∀ e ∈ all, e.1 = n ∧ ∃ x ∈ u.inner, e.2.1 = x.range ∧ e.2.2.s.line = past.line ∧ Found st'.line e.2.2.s.char x.text := by
      intro e he
      obtain ⟨y, hy, h1, h2, h3, h4⟩ := noted_found hnoted e he
      obtain ⟨x, hx, h5, h6⟩ := (hleft y hy).2.2.2 _ h1
      refine ⟨by rw [h2, ← h5]; exact hinner x hx, x, hx, h5.symm, h3, ?_⟩
      rw [hline', h6]; exact h4
    have hall : all = (all.map (·.2)).map fun e => (n, e) := by
      rw [List.map_map]
      conv => lhs; rw [← List.map_id all]
      refine List.map_congr_left fun e he => ?_
      show e = (n, e.2)
      rw [← (hkey e he).1]
    let o : Offset := ⟨u.name.range, Int.ofNat (t.text ++ textOf ts).length - Int.ofNat u.name.text.length, asrc.length, m.idx, m.fileId⟩
    have hexp : st'.expanded = some (u.name, m.idx, m.fileId) := by rw [g12]; simp [pushSym, hne, pushWs, st3, st2]
    have hrec : Offsets.recorded n st' = base ++ (os ++ [o]).map (fun o => (n, o)) := by
      have e1 : st'.offsets = base ++ os.map (fun o => (n, o)) := by rw [g10]; simpa [pushSym, hne, pushWs, st3, st2] using hoff0
      have e2 : st'.argsDiff = asrc.length := by rw [g13]; simp [pushSym, hne, pushWs, st3, st2]
      simp only [Offsets.recorded, hexp, e1, e2, g3, Option.getD_some, hr, List.map_append, List.map_cons, List.map_nil, List.append_assoc, o,
        List.length_append, Int.ofNat_eq_natCast, Int.natCast_add]
      have : src.length + ws.length + u.name.text.length - (src.length + ws.length) = u.name.text.length := by omega
      simp only [this]
    refine ⟨st', segs ++ [.text ws.length] ++ [.use u.name.text.length asrc.length (t.text ++ textOf ts).length], os ++ [o], am ++ all.map (·.2),
      .step hn hp (.step hn3 hp3 r), hlexer, by simp [o, mark, useMark, hmac], fun e he => by simp [he], ?_, ?_, hrec, ?_, ?_⟩
    · intro x hx
      obtain ⟨y, hy, hyr⟩ := hcop x hx
      obtain ⟨e, he, her⟩ := hnoted.2 y hy _ hyr
      exact ⟨e.2, List.mem_append_right _ (List.mem_map.2 ⟨e, he, rfl⟩), her⟩
    · refine ⟨g1, g5, ?_, g4, ?_, ?_, ?_, ?_, ?_, ?_⟩
      · rw [g9]; simp [pushSym, hne, pushWs, st3, st2]
      · rw [g14]; simpa [pushSym, hne, pushWs, st3, st2] using c5
      · rw [g6]; simpa [pushSym, hne, pushWs, st3, st2] using c6
      · rw [g11]
        have e : (pushSym t.sym st3).argsMap = st1.argsMap ++ argEntry t st1.pos := by simp [pushSym, hne, pushWs, st3]
        rw [e, c7, hpos1, List.append_assoc]
        show (past.args ++ am.map (fun e => (n, e))) ++ all = past.args ++ (am ++ all.map (·.2)).map fun e => (n, e)
        rw [List.map_append, ← hall, List.append_assoc]
      · rw [g8]; simpa [pushSym, hne, pushWs, st3, st2, Past.add] using c8
      · intro e; rw [hexp] at e; simp at e
      · rw [g15, hpos3]; rfl
    · rw [g15, hpos3, hline']
      simp only [textOf, List.length_append]; omega
    · have h1 := lineOk_text h.ok (a := ws) (b := blanks u.name.delta.col) (by rw [hd]; exact shown_blanks hws)
      have h2 := lineOk_use (new := all.map (·.2)) h1 hmem hu.1 hmac ht (by rw [hr, List.length_append]) (asrc := asrc) (by rw [hstop, List.length_append])
        (more := t.text ++ textOf ts) (by simp [htt]) ⟨f, ss, t, ts, asrc.length, hx, rfl⟩ (by
          rw [← hline]
          intro e he
          obtain ⟨e, he', rfl⟩ := List.mem_map.1 he
          obtain ⟨-, x, hx, g⟩ := hkey e he'
          exact ⟨u, hmem, x, hx, g⟩)
      rw [← hline, List.append_assoc] at h2
      exact h2

theorem placed_append {n : Nat} {ys : List Sym} : ∀ (xs : List Sym) (c : Nat) (src : Str), Placed n c (xs ++ ys) src →
    ∃ s1 s2, src = s1 ++ s2 ∧ Placed n c xs s1 ∧ Placed n (c + s1.length) ys s2 := by
  intro xs
  induction xs with
  | nil => intro c src h; exact ⟨[], src, rfl, .nil, by simpa using h⟩
  | cons x xs ih =>
    intro c src h
    rw [List.cons_append] at h
    cases h with
    | @cons _ ws _ _ rest h1 h2 h3 h4 h5 =>
      obtain ⟨s1, s2, rfl, g1, g2⟩ := ih _ _ h5
      exact ⟨ws ++ (x.text ++ s1), s2, by simp, .cons h1 h2 h3 h4 g1, by
        rw [show c + (ws ++ (x.text ++ s1)).length = c + ws.length + x.text.length + s1.length by simp; omega]; exact g2⟩

theorem placed_last {n : Nat} : ∀ (xs : List Sym) (x : Sym) (c : Nat) (src : Str), Placed n c (xs ++ [x]) src → x.range.e.char = c + src.length := by
  intro xs x c src h
  obtain ⟨s1, s2, rfl, -, h2⟩ := placed_append xs c src h
  cases h2 with
  | @cons _ ws _ _ rest g1 g2 g3 g4 g5 =>
    cases g5
    rw [g4]; simp; omega

theorem line_of_placed {n c : Nat} {toks : List Sym} {src : Str} (h : Placed n c toks src) : ∀ s ∈ toks, s.range.s.line = n ∧ 0 ≤ s.delta.col := by
  induction h with
  | nil => simp
  | cons _ _ h4 h5 _ ih =>
    intro s hs
    rcases List.mem_cons.1 hs with rfl | hs
    · rw [h5, h4]; simp
    · exact ih s hs

theorem ends_of_placed {n c : Nat} {toks : List Sym} {src : Str} (h : Placed n c toks src) : ∀ s ∈ toks, s.range.e.line = n := by
  induction h with
  | nil => simp
  | cons _ _ h4 h5 _ ih =>
    intro s hs
    rcases List.mem_cons.1 hs with rfl | hs
    · rw [h5]
    · exact ih s hs

/-- The expansion of a use whose definition calls macros. -/
theorem expand_deepUse {ms : Macros} {s : Sym} {m : Macro} (hk : s.kind = .ident) (hm : ms s.text = some m) (hp : m.params = none) {d : Nat} {r : List KT}
    (hd : d ≤ 4) (hf : Deep ms d [ofSym s] r) (hr : ∀ k ∈ r, PlainKind k.1) (hl : Leads ms .ident s.text) (hcol : 0 ≤ s.delta.col) (lexer : List Sym) :
    ∃ f t ts, expandIdentifier ms true f s.tok lexer [] [] = some ⟨lexer, t :: ts, [], .ok 0⟩ ∧ (∀ x ∈ t :: ts, Left PlainKind ms Own x) ∧
      t.sym.delta = s.delta ∧ t.text ≠ [] := by
  obtain ⟨out, h1, h2, h3, ⟨f, h4⟩⟩ := Verif.Props.MacroDeep.use_run (allow := true) hm hp hk hcol (O := Own) (fun _ => rfl) lexer [] [] hd hf (.inl rfl)
  obtain ⟨t, ts, rfl, h5⟩ := h3 hl
  refine ⟨f, t, ts, by simpa using h4 0, fun x hx => ?_, h5⟩
  obtain ⟨g1, g2, g3⟩ := h2 x hx
  exact ⟨hr (ofTok x) (by rw [← h1]; exact List.mem_map_of_mem hx), g1, g2, g3⟩

/-- The expansion of a call whose definition calls macros. -/
theorem expand_deepCall {ms : Macros} {s : Sym} {args : List Sym} {m : Macro} {params : List Int} {as : List (List Tok)} {pieces : List Piece}
    (h : DeepCall ms s args m params as pieces) (hd : 0 ≤ s.delta.col) (hcol : ∀ x ∈ args, 0 ≤ x.delta.col) (hs : s.range.s.line = s.range.e.line)
    (hline : ∀ x ∈ args, x.range.s.line = s.range.e.line ∧ x.range.e.line = s.range.e.line) (rest : List Sym) :
    ∃ f t ts, expandIdentifier ms true f s.tok (args ++ rest) [] [] = some ⟨rest, t :: ts, [],
        .ok (((args.getLast?).getD s).range.e.char - ((args.head?).getD s).range.s.char)⟩ ∧
      (∀ x ∈ t :: ts, Left PlainKind ms (From (Use.inner ⟨s, args⟩)) x) ∧ (t.sym.delta = s.delta ∧ t.text ≠ []) ∧
      ∀ x, Copied ms ⟨s, args⟩ x → ∃ y ∈ t :: ts, y.orig = some x.range := by
  have hcopied : ∀ (f : Nat) (t : Tok) (ts : List Tok) (a : Nat), expandIdentifier ms true f s.tok (args ++ rest) [] [] = some ⟨rest, t :: ts, [], .ok a⟩ →
      ∀ x, Copied ms ⟨s, args⟩ x → ∃ y ∈ t :: ts, y.orig = some x.range := by
    rintro f t ts a hx x ⟨m', params', as', pieces', hc, hrest⟩
    obtain ⟨f', t', ts', hx', -, -, hcop⟩ := expand_call hc hd hcol (fun y hy => (hline y hy).1) rest
    have h1 := Verif.Props.MacroTerm.expand_mono _ _ _ _ _ _ f f' _ hx
    have h2 := Verif.Props.MacroTerm.expand_mono _ _ _ _ _ _ f' f _ hx'
    rw [Nat.add_comm, h1] at h2
    simp only [Option.some.injEq, XOut.mk.injEq, true_and] at h2
    rw [h2.1]
    exact hcop x ⟨m', params', as', pieces', hc, hrest⟩
  obtain ⟨l, mid, e, rfl, hl, -, he, hsep⟩ := h.tokens
  obtain ⟨d, r, hd3, hf, hr⟩ := h.plain
  have hinner : Use.inner ⟨s, l :: (mid ++ [e])⟩ = mid := by simp [Use.inner]
  rw [hinner]
  obtain ⟨out, h1, h2, h3, ⟨f, h4⟩⟩ := Verif.Props.MacroDeep.call_run (allow := true) h.kind h.isMacro h.isParams h.oneLine hl he hsep h.enough h.arguments h.made
    (fun x hx => by
      rcases List.mem_cons.1 hx with rfl | hx
      · exact ⟨hs, rfl⟩
      · exact hline x (by rcases List.mem_cons.1 hx with rfl | hx <;> simp_all))
    (fun x hx => by
      rcases List.mem_cons.1 hx with rfl | hx
      · exact hd
      · exact hcol x (by simp [hx]))
    (O := From mid) (fun x r e => nomatch e) (fun x hx r e => ⟨x, hx, by cases e; rfl, rfl⟩) rest [] [] hd3 hf (.inl rfl)
  obtain ⟨t, ts, rfl, h5⟩ := h3 h.opens
  have hx : expandIdentifier ms true f s.tok (l :: (mid ++ [e]) ++ rest) [] [] = some ⟨rest, t :: ts, [], .ok (e.range.e.char - l.range.s.char)⟩ := by
    simpa using h4 0
  refine ⟨f, t, ts, ?_, fun x hx => ?_, h5, hcopied f t ts _ hx⟩
  · rw [hx, ← List.cons_append, List.getLast?_concat]; rfl
  · obtain ⟨g1, g2, g3⟩ := h2 x hx
    exact ⟨hr (ofTok x) (by rw [← h1]; exact List.mem_map_of_mem hx), g1, g2, g3⟩

/-- All tokens of the line. -/
theorem line_tokens {env : Env} {fr : Front} (hact : skipping fr.conds = false) {n : Nat} {past : Past} {base : List (Nat × Offset)}
    {uses us : List Use} {rest : List Sym} {toks : List Sym} (hcode : Code fr.macros toks us) :
    ∀ {c : Nat} {src : Str}, Placed n c toks src → ∀ {done : Str} {segs : List Seg} {os : List Offset} {am : List (Rng × Rng)} {st : PSt},
    LineAt fr n past base done segs os am uses st → done.length = c → st.lexer = toks ++ rest → (∀ u ∈ us, u ∈ uses) →
    ∃ st' segs' os' am', Reaches env st st' ∧ st'.lexer = rest ∧ os'.map mark = os.map mark ++ us.map (fun u => useMark fr.macros u.name) ∧
      (∀ e ∈ am, e ∈ am') ∧ (∀ u ∈ us, ∀ x, Copied fr.macros u x → ∃ e ∈ am', e.1 = x.range) ∧
      LineAt fr n past base (done ++ src) segs' os' am' uses st' := by
  induction hcode with
  | nil =>
    intro c src hp done segs os am st h _ hl _
    cases hp
    exact ⟨st, segs, os, am, .refl _, by simpa using hl, by simp, fun _ h => h, by simp, by simpa using h⟩
  | @plain s ss us hk hu _ ih =>
    intro c src hp done segs os am st h hc hl hus
    cases hp with
    | @cons _ ws _ _ r h1 h2 h4 h5 h6 =>
      subst hc
      obtain ⟨st1, segs1, r1, l1, h1'⟩ := plain_token (env := env) hact h (by simpa using hl) h1 hk h4 (by rw [h5]) hu
      obtain ⟨st2, segs2, os2, am2, r2, l2, m2, k2, k2', h2'⟩ := ih h6 h1' (by simp; omega) l1 hus
      exact ⟨st2, segs2, os2, am2, reaches_trans r1 r2, l2, m2, k2, k2', by simpa using h2'⟩
  | @use s ss us hu hms hst _ ih =>
    intro c src hp done segs os am st h hc hl hus
    cases hp with
    | @cons _ ws _ _ r h1 h2 h4 h5 h6 =>
      subst hc
      obtain ⟨f, t, ts, hx, hleft, hdt⟩ := expand_use hu hms hst h2 (by rw [h4]; simp) (ss ++ rest) []
      obtain ⟨st1, segs1, os1, am1, r1, l1, m1, k1, k1', h1'⟩ := use_token (env := env) hact h (u := ⟨s, []⟩) (ss := ss ++ rest) (by simpa using hl) h1 h2 h4 h5 hu
        (asrc := []) (by simp [Use.stop, h5]) (by simp [Use.inner]) ⟨f, t, ts, hx, fun x hx => by
          obtain ⟨g1, g2, g3, g4⟩ := hleft x hx
          have g4' : x.orig = none := g4
          exact ⟨g1, g2, g3, fun r e => by rw [g4'] at e; cases e⟩, hdt, by
          rintro x ⟨m, params, as, pieces, hcall, -⟩
          obtain ⟨l, mid, r, e, -⟩ := hcall.tokens
          simp at e⟩ (hus _ (by simp))
      obtain ⟨st2, segs2, os2, am2, r2, l2, m2, k2, k2', h2'⟩ := ih h6 h1' (by simp; omega) l1 (fun u hu => hus u (by simp [hu]))
      refine ⟨st2, segs2, os2, am2, reaches_trans r1 r2, l2, by rw [m2, m1]; simp, fun e he => k2 e (k1 e he), ?_, by simpa using h2'⟩
      intro u hu x hx
      rcases List.mem_cons.1 hu with rfl | hu
      · obtain ⟨e, he, g⟩ := k1' x hx
        exact ⟨e, k2 e he, g⟩
      · exact k2' u hu x hx
  | @call s args ss us m params as pieces hcall _ ih =>
    intro c src hp done segs os am st h hc hl hus
    cases hp with
    | @cons _ ws _ _ r h1 h2 h4 h5 h6 =>
      subst hc
      obtain ⟨s1, s2, rfl, p1, p2⟩ := placed_append args _ _ h6
      have hplaced := line_of_placed p1
      have hx := expand_call hcall (by rw [h4]; simp) (fun x hx => (hplaced x hx).2) (fun x hx => by rw [(hplaced x hx).1, h5]) (ss ++ rest)
      obtain ⟨l, mid, r, e, -, hld, -⟩ := hcall.tokens
      have hlast : ((args.getLast?).getD s).range.e.char = done.length + ws.length + s.text.length + s1.length := by
        rw [e, ← List.cons_append] at p1 ⊢
        rw [List.getLast?_concat]
        exact placed_last _ _ _ _ p1
      have hfirst : ((args.head?).getD s).range.s.char = done.length + ws.length + s.text.length := by
        rw [e] at p1 ⊢
        cases p1 with
        | @cons _ ws' _ _ r' g1 g2 g3 g4 g5 =>
          rw [hld] at g3
          simp only [Int.ofNat_eq_natCast] at g3
          rw [List.head?_cons, Option.getD_some, g4]
          dsimp only; omega
      rw [hlast, hfirst, Nat.add_sub_cancel_left] at hx
      have hu : IsUse fr.macros s := ⟨hcall.kind, by rw [hcall.isMacro]; simp⟩
      obtain ⟨st1, segs1, os1, am1, r1, l1, m1, k1, k1', h1'⟩ := use_token (env := env) hact h (u := ⟨s, args⟩) (ss := ss ++ rest) (by simpa using hl) h1 h2 h4 h5 hu
        (asrc := s1) hlast (fun x hx => (hplaced x (List.mem_of_mem_tail (List.dropLast_subset _ hx))).1) hx (hus _ (by simp))
      obtain ⟨st2, segs2, os2, am2, r2, l2, m2, k2, k2', h2'⟩ := ih p2 h1' (by simp; omega) l1 (fun u hu => hus u (by simp [hu]))
      refine ⟨st2, segs2, os2, am2, reaches_trans r1 r2, l2, by rw [m2, m1]; simp, fun e he => k2 e (k1 e he), ?_, by simpa using h2'⟩
      intro u hu x hx
      rcases List.mem_cons.1 hu with rfl | hu
      · obtain ⟨e, he, g⟩ := k1' x hx
        exact ⟨e, k2 e he, g⟩
      · exact k2' u hu x hx
  | @deepUse s ss us m d r hk hm hp hd hf hr hl _ ih =>
    intro c src hpl done segs os am st h hc hlx hus
    cases hpl with
    | @cons _ ws _ _ r h1 h2 h4 h5 h6 =>
      subst hc
      obtain ⟨f, t, ts, hx, hleft, hdt⟩ := expand_deepUse hk hm hp hd hf hr hl (by rw [h4]; simp) (ss ++ rest)
      obtain ⟨st1, segs1, os1, am1, r1, l1, m1, k1, k1', h1'⟩ := use_token (env := env) hact h (u := ⟨s, []⟩) (ss := ss ++ rest) (by simpa using hlx) h1 h2 h4 h5
        ⟨hk, by rw [hm]; simp⟩ (asrc := []) (by simp [Use.stop, h5]) (by simp [Use.inner]) ⟨f, t, ts, hx, fun x hx => by
          obtain ⟨g1, g2, g3, g4⟩ := hleft x hx
          have g4' : x.orig = none := g4
          exact ⟨g1, g2, g3, fun r e => by rw [g4'] at e; cases e⟩, hdt, by
          rintro x ⟨m, params, as, pieces, hcall, -⟩
          obtain ⟨l, mid, r, e, -⟩ := hcall.tokens
          simp at e⟩ (hus _ (by simp))
      obtain ⟨st2, segs2, os2, am2, r2, l2, m2, k2, k2', h2'⟩ := ih h6 h1' (by simp; omega) l1 (fun u hu => hus u (by simp [hu]))
      refine ⟨st2, segs2, os2, am2, reaches_trans r1 r2, l2, by rw [m2, m1]; simp, fun e he => k2 e (k1 e he), ?_, by simpa using h2'⟩
      intro u hu x hx
      rcases List.mem_cons.1 hu with rfl | hu
      · obtain ⟨e, he, g⟩ := k1' x hx
        exact ⟨e, k2 e he, g⟩
      · exact k2' u hu x hx
  | @deepCall s args ss us m params as pieces hcall _ ih =>
    intro c src hp done segs os am st h hc hl hus
    cases hp with
    | @cons _ ws _ _ r h1 h2 h4 h5 h6 =>
      subst hc
      obtain ⟨s1, s2, rfl, p1, p2⟩ := placed_append args _ _ h6
      have hplaced := line_of_placed p1
      have hx := expand_deepCall hcall (by rw [h4]; simp) (fun x hx => (hplaced x hx).2) (by rw [h5])
        (fun x hx => by rw [(hplaced x hx).1, ends_of_placed p1 x hx, h5]; exact ⟨rfl, rfl⟩) (ss ++ rest)
      obtain ⟨l, mid, r, e, -, hld, -⟩ := hcall.tokens
      have hlast : ((args.getLast?).getD s).range.e.char = done.length + ws.length + s.text.length + s1.length := by
        rw [e, ← List.cons_append] at p1 ⊢
        rw [List.getLast?_concat]
        exact placed_last _ _ _ _ p1
      have hfirst : ((args.head?).getD s).range.s.char = done.length + ws.length + s.text.length := by
        rw [e] at p1 ⊢
        cases p1 with
        | @cons _ ws' _ _ r' g1 g2 g3 g4 g5 =>
          rw [hld] at g3
          simp only [Int.ofNat_eq_natCast] at g3
          rw [List.head?_cons, Option.getD_some, g4]
          dsimp only; omega
      rw [hlast, hfirst, Nat.add_sub_cancel_left] at hx
      have hu : IsUse fr.macros s := ⟨hcall.kind, by rw [hcall.isMacro]; simp⟩
      obtain ⟨st1, segs1, os1, am1, r1, l1, m1, k1, k1', h1'⟩ := use_token (env := env) hact h (u := ⟨s, args⟩) (ss := ss ++ rest) (by simpa using hl) h1 h2 h4 h5 hu
        (asrc := s1) hlast (fun x hx => (hplaced x (List.mem_of_mem_tail (List.dropLast_subset _ hx))).1) hx (hus _ (by simp))
      obtain ⟨st2, segs2, os2, am2, r2, l2, m2, k2, k2', h2'⟩ := ih p2 h1' (by simp; omega) l1 (fun u hu => hus u (by simp [hu]))
      refine ⟨st2, segs2, os2, am2, reaches_trans r1 r2, l2, by rw [m2, m1]; simp, fun e he => k2 e (k1 e he), ?_, by simpa using h2'⟩
      intro u hu x hx
      rcases List.mem_cons.1 hu with rfl | hu
      · obtain ⟨e, he, g⟩ := k1' x hx
        exact ⟨e, k2 e he, g⟩
      · exact k2' u hu x hx

end Verif.Props.Offsets
