import Verif.Pre.OffsetsSpec
import Verif.Props.MacroTerm
import Verif.Props.MacroArgs
/-!
# C29, from the source to the answer: the expansion of a macro use
-/

namespace Verif.Props.Offsets
open Verif.Pre Verif.Pre.Spec Verif.Props.MacroArgs

/-- A name that is not a macro expands to itself. -/
theorem simple_none {K : Kind → Prop} {ms : Macros} {x : Str} (h : ms x = none) : Simple K ms x := by
  have : ∀ y, Needs ms x y → y = x := by
    intro y hy
    induction hy with
    | self => rfl
    | body _ hm _ _ ih => subst ih; rw [h] at hm; cases hm
  intro y m hy hm
  rw [this y hy, h] at hm; cases hm

/-! ### Expansion -/

/-- A set of names whose macros are simple. -/
def Closed (K : Kind → Prop) (ms : Macros) (N : Str → Prop) : Prop :=
  ∀ x m, N x → ms x = some m → m.params = none ∧ ∀ r ∈ m.body, 0 ≤ r.delta.col ∧ (K r.kind ∨ Dropped r.kind) ∧ (r.kind = .ident → N r.text)

theorem closed_needs {K : Kind → Prop} {ms : Macros} {x : Str} (h : Simple K ms x) : Closed K ms (Needs ms x) := by
  intro y m hy hm
  obtain ⟨h1, h2⟩ := h y m hy hm
  exact ⟨h1, fun r hr => ⟨(h2 r hr).1, (h2 r hr).2, fun hk => .body hy hm hr hk⟩⟩

/-- Tokens an expansion leaves; `O` says where they may come from. -/
def Left (K : Kind → Prop) (ms : Macros) (O : Option Rng → Str → Prop) (t : Tok) : Prop :=
  K t.kind ∧ (t.kind = .ident → ms t.text = none) ∧ 0 ≤ t.sym.delta.col ∧ O t.orig t.text

def Queued (K : Kind → Prop) (N : Str → Prop) (O : Option Rng → Str → Prop) (q : QTok) : Prop :=
  (K q.tok.kind ∨ Dropped q.tok.kind) ∧ 0 ≤ q.delta.col ∧ O q.tok.orig q.tok.text ∧ (q.tok.kind = .ident → N q.tok.text)

/-- Tokens that are not arguments. -/
def Own (o : Option Rng) (_ : Str) : Prop := o = none

theorem bodySyms_queued {K : Kind → Prop} {N : Str → Prop} : ∀ (body : List RSym) (prev : Rng),
    (∀ r ∈ body, 0 ≤ r.delta.col ∧ (K r.kind ∨ Dropped r.kind) ∧ (r.kind = .ident → N r.text)) →
    ∀ s ∈ bodySyms prev body, 0 ≤ s.delta.col ∧ (K s.kind ∨ Dropped s.kind) ∧ (s.kind = .ident → N s.text) := by
  intro body
  induction body with
  | nil => intro prev _ s hs; simp [bodySyms] at hs
  | cons r rs ih =>
    intro prev h s hs
    simp only [bodySyms, List.mem_cons] at hs
    rcases hs with rfl | hs
    · exact h r (by simp)
    · exact ih _ (fun r hr => h r (by simp [hr])) s hs

theorem expandNonMacro_queued {K : Kind → Prop} {ms : Macros} {N : Str → Prop} {O : Option Rng → Str → Prop} (hO : ∀ x, O none x) (hm : Closed K ms N) {x : Str} {m : Macro} (hN : N x) (hx : ms x = some m)
    (delta : Delta) (hd : 0 ≤ delta.col) (prev : Rng) : ∀ q ∈ expandNonMacro m delta prev, Queued K N O q := by
  obtain ⟨-, hb⟩ := hm x m hN hx
  have hq : ∀ q ∈ bodyQueue delta (bodySyms prev m.body), Queued K N O q := by
    have := bodySyms_queued m.body prev hb
    cases e : bodySyms prev m.body with
    | nil => simp [bodyQueue]
    | cons s ss =>
      rw [e] at this
      intro q hq
      simp only [bodyQueue, List.mem_cons, List.mem_map] at hq
      rcases hq with rfl | ⟨y, hy, rfl⟩
      · exact ⟨(this s (by simp)).2.1, hd, hO _, (this s (by simp)).2.2⟩
      · exact ⟨(this y (by simp [hy])).2.1, (this y (by simp [hy])).1, hO _, (this y (by simp [hy])).2.2⟩
  intro q hq'
  refine hq q ?_
  unfold expandNonMacro dropLastNewline at hq'
  split at hq'
  · split at hq'
    · exact List.dropLast_subset _ hq'
    · exact hq'
  · exact hq'

/-- The first of the queued tokens. -/
theorem expandNonMacro_head {m : Macro} {r : RSym} {rs : List RSym} (hbody : m.body = r :: rs) (h1 : ¬ Dropped r.kind) (delta : Delta) (prev : Rng) :
    ∃ q qs, expandNonMacro m delta prev = q :: qs ∧ q.delta = delta ∧ q.tok.kind = r.kind ∧ q.tok.text = r.text := by
  have hne : r.kind ≠ .newline := by intro e; rw [e] at h1; exact h1 trivial
  unfold expandNonMacro
  rw [hbody]
  simp only [bodySyms, bodyQueue]
  generalize List.map (fun s => (⟨s.tok, s.delta⟩ : QTok)) (bodySyms (r.toSym prev).range rs) = tl
  unfold dropLastNewline
  cases tl with
  | nil =>
    have : ({ tok := (r.toSym prev).tok, delta := delta } : QTok).tok.kind ≠ .newline := hne
    simp only [List.getLast?_singleton, this, if_false]
    exact ⟨_, [], rfl, rfl, rfl, rfl⟩
  | cons y ys =>
    split
    · split
      · exact ⟨_, _, rfl, rfl, rfl, rfl⟩
      · exact ⟨_, _, rfl, rfl, rfl, rfl⟩
    · exact ⟨_, _, rfl, rfl, rfl, rfl⟩

/-- What one turn of the expansion does. -/
inductive Turned (ms : Macros) (allow : Bool) (token : Tok) (q : QTok) (cur : List QTok) (rest : List (List QTok)) (st : XSt) : XRes → Prop where
  | write {t : Tok} : t.kind = q.tok.kind → t.text = q.tok.text → (t.orig = q.tok.orig ∨ t.orig = none) →
      (t.sym.delta = q.delta ∨ t.sym.delta = token.sym.delta) → ¬ Dropped q.tok.kind → (q.tok.kind = .ident → ms q.tok.text = none ∧ allow = true) →
      Turned ms allow token q cur rest st (.continue_ { st with ctxs := cur :: rest, out := st.out ++ [t] })
  | drop : Dropped q.tok.kind → Turned ms allow token q cur rest st (.continue_ { st with ctxs := cur :: rest })
  | expand {m : Macro} : q.tok.kind = .ident → ms q.tok.text = some m →
      Turned ms allow token q cur rest st (.continue_ { st with ctxs := expandNonMacro m token.sym.delta q.tok.sym.range :: cur :: rest })
  | error {e : XErr} : allow = false → Turned ms allow token q cur rest st (.error e { st with ctxs := cur :: rest })

theorem turned {K : Kind → Prop} {ms : Macros} {N : Str → Prop} {O : Option Rng → Str → Prop} (hm : Closed K ms N) {allow : Bool} {token : Tok} {q : QTok} (hq : Queued K N O q)
    {cur : List QTok} {rest : List (List QTok)} {st : XSt} : Turned ms allow token q cur rest st (xStep ms allow token (q :: cur) rest st) := by
  by_cases hk : q.tok.kind = .ident
  · cases hmac : ms q.tok.text with
    | none =>
      cases allow with
      | true =>
        have : xStep ms true token (q :: cur) rest st = .continue_ { st with ctxs := cur :: rest, out := st.out ++ [q.tok.setDelta q.delta] } := by
          simp only [xStep, hk, hmac, if_true]
        rw [this]
        exact .write rfl rfl (.inl rfl) (.inl rfl) (by rw [hk]; exact id) (fun _ => ⟨hmac, rfl⟩)
      | false =>
        have : xStep ms false token (q :: cur) rest st = .error (.notFound q.tok.text q.tok.sym.range) { st with ctxs := cur :: rest } := by
          simp only [xStep, hk, hmac, Bool.false_eq_true, if_false]
        rw [this]
        exact .error rfl
    | some m =>
      have hp := (hm _ _ (hq.2.2.2 hk) hmac).1
      have : xStep ms allow token (q :: cur) rest st = .continue_ { st with ctxs := expandNonMacro m token.sym.delta q.tok.sym.range :: cur :: rest } := by
        simp only [xStep, hk, hmac, hp]
      rw [this]
      exact .expand hk hmac
  · by_cases hdr : Dropped q.tok.kind
    · have hx : ∀ k, q.tok.kind = k → Dropped k → xStep ms allow token (q :: cur) rest st = .continue_ { st with ctxs := cur :: rest } := by
        intro k hk hd
        cases k <;> first | exact hd.elim | simp only [xStep, hk]
      rw [hx _ rfl hdr]
      exact .drop hdr
    · by_cases hl : q.tok.kind = .strLit ∨ q.tok.kind = .charLit
      · have : xStep ms allow token (q :: cur) rest st = .continue_ { st with ctxs := cur :: rest, out := st.out ++ [(⟨q.tok.kind, q.tok.text,
            ⟨q.tok.sym.range.s, ⟨q.tok.sym.range.s.line, q.tok.sym.range.s.char + q.tok.text.length⟩⟩, token.sym.delta, q.tok.sym.val, false⟩ : Sym).tok] } := by
          rcases hl with h | h <;> simp only [xStep, h]
        rw [this]
        exact .write rfl rfl (.inr rfl) (.inr rfl) hdr (fun h => absurd h hk)
      · have hx : ∀ k, q.tok.kind = k → k ≠ .ident → ¬ Dropped k → ¬ (k = .strLit ∨ k = .charLit) →
            xStep ms allow token (q :: cur) rest st = .continue_ { st with ctxs := cur :: rest, out := st.out ++ [q.tok.setDelta q.delta] } := by
          intro k hk h1 h2 h3
          cases k <;> first | simp only [xStep, hk]; done | exact absurd rfl h1 | exact absurd trivial h2 | exact absurd (Or.inl rfl) h3 | exact absurd (Or.inr rfl) h3
        rw [hx _ rfl hk hdr hl]
        exact .write rfl rfl (.inl rfl) (.inl rfl) hdr (fun h => absurd h hk)

/-- What holds of the local variables of an expansion. -/
structure XI (K : Kind → Prop) (ms : Macros) (N : Str → Prop) (O : Option Rng → Str → Prop) (allow : Bool) (lexer : List Sym) (disabled : List Macro)
    (d : Nat) (st : XSt) : Prop where
  lexer : st.lexer = lexer
  popped : st.popped = []
  diff : st.diff = d
  disabled : st.disabled = disabled
  queued : ∀ c ∈ st.ctxs, ∀ q ∈ c, Queued K N O q
  left : ∀ t ∈ st.out, Left K ms O t ∧ (allow = false → t.kind ≠ .ident)

/-- How far the expansion is from its first token. -/
structure XH (ms : Macros) (token : Tok) (st : XSt) : Prop where
  first : ∀ t, st.out.head? = some t → t.sym.delta = token.sym.delta ∧ t.text ≠ []
  empty : st.out = [] → ∃ q cur rest, st.ctxs = (q :: cur) :: rest ∧ rest.length + 1 < 6 ∧ q.delta = token.sym.delta ∧ ¬ Dropped q.tok.kind ∧ q.tok.text ≠ [] ∧
    (q.tok.kind = .ident → ms q.tok.text ≠ none → Starts ms (4 - rest.length) q.tok.text)

theorem xStep_xi {K : Kind → Prop} {ms : Macros} {N : Str → Prop} {O : Option Rng → Str → Prop} (hO : ∀ x, O none x) (hm : Closed K ms N) {allow : Bool} {token : Tok} (htok : 0 ≤ token.sym.delta.col)
    {lexer : List Sym} {disabled : List Macro} {d : Nat} {top : List QTok} {rest : List (List QTok)} {st : XSt} (hi : XI K ms N O allow lexer disabled d st)
    (hc : st.ctxs = top :: rest) : (∃ st', xStep ms allow token top rest st = .continue_ st' ∧ XI K ms N O allow lexer disabled d st' ∧
      (XH ms token st → XH ms token st')) ∨ (allow = false ∧ ∃ e st', xStep ms allow token top rest st = .error e st' ∧ st'.disabled = disabled) := by
  have hq := hi.queued
  rw [hc] at hq
  have hrest : ∀ c ∈ rest, ∀ q ∈ c, Queued K N O q := fun c h => hq c (by simp [h])
  cases top with
  | nil =>
    refine .inl ⟨{ st with ctxs := rest }, rfl, ⟨hi.lexer, hi.popped, hi.diff, hi.disabled, hrest, hi.left⟩, fun hh => ⟨hh.first, fun he => ?_⟩⟩
    obtain ⟨q, cur, rest', h, -⟩ := hh.empty he
    rw [hc] at h; simp at h
  | cons q cur =>
    have hq0 : Queued K N O q := hq (q :: cur) (by simp) q (by simp)
    have hcur : ∀ c ∈ cur :: rest, ∀ q ∈ c, Queued K N O q := by
      intro c h
      rcases List.mem_cons.1 h with rfl | h
      · exact fun x hx => hq (q :: c) (by simp) x (by simp [hx])
      · exact hrest c h
    have hturn := turned hm (allow := allow) (token := token) hq0 (cur := cur) (rest := rest) (st := st)
    revert hturn
    generalize xStep ms allow token (q :: cur) rest st = res
    intro hturn
    cases hturn with
    | @write t h1 h2 h3 h4 h5 h6 =>
      refine .inl ⟨_, rfl, ⟨hi.lexer, hi.popped, hi.diff, hi.disabled, hcur, ?_⟩, fun hh => ⟨?_, by simp⟩⟩
      · intro x hx
        rcases List.mem_append.1 hx with hx | hx
        · exact hi.left x hx
        · simp at hx; subst hx
          refine ⟨⟨by rw [h1]; exact hq0.1.resolve_right h5, ?_, ?_, ?_⟩, ?_⟩
          · intro e; rw [h1] at e; rw [h2]; exact (h6 e).1
          · rcases h4 with h4 | h4 <;> rw [h4]
            · exact hq0.2.1
            · exact htok
          · rcases h3 with h3 | h3
            · rw [h3, h2]; exact hq0.2.2.1
            · rw [h3]; exact hO _
          · intro ha e
            rw [h1] at e
            rw [(h6 e).2] at ha; cases ha
      · intro x hx
        cases e : st.out with
        | nil =>
          simp only [e, List.nil_append, List.head?_cons, Option.some.injEq] at hx
          subst hx
          obtain ⟨q', cur', rest', g1, -, g2, -, g3, -⟩ := hh.empty e
          rw [hc] at g1
          simp only [List.cons.injEq] at g1
          rw [← g1.1.1] at g2 g3
          refine ⟨?_, by rw [h2]; exact g3⟩
          rcases h4 with h4 | h4 <;> rw [h4]
          exact g2
        | cons a b => simp only [e, List.cons_append, List.head?_cons, Option.some.injEq] at hx; exact hh.first x (by simp [e, hx])
    | drop hd =>
      refine .inl ⟨_, rfl, ⟨hi.lexer, hi.popped, hi.diff, hi.disabled, hcur, hi.left⟩, fun hh => ⟨hh.first, fun he => ?_⟩⟩
      obtain ⟨q', cur', rest', g1, -, -, g2, -⟩ := hh.empty he
      rw [hc] at g1
      simp only [List.cons.injEq] at g1
      rw [← g1.1.1] at g2
      exact absurd hd g2
    | @expand m hk hmac =>
      refine .inl ⟨_, rfl, ⟨hi.lexer, hi.popped, hi.diff, hi.disabled, ?_, hi.left⟩, fun hh => ⟨hh.first, fun he => ?_⟩⟩
      · intro c h
        rcases List.mem_cons.1 h with rfl | h
        · exact expandNonMacro_queued hO hm (hq0.2.2.2 hk) hmac token.sym.delta htok q.tok.sym.range
        · exact hcur c h
      · obtain ⟨q', cur', rest', g1, g2, g3, -, -, g4⟩ := hh.empty he
        rw [hc] at g1
        simp only [List.cons.injEq] at g1
        obtain ⟨⟨rfl, rfl⟩, rfl⟩ := g1
        have hs := g4 hk (by rw [hmac]; simp)
        cases hr : 4 - rest.length with
        | zero => rw [hr] at hs; exact hs.elim
        | succ d =>
          rw [hr] at hs
          obtain ⟨m', r, rs, e1, e2, e3, e4, e5⟩ := hs
          rw [hmac] at e1; cases e1
          obtain ⟨y, ys, f1, f2, f3, f4⟩ := expandNonMacro_head e2 e3 token.sym.delta q.tok.sym.range
          refine ⟨y, ys, cur :: rest, by rw [f1], by rw [List.length_cons]; omega, f2, by rw [f3]; exact e3, by rw [f4]; exact e4, ?_⟩
          rw [f3, f4, show 4 - (cur :: rest).length = d by rw [List.length_cons]; omega]
          exact e5
    | error ha => exact .inr ⟨ha, _, _, rfl, hi.disabled⟩

theorem xLoop_xi {K : Kind → Prop} {ms : Macros} {N : Str → Prop} {O : Option Rng → Str → Prop} (hO : ∀ x, O none x) (hm : Closed K ms N) {allow : Bool} {token : Tok} (htok : 0 ≤ token.sym.delta.col)
    {lexer : List Sym} {disabled : List Macro} {d : Nat} : ∀ (f : Nat) (st : XSt) (r : XRes), XI K ms N O allow lexer disabled d st → xLoop ms allow token f st = some r →
      (∃ st', r = .continue_ st' ∧ XI K ms N O allow lexer disabled d st' ∧ (XH ms token st → XH ms token st' ∧ st'.out ≠ [])) ∨
      (allow = false ∧ ∃ e st', r = .error e st' ∧ st'.disabled = disabled) := by
  intro f
  induction f with
  | zero => intro st r _ h; simp [xLoop] at h
  | succ f ih =>
    intro st r hi h
    unfold xLoop at h
    split at h
    · rename_i hc
      simp at h; subst h
      refine .inl ⟨st, rfl, hi, fun hh => ⟨hh, fun he => ?_⟩⟩
      obtain ⟨_, _, _, h, _⟩ := hh.empty he
      rw [hc] at h; simp at h
    · rename_i top rest hc
      split at h
      · rcases xStep_xi hO hm htok hi hc with ⟨st1, hs, hi1, hh1⟩ | ⟨ha, e, st1, hs, hd⟩
        · rw [hs] at h
          rcases ih _ _ hi1 h with ⟨st', e1, e2, e3⟩ | h'
          · exact .inl ⟨st', e1, e2, fun hh => e3 (hh1 hh)⟩
          · exact .inr h'
        · rw [hs] at h
          simp at h; subst h
          exact .inr ⟨ha, e, st1, rfl, hd⟩
      · rename_i hlen
        simp at h; subst h
        refine .inl ⟨st, rfl, hi, fun hh => ⟨hh, fun he => ?_⟩⟩
        obtain ⟨_, _, rest', h, h2, _⟩ := hh.empty he
        rw [hc] at h; simp only [List.cons.injEq] at h
        rw [h.2] at hlen; omega

theorem start_xi {K : Kind → Prop} {ms : Macros} {O : Option Rng → Str → Prop} (hO : ∀ x, O none x) {s : Sym} (hK : K .ident) (hs : s.kind = .ident) (hd : 0 ≤ s.delta.col) (allow : Bool) (lexer : List Sym)
    (disabled : List Macro) : XI K ms (Needs ms s.text) O allow lexer disabled 0 ⟨[[⟨s.tok, s.tok.sym.delta⟩]], [], lexer, [], disabled, 0⟩ := by
  refine ⟨rfl, rfl, rfl, rfl, ?_, by simp⟩
  intro c hc q hq
  simp at hc; subst hc; simp at hq; subst hq
  refine ⟨Or.inl ?_, hd, hO _, fun _ => .self⟩
  show K s.kind
  rw [hs]; exact hK

/-- The expansion of a use. -/
theorem expand_use {ms : Macros} {s : Sym} (hs : IsUse ms s) (hm : Simple PlainKind ms s.text) (hst : Starts ms 4 s.text) (ht : s.text ≠ [])
    (hd : 0 ≤ s.delta.col) (lexer : List Sym) (disabled : List Macro) :
    ∃ f t ts, expandIdentifier ms true f s.tok lexer [] disabled = some ⟨lexer, t :: ts, disabled, .ok 0⟩ ∧ (∀ x ∈ t :: ts, Left PlainKind ms Own x) ∧
      t.sym.delta = s.delta ∧ t.text ≠ [] := by
  obtain ⟨f, o, ho⟩ := Verif.Props.MacroTerm.expand_terminates ms true s.tok lexer [] disabled
  have h := ho 0
  have hinit := start_xi (K := PlainKind) (ms := ms) (O := Own) (fun _ => rfl) trivial hs.1 hd true lexer disabled
  have hhead : XH ms s.tok ⟨[[⟨s.tok, s.tok.sym.delta⟩]], [], lexer, [], disabled, 0⟩ := by
    refine ⟨by simp, fun _ => ⟨_, _, _, rfl, by decide, rfl, ?_, ht, fun _ _ => hst⟩⟩
    have : s.tok.kind = .ident := hs.1
    rw [this]; exact id
  unfold expandIdentifier at h
  cases hx : xLoop ms true s.tok (f + 0) ⟨[[⟨s.tok, s.tok.sym.delta⟩]], [], lexer, [], disabled, 0⟩ with
  | none => rw [hx] at h; simp at h
  | some r =>
    rcases xLoop_xi (fun _ => rfl) (closed_needs hm) hd _ _ _ hinit hx with ⟨st, rfl, hi, hh⟩ | ⟨h, -⟩
    · obtain ⟨hh, hne⟩ := hh hhead
      cases hout : st.out with
      | nil => exact absurd hout hne
      | cons t ts =>
        refine ⟨f, t, ts, ?_, ?_, ?_⟩
        · unfold expandIdentifier
          have hx' : xLoop ms true s.tok f ⟨[[⟨s.tok, s.tok.sym.delta⟩]], [], lexer, [], disabled, 0⟩ = some (.continue_ st) := by
            simpa using hx
          rw [hx']
          simp [hi.lexer, hi.popped, hi.diff, hi.disabled, hout]
        · rw [← hout]; exact fun x hx => (hi.left x hx).1
        · exact hh.first t (by simp [hout])
    · cases h

/-! ### Calls -/

/-- What may be said of the arguments of a call. -/
def Given (K : Kind → Prop) (N : Str → Prop) (O : Option Rng → Str → Prop) (t : Tok) : Prop :=
  (K t.kind ∨ Dropped t.kind) ∧ 0 ≤ t.sym.delta.col ∧ t.orig = none ∧ O (some t.sym.range) t.text ∧ (t.kind = .ident → N t.text)

theorem bodyStep_queued {K : Kind → Prop} {N : Str → Prop} {O : Option Rng → Str → Prop} (hO : ∀ x, O none x) (hK : K .strLit) {args : Nat → List Tok}
    (hargs : ∀ i, ∀ t ∈ args i, Given K N O t) {m : Macro} {symbol : Sym} (hs : 0 ≤ symbol.delta.col) {delta : Delta} (hd : 0 ≤ delta.col) {i : Nat} {c : Sym}
    (hc : 0 ≤ c.delta.col ∧ (K c.kind ∨ Dropped c.kind) ∧ (c.kind = .ident → N c.text)) {st st' : MSt}
    (h : (∀ q ∈ st.ctx, Queued K N O q) ∧ ∀ d, st.stringize = some d → 0 ≤ d.col) (hst : bodyStep args m symbol delta 0 i c st = some st') :
    (∀ q ∈ st'.ctx, Queued K N O q) ∧ ∀ d, st'.stringize = some d → 0 ≤ d.col := by
  have hown : Queued K N O ⟨c.tok, c.delta⟩ := ⟨hc.2.1, hc.1, hO _, hc.2.2⟩
  have hadd : ∀ {l : List QTok} {x : QTok}, (∀ q ∈ l, Queued K N O q) → Queued K N O x → ∀ q ∈ l ++ [x], Queued K N O q := by
    intro l x hl hx q hq
    rcases List.mem_append.1 hq with hq | hq
    · exact hl q hq
    · simp at hq; subst hq; exact hx
  unfold bodyStep at hst
  split at hst
  · simp only [Option.some.injEq] at hst; subst hst
    refine ⟨?_, h.2⟩
    dsimp only
    split
    · exact hadd h.1 hown
    · exact h.1
  · simp only [Option.some.injEq] at hst; subst hst
    exact ⟨hadd h.1 hown, fun d e => by simp at e; subst e; exact hc.1⟩
  · split at hst
    · unfold substParam at hst
      split at hst
      · cases hst
      · rename_i pct hp
        have hpct : Queued K N O pct := h.1 pct (List.mem_of_getLast? hp)
        have hdl : ∀ q ∈ st.ctx.dropLast, Queued K N O q := fun q hq => h.1 q (List.dropLast_subset _ hq)
        split at hst
        · cases hst
        · rename_i v hv
          split at hst
          · cases hst
          · split at hst
            · cases hst
            · rename_i a ha
              split at hst
              · cases hst
              · split at hst
                · rename_i d hd'
                  simp only [Option.some.injEq] at hst; subst hst
                  refine ⟨hadd (fun q hq => hdl q (List.dropLast_subset _ hq)) ⟨.inl hK, ?_, hO _, fun e => nomatch e⟩, fun d e => nomatch e⟩
                  dsimp only
                  split
                  · exact hs
                  · exact h.2 d hd'
                · simp only [Option.some.injEq] at hst; subst hst
                  refine ⟨fun q hq => ?_, fun d e => nomatch e⟩
                  rcases List.mem_append.1 hq with hq | hq
                  · exact hdl q hq
                  · obtain ⟨j, hj, rfl⟩ := List.mem_mapIdx.1 hq
                    have hg := hargs _ _ (List.getElem_mem hj)
                    generalize (args a.toNat)[j] = t at hg ⊢
                    obtain ⟨g1, g2, g3, g4, g5⟩ := hg
                    rw [if_pos ⟨g3, trivial⟩]
                    refine ⟨g1, ?_, g4, g5⟩
                    dsimp only
                    split
                    · exact hs
                    · split
                      · exact hpct.2.1
                      · exact g2
    · simp only [Option.some.injEq] at hst; subst hst
      exact ⟨hadd h.1 hown, h.2⟩
  · split at hst
    · simp only [Option.some.injEq] at hst; subst hst; exact h
    · simp only [Option.some.injEq] at hst; subst hst
      refine ⟨hadd h.1 ⟨hc.2.1, ?_, hO _, hc.2.2⟩, fun d e => nomatch e⟩
      dsimp only
      split
      · exact hd
      · exact hc.1

theorem bodyLoop_queued {K : Kind → Prop} {N : Str → Prop} {O : Option Rng → Str → Prop} (hO : ∀ x, O none x) (hK : K .strLit) {args : Nat → List Tok}
    (hargs : ∀ i, ∀ t ∈ args i, Given K N O t) {m : Macro} {symbol : Sym} (hs : 0 ≤ symbol.delta.col) {delta : Delta} (hd : 0 ≤ delta.col) :
    ∀ (cs : List Sym) (i : Nat) (st st' : MSt), (∀ c ∈ cs, 0 ≤ c.delta.col ∧ (K c.kind ∨ Dropped c.kind) ∧ (c.kind = .ident → N c.text)) →
      ((∀ q ∈ st.ctx, Queued K N O q) ∧ ∀ d, st.stringize = some d → 0 ≤ d.col) → bodyLoop args m symbol delta 0 i cs st = some st' →
      ∀ q ∈ st'.ctx, Queued K N O q := by
  intro cs
  induction cs with
  | nil => intro i st st' _ h e; simp only [bodyLoop, Option.some.injEq] at e; subst e; exact h.1
  | cons c cs ih =>
    intro i st st' hc h e
    simp only [bodyLoop] at e
    cases hb : bodyStep args m symbol delta 0 i c st with
    | none => rw [hb] at e; cases e
    | some st1 =>
      rw [hb] at e
      exact ih (i + 1) st1 st' (fun x hx => hc x (by simp [hx])) (bodyStep_queued hO hK hargs hs hd (hc c (by simp)) h hb) e

/-- The rest of the body, after some pieces. -/
theorem finish (args : Nat → List Tok) (m : Macro) (params : List Int) (hm : m.params = some params) (symbol : Sym) (delta : Delta) (depth : Nat)
    (ps : List Piece) (fin : List RSym) (hwf : ∀ p ∈ ps, p.WF params) (cs : List Sym) (hlike : List.Forall₂ Like cs (ps.flatMap Piece.tokens ++ fin))
    (i : Nat) (hlen : i + cs.length = m.body.length)
    (hfin : (∃ nl : RSym, nl.kind = .newline ∧ fin = [nl]) ∨ (fin = [] ∧ ∀ c, cs.getLast? = some c → c.kind ≠ .newline)) (ctx : List QTok) :
    ∃ q, bodyLoop args m symbol delta depth i cs ⟨ctx, 0, none⟩ = some ⟨ctx ++ q, 0, none⟩ := by
  obtain ⟨c1, c2, rfl, h1, h2⟩ := forall2_append_split hlike
  rw [List.length_append] at hlen
  obtain ⟨q, -, f⟩ := pieces_run args m params hm symbol delta depth ps c1 i ctx hwf h1 (by
    intro c hc hk
    rcases hfin with ⟨nl, hnl, rfl⟩ | ⟨rfl, hlast⟩
    · have := h2.length_eq
      simp only [List.length_singleton] at this
      omega
    · cases h2
      exact absurd hk (hlast c (by simpa using hc))) (by omega)
  refine ⟨q, ?_⟩
  rw [bodyLoop_append, f]
  simp only [Option.bind_some]
  rcases hfin with ⟨nl, hnl, rfl⟩ | ⟨rfl, _⟩
  · cases h2 with
    | @cons c _ _ _ hc hnil =>
      cases hnil
      have hstep : bodyStep args m symbol delta depth (i + c1.length) c ⟨ctx ++ q, 0, none⟩ = some ⟨ctx ++ q, 0, none⟩ := by
        have hk : c.kind = .newline := by rw [hc.1, hnl]
        have hl : i + c1.length + 1 = m.body.length := by simp only [List.length_singleton] at hlen; omega
        simp only [bodyStep, hk, hl, and_self, if_true]
      simp only [bodyLoop, hstep]
  · cases h2
    rfl

/-- What a call becomes starts where the call was. -/
theorem expandMacro_head {B : Kind → Str → Prop} (hB1 : ∀ k x, B k x → ¬ Dropped k) (hB2 : ∀ x, x ≠ [] → B .strLit x) (args : Nat → List Tok) (m : Macro) (params : List Int) (hm : m.params = some params) (symbol : Sym) (delta : Delta)
    (depth : Nat) (pieces : List Piece) (fin : List RSym) (hwf : ∀ p ∈ pieces, p.WF params) (hbody : m.body = pieces.flatMap Piece.tokens ++ fin)
    (hfin : (∃ nl : RSym, nl.kind = .newline ∧ fin = [nl]) ∨ (fin = [] ∧ ∀ r, m.body.getLast? = some r → r.kind ≠ .newline))
    (hopen : Opens B (fun n => args (position params n)) pieces) (hdelta : delta = symbol.delta ∨ ∃ r ps, pieces = .plain r :: ps) :
    ∃ q qs, expandMacro args m symbol delta depth = some (q :: qs) ∧ q.delta = delta ∧ B q.tok.kind q.tok.text := by
  have hlike := like_body symbol.range m.body
  have hlen0 : (bodySyms symbol.range m.body).length = m.body.length := hlike.length_eq
  have hlast : fin = [] → (∀ r, m.body.getLast? = some r → r.kind ≠ .newline) → ∀ c, (bodySyms symbol.range m.body).getLast? = some c → c.kind ≠ .newline := by
    intro _ hl c hc
    rw [List.getLast?_eq_getElem?] at hc hl
    obtain ⟨hlt, hc⟩ := List.getElem?_eq_some_iff.1 hc
    have h3 := (List.forall₂_iff_get.1 hlike).2 ((bodySyms symbol.range m.body).length - 1) hlt (by omega)
    simp only [List.get_eq_getElem] at h3
    rw [hc] at h3
    rw [h3.1]
    exact hl _ (by rw [List.getElem?_eq_some_iff]; exact ⟨by omega, by simp only [hlen0]⟩)
  unfold expandMacro
  generalize bodySyms symbol.range m.body = cs at hlike hlen0 hlast
  conv at hlike => rw [hbody]
  cases pieces with
  | nil => exact hopen.elim
  | cons p ps =>
    rw [List.flatMap_cons, List.append_assoc] at hlike
    obtain ⟨c1, c2, rfl, h1, h2⟩ := forall2_append_split hlike
    rw [List.length_append] at hlen0
    have hrest : ∀ ctx, ∃ q, bodyLoop args m symbol delta depth (0 + c1.length) c2 ⟨ctx, 0, none⟩ = some ⟨ctx ++ q, 0, none⟩ := fun ctx =>
      finish args m params hm symbol delta depth ps fin (fun p hp => hwf p (by simp [hp])) c2 h2 _ (by omega) (by
        rcases hfin with h | ⟨h, hl⟩
        · exact .inl h
        · refine .inr ⟨h, fun c hc => hlast h hl c ?_⟩
          rw [List.getLast?_append, hc]; rfl) ctx
    suffices hsuff : ∃ q qs, bodyLoop args m symbol delta depth 0 c1 ⟨[], 0, none⟩ = some ⟨q :: qs, 0, none⟩ ∧ q.delta = delta ∧
        B q.tok.kind q.tok.text by
      obtain ⟨q, qs, e, h3, h4⟩ := hsuff
      obtain ⟨q2, e2⟩ := hrest (q :: qs)
      refine ⟨q, qs ++ q2, ?_, h3, h4⟩
      rw [bodyLoop_append, e]
      simp only [Option.bind_some]
      rw [e2]; rfl
    have hp := hwf p (by simp)
    cases p with
    | plain r =>
      simp only [Piece.tokens] at h1
      cases h1 with
      | @cons c _ cs _ hc hnil =>
        cases hnil
        obtain ⟨g1, g2⟩ := hopen
        have hk : c.kind ≠ .newline := by rw [hc.1]; intro e; rw [e] at g2; exact hB1 _ _ g2 trivial
        have hstep : bodyStep args m symbol delta depth 0 c ⟨[], 0, none⟩ = some ⟨[⟨c.tok, delta⟩], 0, none⟩ := by
          unfold bodyStep
          split
          · rename_i h; rw [hc.1] at h; exact absurd h hp.1
          · rename_i h; rw [hc.1] at h; exact absurd h hp.2
          · rename_i h; rw [hc.1] at h; exact absurd h g1
          · rw [if_neg (fun h => hk h.1)]; rfl
        refine ⟨⟨c.tok, delta⟩, [], by simp only [bodyLoop, hstep], rfl, ?_⟩
        show B c.kind c.text
        rw [hc.1, hc.2.1]; exact g2
    | param pc l n =>
      simp only [Piece.tokens] at h1
      obtain ⟨w1, w2, w3, a, ha, hn, hpa⟩ := hp
      cases h1 with
      | @cons c1 _ cs _ hc1 hr1 =>
        cases hr1 with
        | @cons c2 _ cs _ hc2 hnil =>
          cases hnil
          obtain ⟨t, ts, ht, hb⟩ := hopen
          have hpos : position params n = a := by simp [position, hpa]
          dsimp only at ht
          rw [hpos] at ht
          have hstep1 : bodyStep args m symbol delta depth 0 c1 ⟨[], 0, none⟩ = some ⟨[⟨c1.tok, c1.delta⟩], 1, none⟩ := by
            simp only [bodyStep, hc1.1, w1]; rfl
          have k1 : ¬ ((n : Int) < 0 ∨ 10 ≤ (n : Int)) := by omega
          have k2 : ¬ ((a : Int) < 0 ∨ 10 ≤ (a : Int)) := by omega
          have hstep2 : ∃ q qs, bodyStep args m symbol delta depth 1 c2 ⟨[⟨c1.tok, c1.delta⟩], 1, none⟩ = some ⟨q :: qs, 0, none⟩ ∧
              q.delta = symbol.delta ∧ q.tok.kind = t.kind ∧ q.tok.text = t.text := by
            have hk : c2.kind = .intLit := by rw [hc2.1, w2]
            have hv : c2.val = some (n : Int) := by rw [hc2.2.2, w3]
            simp only [bodyStep, hk, if_true, substParam, List.getLast?_singleton, hv, k1, if_false, hm, Option.getD_some, Int.toNat_natCast, hpa, k2,
              List.dropLast_singleton, List.nil_append, ht, List.mapIdx_cons]
            refine ⟨_, _, rfl, rfl, ?_, ?_⟩ <;> (dsimp only; split <;> rfl)
          obtain ⟨q, qs, e, d1, d2, d3⟩ := hstep2
          have hds : delta = symbol.delta := hdelta.resolve_right (by rintro ⟨r, ps, h⟩; cases h)
          exact ⟨q, qs, by simp only [bodyLoop, hstep1, Nat.zero_add, e], d1.trans hds.symm, by rw [d2, d3]; exact hb⟩
    | quoted h pc l n =>
      simp only [Piece.tokens] at h1
      obtain ⟨w0, w1, w2, w3, a, ha, hn, hpa⟩ := hp
      cases h1 with
      | @cons c0 _ cs _ hc0 hr0 =>
        cases hr0 with
        | @cons c1 _ cs _ hc1 hr1 =>
          cases hr1 with
          | @cons c2 _ cs _ hc2 hnil =>
            cases hnil
            have hstep0 : bodyStep args m symbol delta depth 0 c0 ⟨[], 0, none⟩ = some ⟨[⟨c0.tok, c0.delta⟩], 0, some c0.delta⟩ := by
              simp only [bodyStep, hc0.1, w0]; rfl
            have hstep1 : bodyStep args m symbol delta depth 1 c1 ⟨[⟨c0.tok, c0.delta⟩], 0, some c0.delta⟩ =
                some ⟨[⟨c0.tok, c0.delta⟩, ⟨c1.tok, c1.delta⟩], 1, some c0.delta⟩ := by
              simp only [bodyStep, hc1.1, w1]; rfl
            have k1 : ¬ ((n : Int) < 0 ∨ 10 ≤ (n : Int)) := by omega
            have k2 : ¬ ((a : Int) < 0 ∨ 10 ≤ (a : Int)) := by omega
            have hstep2 : ∃ q, bodyStep args m symbol delta depth 2 c2 ⟨[⟨c0.tok, c0.delta⟩, ⟨c1.tok, c1.delta⟩], 1, some c0.delta⟩ =
                some ⟨[q], 0, none⟩ ∧ q.delta = symbol.delta ∧ q.tok.kind = .strLit ∧ q.tok.text ≠ [] := by
              have hk : c2.kind = .intLit := by rw [hc2.1, w2]
              have hv : c2.val = some (n : Int) := by rw [hc2.2.2, w3]
              simp only [bodyStep, hk, if_true, substParam, List.getLast?_cons_cons, List.getLast?_singleton, hv, k1, if_false, hm, Option.getD_some,
                Int.toNat_natCast, hpa, k2]
              exact ⟨_, rfl, rfl, rfl, by simp [Tok.text, Sym.tok, stringizeText]⟩
            obtain ⟨q, e, d1, d2, d3⟩ := hstep2
            have hds : delta = symbol.delta := hdelta.resolve_right (by rintro ⟨r, ps, h⟩; cases h)
            refine ⟨q, [], by simp only [bodyLoop, hstep0, Nat.zero_add, hstep1, e], d1.trans hds.symm, ?_⟩
            rw [d2]; exact hB2 _ d3
    | escaped p1 p2 x => exact hopen.elim

/-- The tokens of the arguments of a call. -/
theorem separated_mem {as : List (List Tok)} {ts : List Tok} (h : Separated as ts) : ∀ a ∈ as, ∀ t ∈ a, t ∈ ts := by
  induction h with
  | one => intro a ha t ht; simp at ha; subst ha; exact ht
  | @cons a ts as c _ _ ih =>
    intro b hb t ht
    rcases List.mem_cons.1 hb with rfl | hb
    · simp [ht]
    · have := ih b hb t ht
      simp [this]

/-! ### Arguments that are passed on -/

/-- Nothing is nested too deep, and the token of the argument at `r` is written or waits to be. -/
structure XD (ms : Macros) (r : Rng) (st : XSt) : Prop where
  fits : ∀ pre c post, st.ctxs = pre ++ c :: post → ∀ q ∈ c, q.tok.kind = .ident → Fits ms (4 - post.length) q.tok.text
  short : st.ctxs.length ≤ 5
  there : (∃ t ∈ st.out, t.orig = some r) ∨ ∃ c ∈ st.ctxs, ∃ q ∈ c, q.tok.orig = some r ∧ ¬ Dropped q.tok.kind ∧ q.tok.kind ≠ .strLit ∧ q.tok.kind ≠ .charLit ∧
    (q.tok.kind = .ident → ms q.tok.text = none)

theorem expandNonMacro_ident {m : Macro} {delta : Delta} {prev : Rng} : ∀ q ∈ expandNonMacro m delta prev, q.tok.kind = .ident →
    ∃ r ∈ m.body, r.kind = .ident ∧ r.text = q.tok.text := by
  intro q hq hk
  have hsub : q ∈ bodyQueue delta (bodySyms prev m.body) := by
    unfold expandNonMacro dropLastNewline at hq
    split at hq
    · split at hq
      · exact List.dropLast_subset _ hq
      · exact hq
    · exact hq
  have hmem : ∃ s ∈ bodySyms prev m.body, s.kind = .ident ∧ s.text = q.tok.text := by
    cases e : bodySyms prev m.body with
    | nil => rw [e] at hsub; simp [bodyQueue] at hsub
    | cons s ss =>
      rw [e] at hsub
      simp only [bodyQueue, List.mem_cons, List.mem_map] at hsub
      rcases hsub with rfl | ⟨y, hy, rfl⟩
      · exact ⟨s, by simp, hk, rfl⟩
      · exact ⟨y, by simp [hy], hk, rfl⟩
  obtain ⟨s, hs, h1, h2⟩ := hmem
  have : ∀ (body : List RSym) (prev : Rng), s ∈ bodySyms prev body → ∃ r ∈ body, r.kind = s.kind ∧ r.text = s.text := by
    intro body
    induction body with
    | nil => intro prev h; simp [bodySyms] at h
    | cons r rs ih =>
      intro prev h
      simp only [bodySyms, List.mem_cons] at h
      rcases h with rfl | h
      · exact ⟨r, by simp, rfl, rfl⟩
      · obtain ⟨r', h1, h2⟩ := ih _ h
        exact ⟨r', by simp [h1], h2⟩
  obtain ⟨r, g1, g2, g3⟩ := this _ _ hs
  exact ⟨r, g1, g2.trans h1, g3.trans h2⟩

/-- A literal that is written is an argument as before, unless it is one of characters. -/
theorem xStep_orig {ms : Macros} {allow : Bool} {token : Tok} {q : QTok} {cur : List QTok} {rest : List (List QTok)} {st : XSt} (h1 : ¬ Dropped q.tok.kind)
    (h2 : q.tok.kind ≠ .strLit) (h3 : q.tok.kind ≠ .charLit) (h4 : q.tok.kind = .ident → ms q.tok.text = none ∧ allow = true) :
    xStep ms allow token (q :: cur) rest st = .continue_ { st with ctxs := cur :: rest, out := st.out ++ [q.tok.setDelta q.delta] } := by
  by_cases hk : q.tok.kind = .ident
  · obtain ⟨g1, g2⟩ := h4 hk
    simp only [xStep, hk, g1, g2, if_true]
  · have : ∀ k, q.tok.kind = k → k ≠ .ident → ¬ Dropped k → k ≠ .strLit → k ≠ .charLit →
        xStep ms allow token (q :: cur) rest st = .continue_ { st with ctxs := cur :: rest, out := st.out ++ [q.tok.setDelta q.delta] } := by
      intro k e h1 h2 h3 h4
      cases k <;> first | simp only [xStep, e]; done | exact absurd rfl h1 | exact absurd trivial h2 | exact absurd rfl h3 | exact absurd rfl h4
    exact this _ rfl hk h1 h2 h3

theorem xStep_xd {K : Kind → Prop} {ms : Macros} {N : Str → Prop} {O : Option Rng → Str → Prop} (hm : Closed K ms N) {token : Tok}
    {r : Rng} {top : List QTok} {rest : List (List QTok)} {st : XSt} (hq : ∀ q ∈ top, Queued K N O q) (h : XD ms r st) (hc : st.ctxs = top :: rest) {st' : XSt}
    (hs : xStep ms true token top rest st = .continue_ st') : XD ms r st' := by
  have hfits : ∀ pre c post, rest = pre ++ c :: post → ∀ q ∈ c, q.tok.kind = .ident → Fits ms (4 - post.length) q.tok.text := by
    intro pre c post e
    exact h.fits (top :: pre) c post (by rw [hc, e]; rfl)
  have htop : ∀ q ∈ top, q.tok.kind = .ident → Fits ms (4 - rest.length) q.tok.text := h.fits [] top rest hc
  have hshort := h.short
  rw [hc, List.length_cons] at hshort
  cases top with
  | nil =>
    simp only [xStep, XRes.continue_.injEq] at hs
    subst hs
    refine ⟨hfits, by show rest.length ≤ 5; omega, ?_⟩
    rcases h.there with h | ⟨c, h1, q, h2, h3⟩
    · exact .inl h
    · rw [hc] at h1
      rcases List.mem_cons.1 h1 with rfl | h1
      · simp at h2
      · exact .inr ⟨c, h1, q, h2, h3⟩
  | cons q cur =>
    have hcur : ∀ pre c post, cur :: rest = pre ++ c :: post → ∀ q ∈ c, q.tok.kind = .ident → Fits ms (4 - post.length) q.tok.text := by
      intro pre c post e
      cases pre with
      | nil =>
        simp only [List.nil_append, List.cons.injEq] at e
        obtain ⟨rfl, rfl⟩ := e
        exact fun x hx => htop x (by simp [hx])
      | cons p pre =>
        simp only [List.cons_append, List.cons.injEq] at e
        exact hfits pre c post e.2
    have hthere : ((∃ t ∈ st.out, t.orig = some r) ∨ ∃ c ∈ cur :: rest, ∃ q ∈ c, q.tok.orig = some r ∧ ¬ Dropped q.tok.kind ∧ q.tok.kind ≠ .strLit ∧
        q.tok.kind ≠ .charLit ∧ (q.tok.kind = .ident → ms q.tok.text = none)) ∨ (q.tok.orig = some r ∧ ¬ Dropped q.tok.kind ∧ q.tok.kind ≠ .strLit ∧
        q.tok.kind ≠ .charLit ∧ (q.tok.kind = .ident → ms q.tok.text = none)) := by
      rcases h.there with h | ⟨c, h1, x, h2, h3⟩
      · exact .inl (.inl h)
      · rw [hc] at h1
        rcases List.mem_cons.1 h1 with rfl | h1
        · rcases List.mem_cons.1 h2 with rfl | h2
          · exact .inr h3
          · exact .inl (.inr ⟨cur, by simp, x, h2, h3⟩)
        · exact .inl (.inr ⟨c, by simp [h1], x, h2, h3⟩)
    have hturn := turned hm (allow := true) (token := token) (hq q (by simp)) (cur := cur) (rest := rest) (st := st)
    rw [hs] at hturn
    generalize hres : XRes.continue_ st' = res at hturn
    cases hturn with
    | @write t h1 h2 h3 h4 h5 h6 =>
      simp only [XRes.continue_.injEq] at hres
      have hst := hres
      subst hres
      refine ⟨hcur, by show (cur :: rest).length ≤ 5; rw [List.length_cons]; omega, ?_⟩
      rcases hthere with (⟨x, hx, hr⟩ | hx) | ⟨g1, g2, g3, g4, g5⟩
      · exact .inl ⟨x, by simp [hx], hr⟩
      · exact .inr hx
      · rw [xStep_orig g2 g3 g4 (fun hk => ⟨g5 hk, rfl⟩)] at hs
        simp only [XRes.continue_.injEq, XSt.mk.injEq, true_and, and_true, List.append_cancel_left_eq, List.cons.injEq] at hs
        exact .inl ⟨t, by simp, by rw [← hs]; exact g1⟩
    | drop hd =>
      simp only [XRes.continue_.injEq] at hres
      subst hres
      refine ⟨hcur, by show (cur :: rest).length ≤ 5; rw [List.length_cons]; omega, ?_⟩
      rcases hthere with hx | ⟨-, g2, -⟩
      · exact hx
      · exact absurd hd g2
    | error ha => cases ha
    | @expand m hk hmac =>
      simp only [XRes.continue_.injEq] at hres
      subst hres
      have hf := htop q (by simp) hk
      cases hl : 4 - rest.length with
      | zero => rw [hl] at hf; rw [show Fits ms 0 q.tok.text = (ms q.tok.text = none) from rfl, hmac] at hf; cases hf
      | succ d =>
        rw [hl] at hf
        have hf' := hf m hmac
        refine ⟨?_, by show (_ :: cur :: rest).length ≤ 5; rw [List.length_cons, List.length_cons]; omega, ?_⟩
        · intro pre c post e
          cases pre with
          | nil =>
            simp only [List.nil_append, List.cons.injEq] at e
            obtain ⟨rfl, rfl⟩ := e
            intro x hx hxk
            obtain ⟨b, hb, hb1, hb2⟩ := expandNonMacro_ident x hx hxk
            rw [← hb2, show 4 - (cur :: rest).length = d by rw [List.length_cons]; omega]
            exact hf' b hb hb1
          | cons p pre =>
            simp only [List.cons_append, List.cons.injEq] at e
            exact hcur pre c post e.2
        · rcases hthere with (hx | ⟨c, hc', hx⟩) | ⟨-, -, -, -, g5⟩
          · exact .inl hx
          · exact .inr ⟨c, List.mem_cons_of_mem _ hc', hx⟩
          · rw [g5 hk] at hmac; cases hmac

theorem xLoop_xd {K : Kind → Prop} {ms : Macros} {N : Str → Prop} {O : Option Rng → Str → Prop} (hO : ∀ x, O none x) (hm : Closed K ms N) {token : Tok}
    (htok : 0 ≤ token.sym.delta.col) {lexer : List Sym} {disabled : List Macro} {d : Nat} {r : Rng} : ∀ (f : Nat) (st st' : XSt),
      XI K ms N O true lexer disabled d st → XD ms r st → xLoop ms true token f st = some (.continue_ st') → ∃ t ∈ st'.out, t.orig = some r := by
  intro f
  induction f with
  | zero => intro st st' _ _ h; simp [xLoop] at h
  | succ f ih =>
    intro st st' hi hx h
    unfold xLoop at h
    split at h
    · rename_i hc
      simp at h; subst h
      rcases hx.there with h | ⟨c, h1, -⟩
      · exact h
      · rw [hc] at h1; simp at h1
    · rename_i top rest hc
      have := hx.short
      rw [hc, List.length_cons] at this
      rw [if_pos (by omega)] at h
      rcases xStep_xi hO hm htok hi hc with ⟨st1, hs, hi1, -⟩ | ⟨ha, -⟩
      · rw [hs] at h
        exact ih st1 st' hi1 (xStep_xd hm (fun q hq => hi.queued top (by rw [hc]; simp) q hq) hx hc hs) h
      · cases ha

/-- The tokens of an argument are among those that replace the call. -/
theorem expandMacro_passes {args : Nat → List Tok} {m : Macro} {params : List Int} (hm : m.params = some params) {symbol : Sym} {delta : Delta}
    {pieces : List Piece} {fin : List RSym} (hwf : ∀ p ∈ pieces, p.WF params) (hbody : m.body = pieces.flatMap Piece.tokens ++ fin)
    (hfin : (∃ nl : RSym, nl.kind = .newline ∧ fin = [nl]) ∨ (fin = [] ∧ ∀ r, m.body.getLast? = some r → r.kind ≠ .newline))
    {pc l : RSym} {n : Nat} (hp : Piece.param pc l n ∈ pieces) {t : Tok} (ht : t ∈ args (position params n)) (hor : t.orig = none) {q : List QTok}
    (hq : expandMacro args m symbol delta 0 = some q) : ∃ y ∈ q, y.tok.orig = some t.sym.range ∧ y.tok.kind = t.kind ∧ y.tok.text = t.text := by
  have hlike := like_body symbol.range m.body
  have hlen0 : (bodySyms symbol.range m.body).length = m.body.length := hlike.length_eq
  have hlast : fin = [] → (∀ r, m.body.getLast? = some r → r.kind ≠ .newline) → ∀ c, (bodySyms symbol.range m.body).getLast? = some c → c.kind ≠ .newline := by
    intro _ hl c hc
    rw [List.getLast?_eq_getElem?] at hc hl
    obtain ⟨hlt, hc⟩ := List.getElem?_eq_some_iff.1 hc
    have h3 := (List.forall₂_iff_get.1 hlike).2 ((bodySyms symbol.range m.body).length - 1) hlt (by omega)
    simp only [List.get_eq_getElem] at h3
    rw [hc] at h3
    rw [h3.1]
    exact hl _ (by rw [List.getElem?_eq_some_iff]; exact ⟨by omega, by simp only [hlen0]⟩)
  obtain ⟨ps1, ps2, rfl⟩ := List.append_of_mem hp
  unfold expandMacro at hq
  generalize bodySyms symbol.range m.body = cs at hlike hlen0 hlast hq
  conv at hlike => rw [hbody]
  rw [List.flatMap_append, List.flatMap_cons, List.append_assoc, List.append_assoc] at hlike
  obtain ⟨c1, c23, rfl, h1, h23⟩ := forall2_append_split hlike
  obtain ⟨c2, c3, rfl, h2, h3⟩ := forall2_append_split h23
  simp only [List.length_append] at hlen0
  have h2len : c2.length = 2 := by simpa [Piece.tokens] using h2.length_eq
  obtain ⟨q1, -, f1⟩ := pieces_run args m params hm symbol delta 0 ps1 c1 0 [] (fun p hp => hwf p (by simp [hp])) h1 (by intro c _ _; omega) (by omega)
  obtain ⟨w1, w2, w3, a, ha, hn, hpa⟩ := hwf _ hp
  simp only [Piece.tokens] at h2
  cases h2 with
  | @cons x1 _ cs _ hx1 hr1 =>
    cases hr1 with
    | @cons x2 _ cs _ hx2 hnil =>
      cases hnil
      have hpos : position params n = a := by simp [position, hpa]
      rw [hpos] at ht
      have hstep1 : bodyStep args m symbol delta 0 c1.length x1 ⟨q1, 0, none⟩ = some ⟨q1 ++ [⟨x1.tok, x1.delta⟩], 1, none⟩ := by
        simp only [bodyStep, hx1.1, w1]; rfl
      have k1 : ¬ ((n : Int) < 0 ∨ 10 ≤ (n : Int)) := by omega
      have k2 : ¬ ((a : Int) < 0 ∨ 10 ≤ (a : Int)) := by omega
      have hstep2 : ∃ y, bodyStep args m symbol delta 0 (c1.length + 1) x2 ⟨q1 ++ [⟨x1.tok, x1.delta⟩], 1, none⟩ = some ⟨q1 ++ y, 0, none⟩ ∧
          ∃ z ∈ y, z.tok.orig = some t.sym.range ∧ z.tok.kind = t.kind ∧ z.tok.text = t.text := by
        have hk : x2.kind = .intLit := by rw [hx2.1, w2]
        have hv : x2.val = some (n : Int) := by rw [hx2.2.2, w3]
        simp only [bodyStep, hk, if_true, substParam, List.getLast?_concat, hv, k1, if_false, hm, Option.getD_some, Int.toNat_natCast, hpa, k2,
          List.dropLast_concat]
        refine ⟨_, rfl, ?_⟩
        obtain ⟨j, hj, rfl⟩ := List.getElem_of_mem ht
        refine ⟨_, List.mem_mapIdx.2 ⟨j, hj, rfl⟩, ?_⟩
        dsimp only
        rw [if_pos ⟨hor, trivial⟩]
        exact ⟨rfl, rfl, rfl⟩
      obtain ⟨y, hy, z, hz, hz'⟩ := hstep2
      obtain ⟨q3, f3⟩ := finish args m params hm symbol delta 0 ps2 fin (fun p hp => hwf p (by simp [hp])) c3 h3 (c1.length + 2)
        (by simp only [List.length_cons, List.length_nil] at hlen0; omega) (by
        rcases hfin with h | ⟨h, hl⟩
        · exact .inl h
        · refine .inr ⟨h, fun c hc => hlast h hl c ?_⟩
          rw [← List.append_assoc, List.getLast?_append, hc]; rfl) (q1 ++ y)
      rw [bodyLoop_append, f1] at hq
      simp only [Option.bind_some, List.nil_append, Nat.zero_add, List.cons_append, bodyLoop, hstep1, hy] at hq
      have f3' : bodyLoop args m symbol delta 0 (c1.length + 1 + 1) c3 ⟨q1 ++ y, 0, none⟩ = some ⟨q1 ++ y ++ q3, 0, none⟩ := f3
      rw [f3'] at hq
      simp only [Option.map_some, Option.some.injEq] at hq
      exact ⟨z, by rw [← hq]; simp [hz], hz'⟩

/-- Where the tokens of the expansion of a call come from: the macro, or the arguments. -/
def From (mid : List Sym) (o : Option Rng) (x : Str) : Prop := ∀ r, o = some r → ∃ a ∈ mid, a.range = r ∧ a.text = x

/-- The expansion of a call. -/
theorem expand_call {ms : Macros} {s : Sym} {args : List Sym} {m : Macro} {params : List Int} {as : List (List Tok)} {pieces : List Piece}
    (h : Call ms s args m params as pieces) (hd : 0 ≤ s.delta.col) (hcol : ∀ x ∈ args, 0 ≤ x.delta.col)
    (hline : ∀ x ∈ args, x.range.s.line = s.range.e.line) (rest : List Sym) :
    ∃ f t ts, expandIdentifier ms true f s.tok (args ++ rest) [] [] = some ⟨rest, t :: ts, [],
        .ok (((args.getLast?).getD s).range.e.char - ((args.head?).getD s).range.s.char)⟩ ∧
      (∀ x ∈ t :: ts, Left PlainKind ms (From (Use.inner ⟨s, args⟩)) x) ∧ (t.sym.delta = s.delta ∧ t.text ≠ []) ∧
      ∀ x, Copied ms ⟨s, args⟩ x → ∃ y ∈ t :: ts, y.orig = some x.range := by
  obtain ⟨l, mid, r, rfl, hl, -, hr, hsep, hmid⟩ := h.tokens
  obtain ⟨fin, hbody, hfin⟩ := h.body
  have hinner : Use.inner ⟨s, l :: (mid ++ [r])⟩ = mid := by simp [Use.inner]
  rw [hinner]
  obtain ⟨cargs, hcoll, hcargs⟩ := MacroArgs.arguments_partial s.range.e.line m.nbParams l r as mid rest hl (hline l (by simp)) hr hsep h.enough h.arguments
  have hgiven : (fun n => cargs (position params n)) = given params as := by
    funext n; rw [hcargs]; rfl
  obtain ⟨q, qs, hq, hq1, hq2⟩ := expandMacro_head (B := Begins ms) (fun _ _ hb => hb.1) (fun _ hx => ⟨id, hx, fun e => nomatch e⟩) cargs m params h.isParams s
    s.delta 0 pieces fin h.wf hbody hfin (by rw [hgiven]; exact h.opens) (.inl rfl)
  let N : Str → Prop := fun y => ∃ x, Simple PlainKind ms x ∧ Needs ms x y
  have hO : ∀ x, From mid none x := fun x r e => nomatch e
  have hclosed : Closed PlainKind ms N := by
    intro y m' ⟨x, hx, hy⟩ hm'
    obtain ⟨g1, g2⟩ := closed_needs hx y m' hy hm'
    exact ⟨g1, fun b hb => ⟨(g2 b hb).1, (g2 b hb).2.1, fun hk => ⟨x, hx, (g2 b hb).2.2 hk⟩⟩⟩
  have hsimple : ∀ x, (ms x ≠ none → Simple PlainKind ms x) → N x := by
    intro x hx
    refine ⟨x, ?_, .self⟩
    by_cases hn : ms x = none
    · exact simple_none hn
    · exact hx hn
  have hargs : ∀ i, ∀ t ∈ cargs i, Given PlainKind N (From mid) t := by
    intro i t ht
    rw [hcargs, List.getD_eq_getElem?_getD] at ht
    cases ha : as[i]? with
    | none => rw [ha] at ht; simp at ht
    | some a =>
      rw [ha] at ht
      have := separated_mem hsep a (List.mem_of_getElem? ha) t ht
      obtain ⟨x, hx, rfl⟩ := List.mem_map.1 this
      exact ⟨.inl (hmid x hx).1, hcol x (by simp [hx]), rfl, fun r' e => ⟨x, hx, by cases e; rfl, rfl⟩, fun hk => hsimple _ fun hne => (hmid x hx).2 ⟨hk, hne⟩⟩
  have hqueue : ∀ x ∈ q :: qs, Queued PlainKind N (From mid) x := by
    have hq' := hq
    unfold expandMacro at hq'
    cases hb : bodyLoop cargs m s s.delta 0 0 (bodySyms s.range m.body) ⟨[], 0, none⟩ with
    | none => rw [hb] at hq'; cases hq'
    | some st =>
      rw [hb] at hq'
      simp only [Option.map_some, Option.some.injEq] at hq'
      rw [← hq']
      refine bodyLoop_queued hO trivial hargs hd hd _ _ _ _ ?_ ⟨by simp, by simp⟩ hb
      exact bodySyms_queued m.body s.range fun b hb => ⟨(h.plain b hb).1, (h.plain b hb).2.1, fun hk => hsimple _ fun _ => (h.plain b hb).2.2 hk⟩
  let d := r.range.e.char - l.range.s.char
  let st1 : XSt := ⟨[q :: qs, []], [], rest, [], [], d⟩
  have hstep : xStep ms true s.tok [⟨s.tok, s.tok.sym.delta⟩] [] ⟨[[⟨s.tok, s.tok.sym.delta⟩]], [], l :: (mid ++ [r]) ++ rest, [], [], 0⟩ = .continue_ st1 := by
    have hk : s.tok.kind = .ident := h.kind
    have hmac : ms s.tok.text = some m := h.isMacro
    have hcoll' : collectArguments ⟨[], [], l :: (mid ++ [r]) ++ rest⟩ s.tok.sym.range.e.line m.nbParams = (⟨[], [], rest⟩, some (cargs, d)) := by
      rw [← hcoll]; simp [Sym.tok]
    have hq' : expandMacro cargs m s.tok.sym s.tok.sym.delta 0 = some (q :: qs) := hq
    simp only [xStep, hk, hmac, h.isParams, hcoll', List.length_nil, hq', if_true, Nat.zero_add, st1]
  have hinit : XI PlainKind ms N (From mid) true rest [] d st1 := by
    refine ⟨rfl, rfl, rfl, rfl, ?_, by simp [st1]⟩
    intro c hc x hx
    simp only [st1, List.mem_cons, List.not_mem_nil, or_false] at hc
    rcases hc with rfl | rfl
    · exact hqueue x hx
    · simp at hx
  have hhead : XH ms s.tok st1 := by
    refine ⟨by simp [st1], fun _ => ⟨q, qs, [[]], rfl, by decide, hq1, hq2.1, hq2.2.1, hq2.2.2⟩⟩
  obtain ⟨f, o, ho⟩ := Verif.Props.MacroTerm.expand_terminates ms true s.tok (l :: (mid ++ [r]) ++ rest) [] []
  have hx := ho 1
  unfold expandIdentifier at hx
  have hunfold : xLoop ms true s.tok (f + 1) ⟨[[⟨s.tok, s.tok.sym.delta⟩]], [], l :: (mid ++ [r]) ++ rest, [], [], 0⟩ = xLoop ms true s.tok f st1 := by
    conv => lhs; unfold xLoop
    simp only [List.length_nil, hstep]
    rfl
  rw [hunfold] at hx
  cases hr2 : xLoop ms true s.tok f st1 with
  | none => rw [hr2] at hx; cases hx
  | some res =>
    rcases xLoop_xi hO hclosed hd _ _ _ hinit hr2 with ⟨st, rfl, hi, hh⟩ | ⟨h, -⟩
    · obtain ⟨hh, hne⟩ := hh hhead
      cases hout : st.out with
      | nil => exact absurd hout hne
      | cons t ts =>
        refine ⟨f + 1, t, ts, ?_, ?_, ?_, ?_⟩
        · unfold expandIdentifier
          rw [hunfold, hr2]
          simp only [hi.lexer, hi.popped, hi.diff, hi.disabled, hout, List.reverse_nil, List.append_nil, List.head?_cons, Option.getD_some]
          rw [← List.cons_append, List.getLast?_concat]; rfl
        · rw [← hout]; exact fun x hx => (hi.left x hx).1
        · exact hh.first t (by simp [hout])
        · intro x hx
          obtain ⟨m', params', as', pieces', hcall, hfit, hpass⟩ := hx
          have em : m' = m := Option.some.inj (hcall.isMacro.symm.trans h.isMacro)
          subst em
          have ep : params' = params := Option.some.inj (hcall.isParams.symm.trans h.isParams)
          subst ep
          obtain ⟨fin', hbody', hfin'⟩ := hcall.body
          obtain ⟨l', mid', r', e', hl', -, hr', hsep', -⟩ := hcall.tokens
          simp only [List.cons.injEq] at e'
          obtain ⟨rfl, e'⟩ := e'
          have e2 := List.append_inj' e' rfl
          obtain ⟨rfl, e2⟩ := e2
          simp only [List.cons.injEq, and_true] at e2
          subst e2
          obtain ⟨cargs', hcoll', hcargs'⟩ := MacroArgs.arguments_partial s.range.e.line m'.nbParams l r as' mid rest hl (hline l (by simp)) hr hsep' hcall.enough hcall.arguments
          rw [hcoll] at hcoll'
          simp only [Prod.mk.injEq, Option.some.injEq, true_and, and_true] at hcoll'
          subst hcoll'
          obtain ⟨pc, pl, n, hp, hgv⟩ := hpass.used
          have hmem : x.tok ∈ cargs (position params' n) := by rw [hcargs']; exact hgv
          obtain ⟨y, hy, hy1, hy2, hy3⟩ := expandMacro_passes hcall.isParams hcall.wf hbody' hfin' hp hmem rfl hq
          have hargs3 : ∀ i, ∀ t ∈ cargs i, Given PlainKind (Fits ms 3) (From mid) t := by
            intro i t ht
            obtain ⟨g1, g2, g3, g4, -⟩ := hargs i t ht
            refine ⟨g1, g2, g3, g4, fun hk => ?_⟩
            rw [hcargs', List.getD_eq_getElem?_getD] at ht
            cases ha : as'[i]? with
            | none => rw [ha] at ht; simp at ht
            | some a => rw [ha] at ht; exact hfit.2 a (List.mem_of_getElem? ha) t ht hk
          have hfits : ∀ x ∈ q :: qs, Queued PlainKind (Fits ms 3) (From mid) x := by
            have hq' := hq
            unfold expandMacro at hq'
            cases hb : bodyLoop cargs m' s s.delta 0 0 (bodySyms s.range m'.body) ⟨[], 0, none⟩ with
            | none => rw [hb] at hq'; cases hq'
            | some st =>
              rw [hb] at hq'
              simp only [Option.map_some, Option.some.injEq] at hq'
              rw [← hq']
              refine bodyLoop_queued hO trivial hargs3 hd hd _ _ _ _ ?_ ⟨by simp, by simp⟩ hb
              exact bodySyms_queued m'.body s.range fun b hb => ⟨(h.plain b hb).1, (h.plain b hb).2.1, fun hk => hfit.1 b hb hk⟩
          have hxd : XD ms x.range st1 := by
            refine ⟨?_, by simp [st1], .inr ⟨q :: qs, by simp [st1], y, hy, hy1, ?_⟩⟩
            · intro pre c post e
              cases pre with
              | nil =>
                simp only [st1, List.nil_append, List.cons.injEq] at e
                obtain ⟨rfl, rfl⟩ := e
                exact fun z hz hk => (hfits z hz).2.2.2 hk
              | cons p pre =>
                simp only [st1, List.cons_append, List.cons.injEq] at e
                have : c = [] := by
                  have : c ∈ [([] : List QTok)] := by rw [e.2]; simp
                  simpa using this
                subst this
                simp
            · rw [hy2, hy3]; exact hpass.kind
          have := xLoop_xd hO hclosed hd f st1 st hinit hxd hr2
          rwa [hout] at this
    · cases h

end Verif.Props.Offsets
