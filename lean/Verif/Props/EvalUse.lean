import Verif.Props.MacroDeep
import Verif.Props.Provenance
import Verif.Props.EvalTerm
import Verif.Pre.CondSpec
/-!
# Conditions in which definitions are used (C102)
-/

namespace Verif.Props.EvalUse

open Verif.Pre Verif.Pre.Spec Verif.Props.PreFuel Verif.Props.Macros Verif.Props.MacroArgs Verif.Props.MacroDeep Verif.Props.Provenance

/-! ### Feeding tokens to the evaluator -/

/-- A token with this kind and text, and the value it is read as. -/
def symOf (read : Kind → Str → Option Int) (k : KT) : Sym := ⟨k.1, k.2, ⟨⟨0, 0⟩, ⟨0, 0⟩⟩, ⟨0, 0⟩, read k.1 k.2, true⟩

def feed (p : Profile) (macros : Macros) (read : Kind → Str → Option Int) : List KT → ESt → Res ESt
  | [], st => .ok st
  | k :: ks, st =>
    match eStep p macros 0 (symOf read k) st with
    | some (.ok st') => feed p macros read ks st'
    | some .panic => .panic
    | _ => .err

/-- The token is dealt with at once, whatever the fuel. -/
def Direct (k : Kind) (lfd : Bool) : Prop := ¬ Names k ∨ lfd = true

def put (it : List Sym) (sk : List Tok) (st : ESt) : ESt := { st with iter := it, stack := sk }

theorem step_direct (p : Profile) (macros : Macros) (read : Kind → Str → Option Int) (f : Nat) (s : Sym) (st : ESt) (it : List Sym) (sk : List Tok)
    (hd : Direct s.kind st.lfd) (hv : s.val = read s.kind s.text) :
    eStep p macros f s (put it sk st) = (eStep p macros 0 (symOf read (ofSym s)) st).map (Res.map (put it sk)) := by
  by_cases hn : Names s.kind
  · have hl : st.lfd = true := hd.resolve_left (fun h => h hn)
    have hn' : Names (symOf read (ofSym s)).kind := hn
    rw [eStep_names _ _ _ _ _ hn, eStep_names _ _ _ _ _ hn']
    simp only [put, hl, if_true, Option.map_some, Res.map]
    rfl
  · have hlit : litValue s = litValue (symOf read (ofSym s)) := by unfold litValue; rw [hv]; rfl
    have hk : (symOf read (ofSym s)).kind = s.kind := rfl
    unfold eStep
    rw [hk, ← hlit]
    generalize s.kind = k at hn
    cases k
    case lparen => rfl
    case rparen =>
      simp only [put, Option.map_some, Option.some.injEq]
      rcases closeParen p st.ops st.out with ⟨ops, out, b⟩ | _ | _ <;> rfl
    case op o =>
      simp only [put, Option.map_some, Option.some.injEq]
      rcases preOp st.mbu o with _ | c
      · rfl
      · simp only
        rcases popOps p c st.ops st.out with ⟨ops, out⟩ | _ | _ <;> rfl
    all_goals first
      | exact absurd trivial hn
      | rfl

/-- With enough fuel, the loop ends with `R` from `st`. -/
def Ev (p : Profile) (macros : Macros) (st : ESt) (R : Res ESt) : Prop := ∃ N, ∀ k, eLoop p macros (N + k) st = some R

/-- From `st`, the tokens `l` are consumed, and `it` remain. -/
def Eats (p : Profile) (macros : Macros) (read : Kind → Str → Option Int) (st : ESt) (l : List KT) (it : List Sym) : Prop :=
  ∀ R, (match feed p macros read l st with
    | .ok st' => Ev p macros (put it [] st') R
    | .err => R = .err
    | .panic => R = .panic) → Ev p macros st R

variable {p : Profile} {macros : Macros} {read : Kind → Str → Option Int}

theorem put_put (it it' : List Sym) (sk sk' : List Tok) (st : ESt) : put it sk (put it' sk' st) = put it sk st := rfl

theorem feed_put (l : List KT) : ∀ (st : ESt) (lfd : Bool), (∀ k ∈ l, ¬ Names k.1) → st.lfd = lfd → ∀ it sk,
    feed p macros read l (put it sk st) = (feed p macros read l st).map (put it sk) := by
  induction l with
  | nil => intro st lfd _ _ it sk; rfl
  | cons k l ih =>
    intro st lfd hl hst it sk
    have := step_direct p macros read 0 (symOf read k) st it sk (.inl (hl k (by simp))) rfl
    simp only [feed]
    have hs : symOf read (ofSym (symOf read k)) = symOf read k := rfl
    rw [this, hs]
    rcases eStep p macros 0 (symOf read k) st with _ | (st' | _ | _)
    · rfl
    · exact ih st' st'.lfd (fun x hx => hl x (by simp [hx])) rfl it sk
    · rfl
    · rfl

theorem ev_step {st st₁ : ESt} {s : Sym} (hn : eNext st = some (s, st₁)) {R : Res ESt} (F : Nat) {r : Res ESt}
    (hs : ∀ f, eStep p macros (F + f) s st₁ = some r)
    (h : match r with | .ok st₂ => Ev p macros st₂ R | .err => R = .err | .panic => R = .panic) : Ev p macros st R := by
  rcases r with st₂ | _ | _
  · obtain ⟨N, hN⟩ := h
    refine ⟨F + N + 1, fun k => ?_⟩
    rw [show F + N + 1 + k = (F + (N + k)) + 1 by omega]
    simp only [eLoop, hn, hs]
    rw [show F + (N + k) = N + (F + k) by omega]
    exact hN _
  · refine ⟨F + 1, fun k => ?_⟩
    rw [show F + 1 + k = (F + k) + 1 by omega]
    simp only [eLoop, hn, hs]
    rw [h]
  · refine ⟨F + 1, fun k => ?_⟩
    rw [show F + 1 + k = (F + k) + 1 by omega]
    simp only [eLoop, hn, hs]
    rw [h]

/-- One token from the text or from the stack. -/
theorem eats_one {st st₁ : ESt} {s : Sym} (hn : eNext st = some (s, put st₁.iter st₁.stack st)) (hd : Direct s.kind st.lfd)
    (hv : s.val = read s.kind s.text) {l : List KT} {it : List Sym}
    (h : ∀ st₂, eStep p macros 0 (symOf read (ofSym s)) st = some (.ok st₂) → ∀ R,
      (match feed p macros read l st₂ with
        | .ok st' => Ev p macros (put it [] st') R
        | .err => R = .err
        | .panic => R = .panic) → Ev p macros (put st₁.iter st₁.stack st₂) R) :
    Eats p macros read st (ofSym s :: l) it := by
  intro R hR
  have hs : ∀ f, eStep p macros f s (put st₁.iter st₁.stack st) = (eStep p macros 0 (symOf read (ofSym s)) st).map (Res.map (put st₁.iter st₁.stack)) :=
    fun f => step_direct p macros read f s st _ _ hd hv
  simp only [feed] at hR
  rcases hr : eStep p macros 0 (symOf read (ofSym s)) st with _ | (st₂ | _ | _)
  · exfalso
    unfold eStep at hr
    have hk : (symOf read (ofSym s)).kind = s.kind := rfl
    rw [hk] at hr
    by_cases hnm : Names s.kind
    · have h2 := eStep_names p macros 0 (symOf read (ofSym s)) st hnm
      rw [if_pos (hd.resolve_left (fun h => h hnm))] at h2
      unfold eStep at h2
      rw [hk, hr] at h2; cases h2
    · revert hr
      generalize s.kind = k at hnm
      cases k <;> first | exact absurd trivial hnm | simp
  · rw [hr] at hR
    exact ev_step hn 0 (r := .ok (put st₁.iter st₁.stack st₂)) (fun f => by rw [hs, hr]; rfl) (h st₂ hr R hR)
  · rw [hr] at hR
    exact ev_step hn 0 (r := .err) (fun f => by rw [hs, hr]; rfl) hR
  · rw [hr] at hR
    exact ev_step hn 0 (r := .panic) (fun f => by rw [hs, hr]; rfl) hR

theorem plain_names {k : Kind} (h : Itself k) : ¬ Names k := by
  rcases h with rfl | rfl | ⟨o, rfl⟩ | rfl | rfl | rfl | rfl | rfl <;> exact fun h => h

/-- What an expansion has left on the stack. -/
theorem eats_stack (sk : List Tok) : ∀ (st : ESt), st.stack = sk → (∀ t ∈ sk, Itself t.kind ∧ t.sym.val = read t.kind t.text) →
    Eats p macros read st (sk.map ofTok) st.iter := by
  induction sk with
  | nil =>
    intro st hst _ R hR
    have : put st.iter [] st = st := by unfold put; rw [← hst]
    simp only [List.map_nil, feed] at hR
    rw [this] at hR; exact hR
  | cons t sk ih =>
    intro st hst ht
    have hn : eNext st = some (t.sym, put (put st.iter sk st).iter (put st.iter sk st).stack st) := by
      unfold eNext; rw [hst]; rfl
    refine eats_one (st₁ := put st.iter sk st) hn (.inl (plain_names (ht t (by simp)).1)) (ht t (by simp)).2 ?_
    intro st₂ _ R hR
    refine ih (put st.iter sk st₂) rfl (fun u hu => ht u (by simp [hu])) R ?_
    rw [feed_put _ st₂ st₂.lfd (by
      intro k hk
      obtain ⟨u, hu, rfl⟩ := List.mem_map.1 hk
      exact plain_names (ht u (by simp [hu])).1) rfl]
    revert hR
    rcases feed p macros read (sk.map ofTok) st₂ with st' | _ | _ <;> exact id

/-- Values of tokens are read from their text. -/
structure Read (macros : Macros) (read : Kind → Str → Option Int) : Prop where
  str : ∀ x, read .strLit x = none
  body : ∀ x m, macros x = some m → ∀ r ∈ m.body, r.val = read r.kind r.text

theorem Read.kept (h : Read macros read) : Kept macros (fun s => s.val = read s.kind s.text) (fun _ => True) where
  delta := fun _ _ h => h
  str := fun _ x _ _ _ => (h.str x).symm
  lit := fun _ _ _ h _ => h
  name := fun _ _ _ => trivial
  body := fun x m hm _ _ r hr => ⟨h.body x m hm r hr, trivial⟩

/-- The tokens of the text. -/
structure Text (macros : Macros) (read : Kind → Str → Option Int) (line : Nat) (disabled : List Macro) (s : Sym) : Prop where
  start : s.range.s.line = line
  stop : s.range.e.line = line
  col : 0 ≤ s.delta.col
  val : s.val = read s.kind s.text
  enabled : ∀ m, macros s.text = some m → m ∉ disabled

/-- An expansion that leaves its result on the stack. -/
theorem eats_expansion (hread : Read macros read) {line : Nat} {s : Sym} {it it' : List Sym} {st : ESt} (hit : st.iter = s :: it) (hsk : st.stack = [])
    (hs : s.kind = .ident) (hl : st.lfd = false) (ht : Text macros read line st.disabled s) (hval : ∀ x ∈ it, x.val = read x.kind x.text) {out : List Tok} {b : List KT} {d : Nat}
    (hout : out.map ofTok = b) (hb : ∀ k ∈ b, Itself k.1)
    (hx : ExpandsTo macros false s.tok it [] st.disabled ⟨it', out ++ [], st.disabled, .ok d⟩) : Eats p macros read st b it' := by
  obtain ⟨F, hF⟩ := hx
  have hn : eNext st = some (s, put it [] st) := by unfold eNext; rw [hsk, hit]; simp only [put, hsk]
  have hnm : Names s.kind := by rw [hs]; trivial
  have hstep : ∀ f, eStep p macros (F + f) s (put it [] st) = some (.ok (put it' out st)) := by
    intro f
    have hexp : eStep.expandHere macros (F + f) s (put it [] st) = some (.ok (put it' out st)) := by
      unfold eStep.expandHere
      have := hF f
      simp only [put]
      rw [this]
      simp
    rw [eStep_names _ _ _ _ _ hnm, if_neg (by simp [put, hl])]
    split
    · rename_i m hm
      rw [if_neg (by exact ht.enabled m hm)]; exact hexp
    · exact hexp
  have hvals : ∀ t ∈ out, t.sym.val = read t.kind t.text := by
    have h1 := expand_Q hread.kept (n := 0) false F s.tok it [] st.disabled ht.val (fun x hx => by
      rw [Nat.sub_zero, List.take_length] at hx
      exact hval x hx) (by simp) _ (hF 0)
    have h2 := (h1.2 (Nat.zero_le _))
    intro t htm
    exact h2.2 t (by simp [htm])
  intro R hR
  refine ev_step hn F hstep ?_
  refine eats_stack (read := read) out (put it' out st) rfl ?_ R ?_
  · intro t htm
    refine ⟨?_, hvals t htm⟩
    have : ofTok t ∈ b := by rw [← hout]; exact List.mem_map_of_mem htm
    exact hb _ this
  · rw [hout, feed_put b st st.lfd (fun k hk => plain_names (hb k hk)) rfl]
    revert hR
    rcases feed p macros read b st with st' | _ | _ <;> exact id

theorem feed_append (a : List KT) : ∀ (b : List KT) (st : ESt), feed p macros read (a ++ b) st =
    match feed p macros read a st with | .ok st' => feed p macros read b st' | .err => .err | .panic => .panic := by
  induction a with
  | nil => intro b st; rfl
  | cons k a ih =>
    intro b st
    simp only [List.cons_append, feed]
    rcases eStep p macros 0 (symOf read k) st with _ | (st' | _ | _)
    · rfl
    · exact ih b st'
    · rfl
    · rfl

/-- Tokens that are not names leave the rest of the state alone. -/
theorem feed_keeps (l : List KT) : ∀ (st st' : ESt), (∀ k ∈ l, Itself k.1) → feed p macros read l st = .ok st' →
    st'.iter = st.iter ∧ st'.stack = st.stack ∧ st'.disabled = st.disabled ∧ st'.lfd = st.lfd := by
  induction l with
  | nil => intro st st' _ h; simp only [feed, Res.ok.injEq] at h; subst h; exact ⟨rfl, rfl, rfl, rfl⟩
  | cons k l ih =>
    intro st st' hl h
    simp only [feed] at h
    rcases hr : eStep p macros 0 (symOf read k) st with _ | (st₂ | _ | _)
    · rw [hr] at h; cases h
    · rw [hr] at h
      obtain ⟨h1, h2, h3, h4⟩ := ih st₂ st' (fun x hx => hl x (by simp [hx])) h
      have hk : (symOf read k).kind = k.1 := rfl
      have : st₂.iter = st.iter ∧ st₂.stack = st.stack ∧ st₂.disabled = st.disabled ∧ st₂.lfd = st.lfd := by
        have hk1 := hl k (by simp)
        unfold eStep at hr
        rw [hk] at hr
        rcases hk1 with h | h | ⟨o, h⟩ | h | h | h | h | h <;> rw [h] at hr
        · simp only [Option.some.injEq, Res.ok.injEq] at hr; subst hr; exact ⟨rfl, rfl, rfl, rfl⟩
        · simp only [Option.some.injEq] at hr
          rcases hc : closeParen p st.ops st.out with ⟨ops, out, b⟩ | _ | _ <;> rw [hc] at hr
          · simp only [Res.ok.injEq] at hr; subst hr; exact ⟨rfl, rfl, rfl, rfl⟩
          · cases hr
          · cases hr
        · simp only [Option.some.injEq] at hr
          rcases hc : preOp st.mbu o with _ | c <;> rw [hc] at hr
          · cases hr
          · simp only at hr
            rcases hc' : popOps p c st.ops st.out with ⟨ops, out⟩ | _ | _ <;> rw [hc'] at hr
            · simp only [Res.ok.injEq] at hr; subst hr; exact ⟨rfl, rfl, rfl, rfl⟩
            · cases hr
            · cases hr
        all_goals
          simp only [Option.some.injEq, Res.ok.injEq] at hr; subst hr; exact ⟨rfl, rfl, rfl, rfl⟩
      exact ⟨h1.trans this.1, h2.trans this.2.1, h3.trans this.2.2.1, h4.trans this.2.2.2⟩
    · rw [hr] at h; cases h
    · rw [hr] at h; cases h

/-- A condition without uses of definitions. -/
inductive Cond : List KT → Prop where
  | nil : Cond []
  | plain {k : KT} {l : List KT} : Itself k.1 → Cond l → Cond (k :: l)
  | defined {d x : KT} {l : List KT} : d.1 = .defined → x.1 = .ident → Cond l → Cond (d :: x :: l)
  | definedParen {d o x c : KT} {l : List KT} : d.1 = .defined → o.1 = .lparen → x.1 = .ident → c.1 = .rparen → Cond l → Cond (d :: o :: x :: c :: l)

theorem Cond.append {a b : List KT} (ha : ∀ k ∈ a, Itself k.1) (hb : Cond b) : Cond (a ++ b) := by
  induction a with
  | nil => exact hb
  | cons k a ih => exact .plain (ha k (by simp)) (ih (fun x hx => ha x (by simp [hx])))

/-- Tokens that are dealt with at once, one after the other. -/
def Directs (p : Profile) (macros : Macros) (read : Kind → Str → Option Int) : List KT → ESt → Prop
  | [], _ => True
  | k :: l, st => Direct k.1 st.lfd ∧ ∀ st', eStep p macros 0 (symOf read k) st = some (.ok st') → Directs p macros read l st'

theorem feed_put_direct (l : List KT) : ∀ (st : ESt), Directs p macros read l st → ∀ it sk,
    feed p macros read l (put it sk st) = (feed p macros read l st).map (put it sk) := by
  induction l with
  | nil => intro st _ it sk; rfl
  | cons k l ih =>
    intro st hd it sk
    have := step_direct p macros read 0 (symOf read k) st it sk hd.1 rfl
    simp only [feed]
    have hs : symOf read (ofSym (symOf read k)) = symOf read k := rfl
    rw [this, hs]
    rcases hr : eStep p macros 0 (symOf read k) st with _ | (st' | _ | _)
    · rfl
    · exact ih st' (hd.2 st' hr) it sk
    · rfl
    · rfl

theorem keeps_one {k : KT} {st st' : ESt} (hk : Itself k.1) (h : eStep p macros 0 (symOf read k) st = some (.ok st')) :
    st'.iter = st.iter ∧ st'.stack = st.stack ∧ st'.disabled = st.disabled ∧ st'.lfd = st.lfd :=
  feed_keeps (p := p) (macros := macros) (read := read) [k] st st' (by simpa using hk) (by simp only [feed, h])

theorem step_defined {k : KT} {st : ESt} (hk : k.1 = .defined) : eStep p macros 0 (symOf read k) st = some (.ok { st with lfd := true }) := by
  unfold eStep
  have : (symOf read k).kind = .defined := hk
  rw [this]

theorem step_name {k : KT} {st : ESt} (hk : k.1 = .ident) (hl : st.lfd = true) : eStep p macros 0 (symOf read k) st =
    some (.ok { st with out := (if (macros k.2).isSome then 1 else 0) :: st.out, lfd := false, mbu := false }) := by
  have : Names (symOf read k).kind := by show Names k.1; rw [hk]; trivial
  rw [eStep_names _ _ _ _ _ this, if_pos hl]; rfl

theorem Cond.directs {l : List KT} (h : Cond l) : ∀ st : ESt, st.lfd = false → Directs p macros read l st := by
  induction h with
  | nil => intro st _; trivial
  | plain h _ ih =>
    intro st hst
    exact ⟨.inl (plain_names h), fun st' hs => ih st' ((keeps_one h hs).2.2.2.trans hst)⟩
  | defined h1 h2 _ ih =>
    intro st hst
    refine ⟨.inl (by rw [h1]; exact fun h => h), fun st' hs => ?_⟩
    rw [step_defined h1] at hs
    simp only [Option.some.injEq, Res.ok.injEq] at hs; subst hs
    refine ⟨.inr rfl, fun st' hs => ?_⟩
    rw [step_name h2 rfl] at hs
    simp only [Option.some.injEq, Res.ok.injEq] at hs; subst hs
    exact ih _ rfl
  | definedParen h1 h2 h3 h4 _ ih =>
    intro st hst
    refine ⟨.inl (by rw [h1]; exact fun h => h), fun st' hs => ?_⟩
    rw [step_defined h1] at hs
    simp only [Option.some.injEq, Res.ok.injEq] at hs; subst hs
    refine ⟨.inr rfl, fun st' hs => ?_⟩
    have hl := (keeps_one (.inl h2) hs).2.2.2
    refine ⟨.inr hl, fun st' hs => ?_⟩
    rw [step_name h3 hl] at hs
    simp only [Option.some.injEq, Res.ok.injEq] at hs; subst hs
    refine ⟨.inl (by rw [h4]; exact fun h => h), fun st' hs => ?_⟩
    exact ih _ ((keeps_one (.inr (.inl h4)) hs).2.2.2)

/-- One after the other. -/
theorem Eats.trans {st : ESt} {a b : List KT} {it it' : List Sym} (hst : st.lfd = false) (ha : ∀ k ∈ a, Itself k.1) (h1 : Eats p macros read st a it)
    (h2 : ∀ st', st'.iter = it → st'.stack = [] → st'.disabled = st.disabled → st'.lfd = false → Eats p macros read st' b it')
    (hb : Cond b) :
    Eats p macros read st (a ++ b) it' := by
  intro R hR
  refine h1 R ?_
  rw [feed_append] at hR
  rcases hr : feed p macros read a st with st' | _ | _
  · rw [hr] at hR
    simp only at hR ⊢
    obtain ⟨-, -, h5, h6⟩ := feed_keeps a st st' ha hr
    refine h2 (put it [] st') rfl rfl h5 (h6.trans hst) R ?_
    rw [feed_put_direct b st' (hb.directs st' (h6.trans hst))]
    revert hR
    rcases feed p macros read b st' with st'' | _ | _ <;> exact id
  · rw [hr] at hR; exact hR
  · rw [hr] at hR; exact hR

/-- A token of the text. -/
theorem eats_token {s : Sym} {it it' : List Sym} {l : List KT} {st : ESt} (hit : st.iter = s :: it) (hsk : st.stack = []) (hd : Direct s.kind st.lfd)
    (hv : s.val = read s.kind s.text)
    (h : ∀ st₂, eStep p macros 0 (symOf read (ofSym s)) st = some (.ok st₂) → Directs p macros read l st₂ ∧ Eats p macros read (put it [] st₂) l it') :
    Eats p macros read st (ofSym s :: l) it' := by
  have hn : eNext st = some (s, put it [] st) := by unfold eNext; rw [hsk, hit]; simp only [put, hsk]
  refine eats_one (st₁ := put it [] st) hn hd hv ?_
  intro st₂ hs R hR
  obtain ⟨h1, h2⟩ := h st₂ hs
  refine h2 R ?_
  rw [feed_put_direct l st₂ h1]
  revert hR
  rcases feed p macros read l st₂ with st' | _ | _ <;> exact id

/-- A token that means nothing. -/
theorem eats_skip {s : Sym} {it it' : List Sym} {l : List KT} {st : ESt} (hit : st.iter = s :: it) (hsk : st.stack = [])
    (hb : Blank s.kind ∨ s.kind = .eof) (hlfd : st.lfd = false) (hen : ∀ m, macros s.text = some m → m ∉ st.disabled)
    (hl : Cond l) (h : Eats p macros read (put it [] st) l it') : Eats p macros read st l it' := by
  have hn : eNext st = some (s, put it [] st) := by unfold eNext; rw [hsk, hit]; simp only [put, hsk]
  intro R hR
  have hgo : Ev p macros (put it [] st) R := by
    refine h R ?_
    rw [feed_put_direct l st (hl.directs st hlfd)]
    revert hR
    rcases feed p macros read l st with st' | _ | _ <;> exact id
  have hstep : ∃ F, ∀ f, eStep p macros (F + f) s (put it [] st) = some (.ok (put it [] st)) := by
    rcases hb with (hk | hk | hk | hk) | hk
    · exact ⟨0, fun f => by unfold eStep; rw [hk]⟩
    · refine ⟨3, fun f => ?_⟩
      have hnm : Names s.kind := by rw [hk]; trivial
      have hexp : eStep.expandHere macros (3 + f) s (put it [] st) = some (.ok (put it [] st)) := by
        have hx : expandIdentifier macros false (3 + f) s.tok it [] st.disabled = some ⟨it, [], st.disabled, .ok 0⟩ := by
          rw [show 3 + f = f + 3 by omega]
          have hkt : s.tok.kind = .lineContinuation := hk
          simp only [expandIdentifier, xLoop, List.length_nil, Nat.zero_add, Nat.reduceLT, if_true, xStep, hkt]
          rfl
        unfold eStep.expandHere
        simp only [put]
        rw [hx]
      rw [eStep_names _ _ _ _ _ hnm, if_neg (by simp [put, hlfd])]
      split
      · rename_i m hm
        rw [if_neg (by exact hen m hm)]; exact hexp
      · exact hexp
    · exact ⟨0, fun f => by unfold eStep; rw [hk]⟩
    · exact ⟨0, fun f => by unfold eStep; rw [hk]⟩
    · exact ⟨0, fun f => by unfold eStep; rw [hk]⟩
  obtain ⟨F, hF⟩ := hstep
  exact ev_step hn F hF hgo

theorem itself_cond {l : List KT} (h : ∀ k ∈ l, Itself k.1) : Cond l := by
  have := Cond.append h .nil
  rwa [List.append_nil] at this

theorem vals {line : Nat} {disabled : List Macro} (its its' : List Sym) (ht : ∀ x ∈ its, Text macros read line disabled x)
    (hv : ∀ x ∈ its', x.val = read x.kind x.text) : ∀ x ∈ its ++ its', x.val = read x.kind x.text := by
  intro x hx
  rcases List.mem_append.1 hx with hx | hx
  · exact (ht x hx).val
  · exact hv x hx

/-- A stretch of the condition without `defined`. -/
theorem eats_part (hread : Read macros read) {line d : Nat} {a b : List KT} (h : Deep macros d a b) : d ≤ 4 → (∀ k ∈ b, Itself k.1) →
    ∀ (its its' : List Sym) (st : ESt), its.map ofSym = a → st.iter = its ++ its' → st.stack = [] → st.lfd = false →
    (∀ x ∈ its, Text macros read line st.disabled x) → (∀ x ∈ its', x.val = read x.kind x.text) → Eats p macros read st b its' := by
  induction h with
  | nil =>
    intro _ _ its its' st ha hit hsk _ _ _
    rw [List.map_eq_nil_iff] at ha; subst ha
    intro R hR
    simp only [feed] at hR
    have : put its' [] st = st := by unfold put; rw [← hsk]; simp only [List.nil_append] at hit; rw [← hit]
    rw [this] at hR; exact hR
  | @use d x m ts b r h1 h2 hone hbody _ _ ih2 =>
    intro hd hb its its' st ha hit hsk hl ht hv'
    obtain ⟨s, ss, rfl, hs, hss⟩ := List.map_eq_cons_iff.1 ha
    have hk : s.kind = .ident := congrArg Prod.fst hs
    have hx : s.text = x := congrArg Prod.snd hs
    have hbb : ∀ k ∈ b, Itself k.1 := fun k hk => hb k (by simp [hk])
    obtain ⟨out, ho, hrun⟩ := use_partial (ms := macros) (allow := false) (s := s) (m := m) (by rw [hx]; exact h1) h2 hk (ht s (by simp)).col (ss ++ its') [] st.disabled
      (d := d + 1) (r := b) hd (by
        have : Deep macros (d + 1) ((.ident, x) :: []) (b ++ []) := .use h1 h2 hone hbody .nil
        rw [List.append_nil] at this
        rw [hs]; exact this)
      (.inr (fun k hk hc => by have := plain_names (hbb k hk); rw [hc] at this; exact this trivial))
    refine Eats.trans hl hbb (eats_expansion hread hit hsk hk hl (ht s (by simp)) (vals ss its' (fun y hy => ht y (by simp [hy])) hv') ho hbb hrun) ?_ (itself_cond fun k hk => hb k (by simp [hk]))
    intro st' g1 g2 g3 g4
    exact ih2 hd (fun k hk => hb k (by simp [hk])) ss its' st' hss g1 g2 g4 (fun y hy => by rw [g3]; exact ht y (by simp [hy])) hv'
  | @call d x m params o c mid aks pieces ts b r h1 h2 hone ho hc hsep henough hargs hmade hquoted hbody _ _ ih2 =>
    intro hd hb its its' st ha hit hsk hl ht hv'
    obtain ⟨s, ss, rfl, hs, hss⟩ := List.map_eq_cons_iff.1 ha
    obtain ⟨l, ss', rfl, hl', hss'⟩ := List.map_eq_cons_iff.1 hss
    obtain ⟨smid, ss'', rfl, hmid, hss''⟩ := List.map_eq_append_iff.1 hss'
    obtain ⟨e, rest, rfl, he, hrest⟩ := List.map_eq_cons_iff.1 hss''
    have hk : s.kind = .ident := congrArg Prod.fst hs
    have hx : s.text = x := congrArg Prod.snd hs
    have hbb : ∀ k ∈ b, Itself k.1 := fun k hk => hb k (by simp [hk])
    have hmid' : (smid.map Sym.tok).map ofTok = mid := by rw [← hmid, List.map_map]; rfl
    obtain ⟨as, has, hsep'⟩ := separated_of hsep (smid.map Sym.tok) hmid'
    have hlen : as.length = aks.length := by rw [← has, List.length_map]
    have hres : pieces.flatMap (Piece.result (given params as)) = pieces.flatMap (Piece.resultK (givenK params aks)) := by
      rw [List.flatMap_def, List.flatMap_def]
      congr 1
      apply List.map_congr_left
      intro p hp
      exact result_of has params (fun a b c n hpe => hquoted a b c n (hpe ▸ hp))
    obtain ⟨out, ho', hrun⟩ := call_partial (ms := macros) (allow := false) (s := s) (l := l) (e := e) (mid := smid) (m := m) (params := params) (as := as) (pieces := pieces)
      hk (by rw [hx]; exact h1) h2 hone ((congrArg Prod.fst hl').trans ho) ((congrArg Prod.fst he).trans hc) hsep' (by omega)
      (by
        intro i a hi
        have : aks[i]? = some (a.map ofTok) := by rw [← has, List.getElem?_map, hi]; rfl
        rcases hargs i _ this with h | ⟨h, h'⟩
        · exact .inl (argument_of h a rfl)
        · exact .inr ⟨h, balanced_of h' a rfl⟩)
      hmade
      (by
        intro y hy
        have hse := (ht s (by simp)).stop
        have hy' := ht y (by
          simp only [List.mem_cons] at hy
          rcases hy with rfl | rfl | hy
          · simp
          · simp
          · simp [hy])
        rw [hse]; exact ⟨hy'.start, hy'.stop⟩)
      (by
        intro y hy
        exact (ht y (by
          simp only [List.mem_cons] at hy
          rcases hy with rfl | hy
          · simp
          · simp [hy])).col)
      (rest ++ its') [] st.disabled (d := d) (r := b) (by omega) (by rw [hres]; exact hbody)
      (.inr (fun k hk hc => by have := plain_names (hbb k hk); rw [hc] at this; exact this trivial))
    have hit' : st.iter = s :: (l :: (smid ++ e :: (rest ++ its'))) := by rw [hit]; simp
    refine Eats.trans hl hbb (eats_expansion hread hit' hsk hk hl (ht s (by simp)) (fun y hy => vals (l :: (smid ++ e :: rest)) its' (fun y hy => ht y (List.mem_cons_of_mem _ hy)) hv' y (by simpa using hy)) ho' hbb hrun) ?_
      (itself_cond fun k hk => hb k (by simp [hk]))
    intro st' g1 g2 g3 g4
    exact ih2 hd (fun k hk => hb k (by simp [hk])) rest its' st' hrest g1 g2 g4 (fun y hy => by rw [g3]; exact ht y (by simp [hy])) hv'
  | @undefined d x ts r h1 _ _ =>
    intro _ hb
    have := plain_names (hb (.ident, x) (by simp))
    exact absurd trivial this
  | @blank d k x ts r h1 _ ih =>
    intro hd hb its its' st ha hit hsk hl ht hv'
    obtain ⟨s, ss, rfl, hs, hss⟩ := List.map_eq_cons_iff.1 ha
    have hk : s.kind = k := congrArg Prod.fst hs
    refine eats_skip hit hsk (.inl (by rw [hk]; exact h1)) hl (ht s (by simp)).enabled (itself_cond hb) ?_
    exact ih hd hb ss its' _ hss rfl rfl hl (fun y hy => ht y (by simp [hy])) hv'
  | @keep d k x ts r h1 h2 _ ih =>
    intro hd hb its its' st ha hit hsk hl ht hv'
    obtain ⟨s, ss, rfl, hs, hss⟩ := List.map_eq_cons_iff.1 ha
    have hk : s.kind = k := congrArg Prod.fst hs
    have hkp : Itself s.kind := by rw [hk]; exact hb (k, x) (by simp)
    rw [← hs]
    refine eats_token hit hsk (.inl (plain_names hkp)) (ht s (by simp)).val ?_
    intro st₂ hst₂
    obtain ⟨-, -, g3, g4⟩ := keeps_one (k := ofSym s) hkp hst₂
    refine ⟨(itself_cond fun k hk => hb k (by simp [hk])).directs st₂ (g4.trans hl), ?_⟩
    exact ih hd (fun k hk => hb k (by simp [hk])) ss its' _ hss rfl rfl (g4.trans hl)
      (fun y hy => by show Text macros read line st₂.disabled y; rw [g3]; exact ht y (by simp [hy])) hv'

/-- The whole condition. -/
theorem eats_condition (hread : Read macros read) {line : Nat} {a b : List KT} (h : Replaced macros a b) : Cond b ∧
    ∀ (its its' : List Sym) (st : ESt), its.map ofSym = a → st.iter = its ++ its' → st.stack = [] → st.lfd = false →
    (∀ x ∈ its, Text macros read line st.disabled x) → (∀ x ∈ its', x.val = read x.kind x.text) → Eats p macros read st b its' := by
  induction h with
  | nil =>
    refine ⟨.nil, ?_⟩
    intro its its' st ha hit hsk _ _ _
    rw [List.map_eq_nil_iff] at ha; subst ha
    intro R hR
    simp only [feed] at hR
    have : put its' [] st = st := by unfold put; rw [← hsk]; simp only [List.nil_append] at hit; rw [← hit]
    rw [this] at hR; exact hR
  | @part a b ts r h1 h2 _ ih =>
    refine ⟨Cond.append h2 ih.1, ?_⟩
    intro its its' st ha hit hsk hl ht hv'
    obtain ⟨its1, its2, rfl, e1, e2⟩ := List.map_eq_append_iff.1 ha
    refine Eats.trans hl h2 (eats_part hread h1 (Nat.le_refl _) h2 its1 (its2 ++ its') st e1 (by rw [hit, List.append_assoc]) hsk hl (fun y hy => ht y (by simp [hy]))
      (vals its2 its' (fun y hy => ht y (by simp [hy])) hv')) ?_ ih.1
    intro st' g1 g2 g3 g4
    exact ih.2 its2 its' st' e2 g1 g2 g4 (fun y hy => by rw [g3]; exact ht y (by simp [hy])) hv'
  | @defined d x ts r h1 h2 _ ih =>
    refine ⟨.defined h1 h2 ih.1, ?_⟩
    intro its its' st ha hit hsk hl ht hv'
    obtain ⟨s1, ss1, rfl, rfl, hss1⟩ := List.map_eq_cons_iff.1 ha
    obtain ⟨s2, ss, rfl, rfl, hss⟩ := List.map_eq_cons_iff.1 hss1
    have hd := (Cond.defined h1 h2 ih.1).directs (p := p) (macros := macros) (read := read) st hl
    refine eats_token hit hsk hd.1 (ht s1 (by simp)).val (fun st₂ hs => ⟨hd.2 st₂ hs, ?_⟩)
    have hd := hd.2 st₂ hs
    rw [step_defined h1] at hs
    simp only [Option.some.injEq, Res.ok.injEq] at hs; subst hs
    refine eats_token rfl rfl hd.1 (ht s2 (by simp)).val ?_
    intro st₂ hs
    rw [step_name h2 rfl] at hs
    simp only [Option.some.injEq, Res.ok.injEq] at hs; subst hs
    exact ⟨ih.1.directs _ rfl, ih.2 ss its' _ hss rfl rfl rfl (fun y hy => ht y (by simp [hy])) hv'⟩
  | @definedParen d o x c ts r h1 h2 h3 h4 _ ih =>
    refine ⟨.definedParen h1 h2 h3 h4 ih.1, ?_⟩
    intro its its' st ha hit hsk hl ht hv'
    obtain ⟨s1, ss1, rfl, rfl, hss1⟩ := List.map_eq_cons_iff.1 ha
    obtain ⟨s2, ss2, rfl, rfl, hss2⟩ := List.map_eq_cons_iff.1 hss1
    obtain ⟨s3, ss3, rfl, rfl, hss3⟩ := List.map_eq_cons_iff.1 hss2
    obtain ⟨s4, ss, rfl, rfl, hss⟩ := List.map_eq_cons_iff.1 hss3
    have hd := (Cond.definedParen h1 h2 h3 h4 ih.1).directs (p := p) (macros := macros) (read := read) st hl
    refine eats_token hit hsk hd.1 (ht s1 (by simp)).val (fun st₂ hs => ⟨hd.2 st₂ hs, ?_⟩)
    rw [step_defined h1] at hs
    simp only [Option.some.injEq, Res.ok.injEq] at hs; subst hs
    refine eats_token rfl rfl (.inr rfl) (ht s2 (by simp)).val ?_
    intro st₂ hs
    obtain ⟨-, -, g3, g4⟩ := keeps_one (.inl h2) hs
    have g4 : st₂.lfd = true := g4
    have g3 : st₂.disabled = st.disabled := g3
    have tail : ∀ st₃ : ESt, st₃.lfd = false → st₃.disabled = st.disabled → Directs p macros read (ofSym s4 :: r) st₃ ∧
        Eats p macros read (put (s4 :: (ss ++ its')) [] st₃) (ofSym s4 :: r) its' := by
      intro st₃ hl3 hd3
      have hk4 : Itself (ofSym s4).1 := .inr (.inl h4)
      refine ⟨⟨.inl (plain_names hk4), fun st' hs => ih.1.directs _ ((keeps_one hk4 hs).2.2.2.trans hl3)⟩, ?_⟩
      refine eats_token rfl rfl (.inl (plain_names hk4)) (ht s4 (by simp)).val ?_
      intro st' hs
      obtain ⟨-, -, k3, k4⟩ := keeps_one hk4 hs
      have k4 : st'.lfd = false := k4.trans hl3
      have k3 : st'.disabled = st.disabled := k3.trans hd3
      exact ⟨ih.1.directs _ k4, ih.2 ss its' _ hss rfl rfl k4 (fun y hy => by show Text macros read line st'.disabled y; rw [k3]; exact ht y (by simp [hy])) hv'⟩
    refine ⟨⟨.inr g4, fun st' hs => ?_⟩, ?_⟩
    · rw [step_name h3 g4] at hs
      simp only [Option.some.injEq, Res.ok.injEq] at hs; subst hs
      refine (tail _ ?_ ?_).1
      · rfl
      · exact g3
    · refine eats_token rfl rfl (.inr g4) (ht s3 (by simp)).val ?_
      intro st₃ hs
      have g4' : (put ((s3 :: s4 :: ss).append its') [] st₂).lfd = true := g4
      rw [step_name h3 g4'] at hs
      simp only [Option.some.injEq, Res.ok.injEq] at hs; subst hs
      refine ⟨(tail _ ?_ ?_).1, (tail _ ?_ ?_).2⟩
      · rfl
      · exact g3
      · rfl
      · exact g3
  | @eof k ts r h1 _ ih =>
    refine ⟨ih.1, ?_⟩
    intro its its' st ha hit hsk hl ht hv'
    obtain ⟨s, ss, rfl, rfl, hss⟩ := List.map_eq_cons_iff.1 ha
    refine eats_skip hit hsk (.inr h1) hl (ht s (by simp)).enabled ih.1 ?_
    exact ih.2 ss its' _ hss rfl rfl hl (fun y hy => ht y (by simp [hy])) hv'

/-- The condition with the end of its line. -/
theorem eats_line (hread : Read macros read) {line : Nat} {a b : List KT} (h : Replaced macros a b) (its nl : List Sym) (st : ESt) (ha : its.map ofSym = a)
    (hit : st.iter = its ++ nl) (hsk : st.stack = []) (hl : st.lfd = false) (ht : ∀ x ∈ its, Text macros read line st.disabled x)
    (hv : ∀ x ∈ nl, x.val = read x.kind x.text) (hnl : ∀ x ∈ nl, x.kind = .newline) : Eats p macros read st b [] := by
  intro R hR
  refine (eats_condition hread h).2 its nl st ha hit hsk hl ht hv R ?_
  revert hR
  rcases feed p macros read b st with st' | _ | _
  · intro hR
    have hR : Ev p macros (put [] [] st') R := hR
    show Ev p macros (put nl [] st') R
    clear hit hv
    induction nl with
    | nil => exact hR
    | cons x nl ih =>
      refine ev_step (st₁ := put nl [] st') (s := x) (r := .ok (put nl [] st')) rfl 0 (fun f => ?_) (ih (fun y hy => hnl y (by simp [hy])))
      unfold eStep; rw [hnl x (by simp)]
  · exact id
  · exact id

/-- The same condition, written without definitions. -/
theorem eats_plain {b : List KT} : ∀ (its : List Sym) (st : ESt), its.map ofSym = b → st.iter = its → st.stack = [] →
    Directs p macros read b st → (∀ x ∈ its, x.val = read x.kind x.text) → Eats p macros read st b [] := by
  induction b with
  | nil =>
    intro its st ha hit hsk _ _ R hR
    rw [List.map_eq_nil_iff] at ha; subst ha
    simp only [feed] at hR
    have : put [] [] st = st := by unfold put; rw [← hsk]; rw [← hit]
    rw [this] at hR; exact hR
  | cons k b ih =>
    intro its st ha hit hsk hd ht
    obtain ⟨s, ss, rfl, rfl, hss⟩ := List.map_eq_cons_iff.1 ha
    refine eats_token hit hsk hd.1 (ht s (by simp)) (fun st₂ hs => ⟨hd.2 st₂ hs, ?_⟩)
    refine ih ss _ hss rfl rfl ?_ (fun y hy => ht y (by simp [hy]))
    have hput : ∀ (l : List KT) (st : ESt) it sk, Directs p macros read l st → Directs p macros read l (put it sk st) := by
      intro l
      induction l with
      | nil => intro st it sk _; trivial
      | cons k l ih =>
        intro st it sk h
        refine ⟨h.1, fun st' hs => ?_⟩
        have h2 := step_direct p macros read 0 (symOf read k) st it sk h.1 rfl
        have h3 : symOf read (ofSym (symOf read k)) = symOf read k := rfl
        rw [h2, h3] at hs
        rcases hr : eStep p macros 0 (symOf read k) st with _ | (st₃ | _ | _) <;> rw [hr] at hs
        · cases hs
        · simp only [Option.map_some, Res.map, Option.some.injEq, Res.ok.injEq] at hs
          subst hs
          exact ih st₃ it sk (h.2 st₃ hr)
        · simp [Res.map] at hs
        · simp [Res.map] at hs
    exact hput b st₂ ss [] (hd.2 st₂ hs)

theorem ev_unique {st : ESt} {R R' : Res ESt} (h : Ev p macros st R) (h' : Ev p macros st R') : R = R' := by
  obtain ⟨N, hN⟩ := h
  obtain ⟨N', hN'⟩ := h'
  have h1 := hN N'
  have h2 := hN' N
  rw [Nat.add_comm N' N, h1] at h2
  exact Option.some.inj h2

/-- The result of the condition from the state the loop ends in. -/
def fin (p : Profile) : Res ESt → Res Bool
  | .ok st =>
    (match finish p st.ops st.out with
      | .ok (v :: _) => .ok v
      | .ok [] => .err
      | .err => .err
      | .panic => .panic : Res I32).map (· != 0)
  | .err => .err
  | .panic => .panic

def start (disabled : List Macro) : ESt := ⟨[], [], [], [], true, false, disabled⟩

theorem evaluate_fed {disabled : List Macro} {its : List Sym} {l : List KT} (hc : Cond l)
    (h : Eats p macros read (put its [] (start disabled)) l []) :
    ∃ N, ∀ k, evaluate p macros disabled its (N + k) = some (fin p (feed p macros read l (start disabled))) := by
  have hdir := hc.directs (p := p) (macros := macros) (read := read) (start disabled) rfl
  have p1 : put its [] (start disabled) = ⟨its, [], [], [], true, false, disabled⟩ := rfl
  unfold Eats at h
  rw [feed_put_direct _ (start disabled) hdir] at h
  rcases hf : feed p macros read l (start disabled) with st' | _ | _ <;> rw [hf] at h
  · have hend : Ev p macros (put [] [] (put its [] st')) (.ok (put [] [] (put its [] st'))) := ⟨1, fun k => by
      rw [Nat.add_comm 1 k]
      simp only [eLoop, eNext, put]⟩
    obtain ⟨N, hN⟩ := h _ hend
    refine ⟨N, fun k => ?_⟩
    unfold evaluate evaluateValue
    rw [← p1, hN k]
    rfl
  · obtain ⟨N, hN⟩ := h _ rfl
    refine ⟨N, fun k => ?_⟩
    unfold evaluate evaluateValue
    rw [← p1, hN k]
    rfl
  · obtain ⟨N, hN⟩ := h _ rfl
    refine ⟨N, fun k => ?_⟩
    unfold evaluate evaluateValue
    rw [← p1, hN k]
    rfl

theorem feed_defined {macros' : Macros} (hm : ∀ x, (macros x).isSome = (macros' x).isSome) (l : List KT) : ∀ st, Directs p macros read l st →
    feed p macros read l st = feed p macros' read l st := by
  induction l with
  | nil => intro st _; rfl
  | cons k l ih =>
    intro st hd
    have hs : eStep p macros 0 (symOf read k) st = eStep p macros' 0 (symOf read k) st := by
      have hk : (symOf read k).kind = k.1 := rfl
      by_cases hn : Names k.1
      · have hl : st.lfd = true := hd.1.resolve_left (fun h => h hn)
        rw [eStep_names _ _ _ _ _ (hk ▸ hn), eStep_names _ _ _ _ _ (hk ▸ hn), if_pos hl, if_pos hl, hm]
      · unfold eStep
        rw [hk]
        generalize k.1 = k at hn
        cases k
        all_goals first
          | exact absurd trivial hn
          | rfl
    simp only [feed]
    rw [← hs]
    rcases hr : eStep p macros 0 (symOf read k) st with _ | (st' | _ | _)
    · rfl
    · exact ih st' (hd.2 st' hr)
    · rfl
    · rfl

/-- **C102**: a condition in which definitions are used ends as the condition with the definitions replaced by what they stand for:
with the same value, the same refusal, or the same abort, in both build profiles, and evaluating both comes to an end. -/
theorem condition_like_replaced_partial (p : Profile) (macros : Macros) (disabled : List Macro) (ts nl rs : List Sym) (read : Kind → Str → Option Int)
    (line : Nat) (hrep : Replaced macros (ts.map ofSym) (rs.map ofSym))
    (hline : ∀ x ∈ ts, x.range.s.line = line ∧ x.range.e.line = line ∧ 0 ≤ x.delta.col)
    (hen : ∀ x ∈ ts, ∀ m, macros x.text = some m → m ∉ disabled)
    (hnl : ∀ x ∈ nl, x.kind = .newline) (hval : ∀ x ∈ ts ++ nl ++ rs, x.val = read x.kind x.text) (hstr : ∀ x, read .strLit x = none)
    (hbody : ∀ x m, macros x = some m → ∀ r ∈ m.body, r.val = read r.kind r.text) :
    ∃ N r, ∀ k, evaluate p macros disabled (ts ++ nl) (N + k) = some r ∧ evaluate p macros disabled rs (N + k) = some r := by
  have hread : Read macros read := ⟨hstr, hbody⟩
  have hc := (eats_condition (p := p) hread (line := line) hrep).1
  obtain ⟨N, hN⟩ := evaluate_fed (disabled := disabled) hc (eats_line (line := line) hread hrep ts nl _ rfl rfl rfl rfl (fun x hx =>
    ⟨(hline x hx).1, (hline x hx).2.1, (hline x hx).2.2, hval x (by simp [hx]), hen x hx⟩) (fun x hx => hval x (by simp [hx])) hnl)
  obtain ⟨M, hM⟩ := evaluate_fed (p := p) (macros := macros) (disabled := disabled) hc
    (eats_plain rs _ rfl rfl rfl (hc.directs _ rfl) (fun x hx => hval x (by simp [hx])))
  refine ⟨N + M, _, fun k => ⟨by rw [Nat.add_assoc]; exact hN _, by rw [Nat.add_comm N M, Nat.add_assoc]; exact hM _⟩⟩

/-- **C22** (part): without overflow checks, a condition in which definitions with or without parameters are used never aborts the
program when the condition with the definitions replaced by what they stand for closes its parentheses and does not divide. It need
not be well formed in any other way. -/
theorem evaluation_never_panics_replaced_partial (macros : Macros) (disabled : List Macro) (ts nl rs : List Sym) (read : Kind → Str → Option Int)
    (line : Nat) (hrep : Replaced macros (ts.map ofSym) (rs.map ofSym))
    (hline : ∀ x ∈ ts, x.range.s.line = line ∧ x.range.e.line = line ∧ 0 ≤ x.delta.col)
    (hen : ∀ x ∈ ts, ∀ m, macros x.text = some m → m ∉ disabled)
    (hnl : ∀ x ∈ nl, x.kind = .newline) (hval : ∀ x ∈ ts ++ nl ++ rs, x.val = read x.kind x.text) (hstr : ∀ x, read .strLit x = none)
    (hbody : ∀ x m, macros x = some m → ∀ r ∈ m.body, r.val = read r.kind r.text)
    (hdiv : ∀ x ∈ rs, x.kind ≠ .op .slash ∧ x.kind ≠ .op .percent) (hclosed : unclosed 0 (rs.map (·.kind)) = 0) (fuel : Nat) :
    evaluate .release macros disabled (ts ++ nl) fuel ≠ some .panic := by
  have hread : Read macros read := ⟨hstr, hbody⟩
  have hc := (eats_condition (p := .release) hread (line := line) hrep).1
  obtain ⟨N, hN⟩ := evaluate_fed (disabled := disabled) hc (eats_line (line := line) hread hrep ts nl _ rfl rfl rfl rfl (fun x hx =>
    ⟨(hline x hx).1, (hline x hx).2.1, (hline x hx).2.2, hval x (by simp [hx]), hen x hx⟩) (fun x hx => hval x (by simp [hx])) hnl)
  -- a table with the same names, all of which stand for nothing
  let macros' : Macros := fun x => (macros x).map (fun _ => ⟨0, 0, none, 0, []⟩)
  obtain ⟨M, hM⟩ := evaluate_fed (p := .release) (macros := macros') (disabled := disabled) hc
    (eats_plain rs _ rfl rfl rfl (hc.directs _ rfl) (fun x hx => hval x (by simp [hx])))
  have hsafe := EvalTerm.evaluation_never_panics_partial macros' disabled rs (fun _ => True) (by
    intro x m _ hx
    simp only [macros', Option.map_eq_some_iff] at hx
    obtain ⟨_, -, rfl⟩ := hx
    exact ⟨rfl, by simp⟩) (fun t ht => ⟨(hdiv t ht).1, (hdiv t ht).2, fun _ => trivial⟩) hclosed (M + 0)
  rw [hM 0, ← feed_defined (macros := macros) (by intro x; simp [macros']) _ _ (hc.directs _ rfl)] at hsafe
  intro hp
  have := (evaluate_mono .release macros disabled (ts ++ nl) fuel N .panic hp).1
  rw [Nat.add_comm, hN fuel] at this
  exact hsafe this

/-- **C102**: a condition in which definitions are used has the value of the condition with the definitions replaced by what they stand
for. `ts` are the tokens of the condition, all on one line, and `nl` the line break after them, if there is one; `rs` those of the condition with the definitions replaced. -/
theorem condition_with_definitions_partial (macros : Macros) (disabled : List Macro) (ts nl rs : List Sym) (read : Kind → Str → Option Int) (line : Nat)
    (hrep : Replaced macros (ts.map ofSym) (rs.map ofSym))
    (hline : ∀ x ∈ ts, x.range.s.line = line ∧ x.range.e.line = line ∧ 0 ≤ x.delta.col)
    (hen : ∀ x ∈ ts, ∀ m, macros x.text = some m → m ∉ disabled)
    (hnl : ∀ x ∈ nl, x.kind = .newline) (hval : ∀ x ∈ ts ++ nl ++ rs, x.val = read x.kind x.text) (hstr : ∀ x, read .strLit x = none)
    (hbody : ∀ x m, macros x = some m → ∀ r ∈ m.body, r.val = read r.kind r.text)
    {e : Expr} {v : Int} (he : Denotes (fun x => (macros x).isSome) rs e) (hv : value e = some v) :
    ∃ N, ∀ k, evaluate .release macros disabled (ts ++ nl) (N + k) = some (.ok (decide (v ≠ 0))) := by
  have hread : Read macros read := ⟨hstr, hbody⟩
  let st0 : ESt := ⟨[], [], [], [], true, false, disabled⟩
  have hc := (eats_condition (p := .release) hread (line := line) hrep).1
  have h1 : Eats .release macros read (put (ts ++ nl) [] st0) (rs.map ofSym) [] := eats_line (line := line) hread hrep ts nl _ rfl rfl rfl rfl (fun x hx =>
    ⟨(hline x hx).1, (hline x hx).2.1, (hline x hx).2.2, hval x (by simp [hx]), hen x hx⟩) (fun x hx => hval x (by simp [hx])) hnl
  have h2 : Eats .release macros read (put rs [] st0) (rs.map ofSym) [] :=
    eats_plain rs _ rfl rfl rfl (hc.directs _ rfl) (fun x hx => hval x (by simp [hx]))
  have hdir := hc.directs (p := .release) (macros := macros) (read := read) st0 rfl
  -- both end in the same way
  obtain ⟨R, hR1, hR2⟩ : ∃ R, Ev .release macros (put (ts ++ nl) [] st0) R ∧ ∃ R', Ev .release macros (put rs [] st0) R' ∧ R = R' := by
    unfold Eats at h1 h2
    rw [feed_put_direct _ st0 hdir] at h1 h2
    rcases hf : feed .release macros read (rs.map ofSym) st0 with st' | _ | _ <;> rw [hf] at h1 h2
    · have hend : Ev .release macros (put [] [] (put (ts ++ nl) [] st')) (.ok (put [] [] (put (ts ++ nl) [] st'))) := ⟨1, fun k => by
        rw [Nat.add_comm 1 k]
        simp only [eLoop, eNext, put]⟩
      exact ⟨_, h1 _ hend, _, h2 _ hend, rfl⟩
    · exact ⟨_, h1 _ rfl, _, h2 _ rfl, rfl⟩
    · exact ⟨_, h1 _ rfl, _, h2 _ rfl, rfl⟩
  obtain ⟨R', hR2, rfl⟩ := hR2
  obtain ⟨N, hN⟩ := hR1
  obtain ⟨M, hM⟩ := hR2
  have href := (Evaluator.condition_value macros disabled rs e v he hv (M + (rs.length + 1)) (by omega)).2
  refine ⟨N, fun k => ?_⟩
  rw [← href]
  unfold evaluate evaluateValue
  have e1 := hN k
  have e2 := hM (rs.length + 1)
  have p1 : put (ts ++ nl) [] st0 = ⟨ts ++ nl, [], [], [], true, false, disabled⟩ := rfl
  have p2 : put rs [] st0 = ⟨rs, [], [], [], true, false, disabled⟩ := rfl
  rw [p1] at e1
  rw [p2] at e2
  rw [e1, e2]

/-! ### Example -/

private def maxM : Macro := ⟨0, 0, none, 0, [bt .lparen "(", bt .intLit "2" (some 2), bt .rparen ")", bt .newline]⟩

/-- `#define MAX (2)` and `#define SQ(%1) (%1 * %1)`. -/
private def table : Macros := fun x => if x = "MAX".toList then some maxM else if x = "SQ".toList then some exSq else none

private def readEx : Kind → Str → Option Int := fun k x =>
  if k = .intLit then (if x = "1".toList then some 1 else if x = "2".toList then some 2 else if x = "4".toList then some 4 else none) else none

private def n (x : String) (v : Int) : Sym := Evaluator.tk .intLit x (some v)

/-- The end of the line. -/
private def eol : Sym := ⟨.newline, ['\n'], ⟨⟨0, 30⟩, ⟨1, 0⟩⟩, ⟨0, 0⟩, none, true⟩

/-- `SQ(MAX) == 4 && defined(MAX)`. -/
private def text : List Sym := [Evaluator.tk .ident "SQ", Evaluator.tk .lparen "(", Evaluator.tk .ident "MAX", Evaluator.tk .rparen ")", Evaluator.tk (.op .equals) "==",
  n "4" 4, Evaluator.tk (.op .and) "&&", Evaluator.tk .defined "defined", Evaluator.tk .lparen "(", Evaluator.tk .ident "MAX", Evaluator.tk .rparen ")"]

/-- `((2) * (2)) == 4 && defined(MAX)`. -/
private def meant : List Sym := [Evaluator.tk .lparen "(", Evaluator.tk .lparen "(", n "2" 2, Evaluator.tk .rparen ")", Evaluator.tk (.op .star) "*",
  Evaluator.tk .lparen "(", n "2" 2, Evaluator.tk .rparen ")", Evaluator.tk .rparen ")", Evaluator.tk (.op .equals) "==",
  n "4" 4, Evaluator.tk (.op .and) "&&", Evaluator.tk .defined "defined", Evaluator.tk .lparen "(", Evaluator.tk .ident "MAX", Evaluator.tk .rparen ")"]

private def kMax : KT := (.ident, "MAX".toList)
private def k2 : KT := (.intLit, "2".toList)
private def k4 : KT := (.intLit, "4".toList)
private def kEq : KT := (.op .equals, "==".toList)
private def kAnd : KT := (.op .and, "&&".toList)

private theorem max_deep (d : Nat) {ts r : List KT} (h : Deep table (d + 1) ts r) : Deep table (d + 1) (kMax :: ts) ([kL, k2, kR] ++ r) :=
  .use (m := maxM) (by decide) rfl (by decide) (.keep (by decide) (by decide) (.keep (by decide) (by decide) (.keep (by decide) (by decide) (.blank (.inl rfl) .nil)))) h

private theorem sq_deep : Deep table 4 (kSq :: kL :: ([kMax] ++ kR :: [kEq, k4, kAnd])) ([kL, kL, k2, kR, kStar, kL, k2, kR, kR] ++ [kEq, k4, kAnd]) := by
  refine .call (m := exSq) (params := [-1, 0]) (as := [[kMax]]) (pieces := sqPieces) (by decide) rfl (by decide) rfl rfl .one (by decide) ?_ sq_made ?_ ?_
    (.keep (by decide) (by decide) (.keep (by decide) (by decide) (.keep (by decide) (by decide) .nil)))
  · intro i a hi
    cases i with
    | zero =>
      simp only [List.getElem?_cons_zero, Option.some.injEq] at hi
      subst hi
      exact .inl (.tok (by decide) (by decide) (by decide) .nil)
    | succ i => simp at hi
  · intro h p l n hm
    simp [sqPieces, prm] at hm
  · have e2 : sqPieces.flatMap (Piece.resultK (givenK [-1, 0] [[kMax]])) = [kL, kMax, kStar, kMax, kR] := rfl
    rw [e2]
    exact .keep (by decide) (by decide) (max_deep 2 (.keep (by decide) (by decide) (max_deep 2 (.keep (by decide) (by decide) .nil))))

private theorem text_replaced : Replaced table (text.map ofSym) (meant.map ofSym) := by
  have e1 : text.map ofSym = (kSq :: kL :: ([kMax] ++ kR :: [kEq, k4, kAnd])) ++ ((.defined, "defined".toList) :: kL :: kMax :: kR :: []) := rfl
  have e2 : meant.map ofSym = ([kL, kL, k2, kR, kStar, kL, k2, kR, kR] ++ [kEq, k4, kAnd]) ++ ((.defined, "defined".toList) :: kL :: kMax :: kR :: []) := rfl
  rw [e1, e2]
  refine .part sq_deep ?_ (.definedParen rfl rfl rfl rfl .nil)
  intro k hk
  simp only [List.cons_append, List.nil_append, List.mem_cons, List.not_mem_nil, or_false] at hk
  rcases hk with rfl | rfl | rfl | rfl | rfl | rfl | rfl | rfl | rfl | rfl | rfl | rfl <;>
    simp [Itself, kL, kR, k2, k4, kStar, kEq, kAnd]

example : ∃ N, ∀ k, evaluate .release table [] (text ++ [eol]) (N + k) = some (.ok true) := by
  have n1 : ∀ x v, Parses (fun x => (table x).isSome) 0 [n x v] (.lit v) := fun x v => .num (.inl rfl) rfl
  have p2 : Parses (fun x => (table x).isSome) 0 (Evaluator.tk .lparen "(" :: [n "2" 2] ++ [Evaluator.tk .rparen ")"]) (.lit 2) :=
    .paren rfl rfl ((n1 _ _).weaken (by decide))
  have mul := Parses.bin (s := Evaluator.tk (.op .star) "*") (o := .star) rfl rfl (p2.weaken (m := 3) (by decide)) p2 (by decide)
  have pm := Parses.paren (l := Evaluator.tk .lparen "(") (r := Evaluator.tk .rparen ")") rfl rfl (mul.weaken (m := 12) (by decide))
  have eq := Parses.bin (s := Evaluator.tk (.op .equals) "==") (o := .equals) rfl rfl (pm.weaken (m := 10) (by decide)) (n1 "4" 4) (by decide)
  have df : Parses (fun x => (table x).isSome) 0 [Evaluator.tk .defined "defined", Evaluator.tk .lparen "(", Evaluator.tk .ident "MAX", Evaluator.tk .rparen ")"] _ :=
    .definedParen rfl rfl rfl rfl
  have all := Parses.bin (s := Evaluator.tk (.op .and) "&&") (o := .and) rfl rfl (eq.weaken (m := 11) (by decide)) df (by decide)
  refine condition_with_definitions_partial (v := 1) table [] text [eol] meant readEx 0 text_replaced (by decide) (by simp) (by decide) (by decide) (fun _ => rfl) ?_ (all.weaken (m := 12) (by decide)) (by decide)
  intro x m hm
  unfold table at hm
  split at hm
  · simp only [Option.some.injEq] at hm; subst hm; decide
  · split at hm
    · simp only [Option.some.injEq] at hm; subst hm; decide
    · cases hm

private theorem table_body : ∀ x m, table x = some m → ∀ r ∈ m.body, r.val = readEx r.kind r.text := by
  intro x m hm
  unfold table at hm
  split at hm
  · simp only [Option.some.injEq] at hm; subst hm; decide
  · split at hm
    · simp only [Option.some.injEq] at hm; subst hm; decide
    · cases hm

/-- `&& SQ(MAX) ==` is refused, as `&& ((2) * (2)) ==` is. -/
example (p : Profile) : ∃ N r, ∀ k, evaluate p table [] (Evaluator.tk (.op .and) "&&" :: text.take 5 ++ [eol]) (N + k) = some r ∧
    evaluate p table [] (Evaluator.tk (.op .and) "&&" :: meant.take 10) (N + k) = some r := by
  refine condition_like_replaced_partial p table [] _ [eol] _ readEx 0 ?_ (by decide) (by simp) (by decide) (by decide) (fun _ => rfl) table_body
  have e1 : (Evaluator.tk (.op .and) "&&" :: text.take 5).map ofSym = kAnd :: kSq :: kL :: ([kMax] ++ kR :: [kEq]) ++ [] := rfl
  have e2 : (Evaluator.tk (.op .and) "&&" :: meant.take 10).map ofSym = kAnd :: ([kL, kL, k2, kR, kStar, kL, k2, kR, kR] ++ [kEq]) ++ [] := rfl
  rw [e1, e2]
  refine .part (.keep (by decide) (by decide) ?_) ?_ .nil
  · refine .call (m := exSq) (params := [-1, 0]) (as := [[kMax]]) (pieces := sqPieces) (by decide) rfl (by decide) rfl rfl .one (by decide) ?_ sq_made ?_ ?_
      (.keep (by decide) (by decide) .nil)
    · intro i a hi
      cases i with
      | zero =>
        simp only [List.getElem?_cons_zero, Option.some.injEq] at hi
        subst hi
        exact .inl (.tok (by decide) (by decide) (by decide) .nil)
      | succ i => simp at hi
    · intro h p l n hm
      simp [sqPieces, prm] at hm
    · have e2 : sqPieces.flatMap (Piece.resultK (givenK [-1, 0] [[kMax]])) = [kL, kMax, kStar, kMax, kR] := rfl
      rw [e2]
      exact .keep (by decide) (by decide) (max_deep 2 (.keep (by decide) (by decide) (max_deep 2 (.keep (by decide) (by decide) .nil))))
  · intro k hk
    simp only [List.cons_append, List.nil_append, List.mem_cons, List.not_mem_nil, or_false] at hk
    rcases hk with rfl | rfl | rfl | rfl | rfl | rfl | rfl | rfl | rfl | rfl | rfl <;>
      simp [Itself, kL, kR, k2, kStar, kEq, kAnd]

/-- `SQ(MAX) == 4 && defined(MAX)` does not abort. -/
example (fuel : Nat) : evaluate .release table [] (text ++ [eol]) fuel ≠ some .panic :=
  evaluation_never_panics_replaced_partial table [] text [eol] meant readEx 0 text_replaced (by decide) (by simp) (by decide) (by decide) (fun _ => rfl) table_body
    (by decide) (by decide) fuel

end Verif.Props.EvalUse
