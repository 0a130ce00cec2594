import Verif.Props.Body

/-!
C98: the parameters of a function are known in its body.
-/

namespace Verif.Hir.Lower.Spec

open Verif.Hir.Lower

/-- The declarations of parameters below the node that is under `parameters` (a typedef may have a single one there). -/
def declared (p : Node) : List Node := if p.kind = .paramDecl then [p] else p.children.filter fun c => c.kind == .paramDecl

/-- The names of the parameters that have one, with the node of the declaration, in order. -/
def namedParams (p : Node) : List (Infer.Name × Nat) := (declared p).filterMap fun d => (d.child .name).map fun x => (x.text, d.ptr)

/-- `Stands n s`: `s` is `n` or a statement in `n`. -/
inductive Stands : Node → Node → Prop where
  | here (n : Node) : Stands n n
  | block {n c s : Node} : n.kind = .block → c ∈ n.children → c.kind ≠ .brace → Stands c s → Stands n s
  | forInit {n c s : Node} : n.kind = .for_ → c ∈ n.children → c.field = some .initialization → Stands c s → Stands n s
  | loop {n c s : Node} : n.kind = .for_ ∨ n.kind = .while_ → n.child .body = some c → Stands c s → Stands n s
  | branch {n c s : Node} : n.kind = .condition → n.child .truePath = some c ∨ n.child .falsePath = some c → Stands c s → Stands n s
  | case_ {n c b s : Node} : n.kind = .switch → c ∈ n.children → c.kind = .switchCase → c.child .body = some b → Stands b s → Stands n s

/-- `Local n d t`: in the body `n` a statement declares the variable `d` with the type `t`. -/
inductive Local (n : Node) : Node → Option Infer.TypeRef → Prop where
  | new {s d : Node} : Stands n s → s.kind = .varDeclStmt → d ∈ s.children → d.kind = .varDecl → Local n d s.ty
  | old {s d : Node} : Stands n s → s.kind = .oldVarDeclStmt → d ∈ s.children → d.kind = .oldVarDecl → Local n d d.ty

end Verif.Hir.Lower.Spec

namespace Verif.Props.Params

open Verif.Hir Verif.Hir.Lower Verif.Hir.Lower.Spec Verif.Hir.Infer Verif.Props.Lower Verif.Props.Body

/-- `s` without the places, `r` with them. -/
def placed (s : State) (r : List (Name × Nat)) : List (Name × Option Nat) := r.map fun q => (q.1, s.exprSource q.2)

theorem parameter_known {d : Node} (hp : proper d = true) {s s' : State} {r : Option (Name × Nat)} (h : parameter (toLow d) s = some (r, s')) :
    match d.child .name with
    | none => r = none
    | some x => ∃ i, r = some (x.text, i) ∧ At s' i d.ptr ∧ s.next ≤ i ∧ i < s'.next := by
  have hext := parameter_post hp h
  simp only [parameter, toLow_sub, child_toLows, toLow_ptr] at h
  cases hn : d.child .name with
  | none =>
    simp only [hn, Option.map_none, pure_some] at h
    exact h.1
  | some x =>
    simp only [hn, Option.map_some, bind_some] at h
    obtain ⟨o, s1, ho, o2, s2, h2, h⟩ := h
    obtain ⟨rfl, rfl⟩ := alloc_some.1 h2
    obtain ⟨rfl, rfl⟩ := pure_some.1 h
    refine ⟨s1.next, by simp [Infer.Expr.id], List.mem_cons_self, ?_, Nat.lt_succ_self _⟩
    cases hv : d.child .initialValue with
    | none =>
      simp only [hv, Option.map_none, collectOpt, pure_some] at ho
      obtain ⟨rfl, rfl⟩ := ho
      exact Nat.le_refl _
    | some v =>
      simp only [hv, Option.map_some] at ho
      obtain ⟨e, rfl, he⟩ := collectOpt_some ho
      exact (collect_post (lower_ok false v (fun h => nomatch h) (proper_child hp (child_mem hv))) (fun h => nomatch h) he).ext.le

/-- What is known of the parameters of some declarations. -/
inductive Known (s : State) : List Node → List (Name × Nat) → Prop
  | nil : Known s [] []
  | skip {d ds r} : d.child .name = none → Known s ds r → Known s (d :: ds) r
  | cons {d ds x i r} : d.child .name = some x → At s i d.ptr → Known s ds r → Known s (d :: ds) ((x.text, i) :: r)

theorem Known.later {s s' : State} {w : Nat → Nat} (hx : Ext s s' w) {ds : List Node} {r : List (Name × Nat)} (h : Known s ds r) : Known s' ds r := by
  induction h with
  | nil => exact .nil
  | skip h _ ih => exact .skip h ih
  | cons h ha _ ih => exact .cons h (hx.sub _ ha) ih

theorem parameters_known : ∀ {ds : List Node}, (∀ d ∈ ds, proper d = true) → ∀ {s s' : State} {r : List (Name × Nat)},
    parameters (toLows ds) s = some (r, s') → Known s' ds r ∧ Fresh s s' (r.map (·.2))
  | [], _, s, s', r, h => by
    simp only [toLows, parameters, pure_some] at h
    obtain ⟨rfl, rfl⟩ := h
    exact ⟨.nil, Fresh.nil _ _⟩
  | d :: ds, hp, s, s', r, h => by
    simp only [toLows, parameters, bind_some] at h
    obtain ⟨o, s1, h1, es, s2, h2, h3⟩ := h
    obtain ⟨rfl, rfl⟩ := pure_some.1 h3
    have e1 := parameter_post (hp d List.mem_cons_self) h1
    have e2 := parameters_post (fun m hm => hp m (List.mem_cons_of_mem _ hm)) h2
    have g := parameter_known (hp d List.mem_cons_self) h1
    obtain ⟨k, f⟩ := parameters_known (fun m hm => hp m (List.mem_cons_of_mem _ hm)) h2
    cases hn : d.child .name with
    | none =>
      simp only [hn] at g
      subst g
      exact ⟨.skip hn (by simpa using k), by simpa using f.earlier e1.le⟩
    | some x =>
      simp only [hn] at g
      obtain ⟨i, rfl, ha, hl, hu⟩ := g
      refine ⟨.cons hn (e2.sub _ ha) k, ?_⟩
      exact Fresh.append (a := [i]) ⟨by simp, fun j hj => by rw [List.mem_singleton.1 hj]; exact ⟨hl, hu⟩⟩ f e1.le e2.le

theorem Known.placed {s : State} (hs : (s.log.map (·.1)).Nodup) {ds : List Node} {r : List (Name × Nat)} (h : Known s ds r) :
    placed s r = (ds.filterMap fun d => (d.child .name).map fun x => (x.text, d.ptr)).map fun q => (q.1, some q.2) := by
  induction h with
  | nil => rfl
  | skip h _ ih => rw [List.filterMap_cons, h]; exact ih
  | cons h ha _ ih =>
    rw [List.filterMap_cons, h]
    simp only [Option.map_some, List.map_cons, Params.placed, source_of hs ha]
    exact congrArg _ ih

/-- What is known after lowering a body with parameters. -/
theorem collect_known {p n : Node} (hn : proper n = true) (hp : proper p = true) {L : Lowered} (h : collectBody (some p) (some n) = some L) :
    Ext {} L.map (fun q => paramsWeight (some p) q + inner q n) ∧ Known L.map (declared p) L.params ∧ (L.params.map (·.2)).Nodup := by
  obtain ⟨s0, e, -, hx, hc⟩ := collectBody_some (params := some p) (fun q hq => by cases hq; exact hp) h
  have g := collect_post (lower_ok false n (fun h => nomatch h) hn) (fun h => nomatch h) hc
  have hnd := hx.trans g.ext
  simp only [collectBody, Option.map_eq_some_iff] at h
  obtain ⟨⟨⟨ps, o⟩, s⟩, h', hL⟩ := h
  obtain ⟨ps', s0', h1, h'⟩ := bind_some.1 h'
  obtain ⟨o', s1, h2, h'⟩ := bind_some.1 h'
  obtain ⟨h3, rfl⟩ := pure_some.1 h'
  cases h3
  subst hL
  simp only [Option.map_some] at h2
  obtain ⟨e', rfl, he'⟩ := collectOpt_some h2
  have g' := collect_post (lower_ok false n (fun h => nomatch h) hn) (fun h => nomatch h) he'
  have key : Known s0' (declared p) ps ∧ Fresh {} s0' (ps.map (·.2)) := by
    simp only [paramsPart] at h1
    cases hk : p.kind <;> simp only [hk] at h1
    case paramDecls =>
      rw [filter_toLows _ (fun c => c.kind == .paramDecl) (fun n => by simp)] at h1
      have := parameters_known (fun d hd => proper_child hp (List.mem_filter.1 hd).1) h1
      rwa [declared, if_neg (by rw [hk]; decide)]
    case paramDecl =>
      have h0 : [toLow p] = toLows [p] := rfl
      rw [h0] at h1
      rw [declared, if_pos hk]
      exact parameters_known (fun d hd => by obtain rfl := List.mem_singleton.1 hd; exact hp) h1
    all_goals cases h1
  exact ⟨hnd, key.1.later g'.ext, key.2.1⟩

/-- **The parameters of a function are known in its body**: exactly those that are declared with a name, in the order of declaration, each with
the expression that leads to its own declaration, and no two with the same expression. -/
theorem params_known {p n : Node} (hn : proper n = true) (hp : proper p = true) {L : Lowered} (h : collectBody (some p) (some n) = some L) :
    L.params.map (fun q => (q.1, L.map.exprSource q.2)) = (namedParams p).map (fun q => (q.1, some q.2)) ∧ (L.params.map (·.2)).Nodup := by
  obtain ⟨h1, h2, h3⟩ := collect_known hn hp h
  exact ⟨h2.placed (ext_nodup h1), h3⟩

theorem Known.leads {s : State} {ds : List Node} {r : List (Name × Nat)} (h : Known s ds r) (hc : ∀ d ∈ ds, cnt d.ptr s.log ≤ 1) :
    r.map (fun q => (q.1, some q.2)) = (ds.filterMap fun d => (d.child .name).map fun x => (x.text, d.ptr)).map fun q => (q.1, s.nodeExpr q.2) := by
  induction h with
  | nil => rfl
  | skip h _ ih => rw [List.filterMap_cons, h]; exact ih fun d hd => hc d (List.mem_cons_of_mem _ hd)
  | cons h ha _ ih =>
    rw [List.filterMap_cons, h]
    simp only [Option.map_some, List.map_cons, nodeExpr_of ha (hc _ List.mem_cons_self)]
    exact congrArg _ (ih fun d hd => hc d (List.mem_cons_of_mem _ hd))

/-- **The declaration of a parameter leads to it**: the expression found for the node of the declaration is the one the parameter stands for in the
body. Nodes have different pointers, and a declaration is under none of the fields of operands, as in the grammar. -/
theorem params_lead {p n : Node} (hn : proper n = true) (hp : proper p = true) (hd : (ptrs p ++ ptrs n).Nodup)
    (hf : ∀ d ∈ declared p, isOperand d.field = false) {L : Lowered} (h : collectBody (some p) (some n) = some L) :
    L.params.map (fun q => (q.1, some q.2)) = (namedParams p).map fun q => (q.1, L.map.nodeExpr q.2) := by
  obtain ⟨h1, h2, -⟩ := collect_known hn hp h
  refine h2.leads fun d hdd => ?_
  obtain ⟨_, new, e1, e2, _⟩ := h1
  have h3 := e2 d.ptr
  simp only [List.append_nil] at e1
  rw [e1]
  have hw : Within p d := by
    unfold declared at hdd
    split at hdd
    · obtain rfl := List.mem_singleton.1 hdd; exact .here _
    · exact within_child (List.mem_filter.1 hdd).1
  rw [List.nodup_append] at hd
  have hw1 := weight_one hw hd.1 (hf d hdd)
  have hi := inner_le d.ptr n
  have hw0 : weight d.ptr n = 0 := weight_zero fun hm => hd.2.2 _ (ptr_mem hw) _ hm rfl
  simp only [paramsWeight, Option.toList_some, weights] at h3
  omega

/-! ### Local variables -/

theorem reads_stmt {place : Nat → Nat → Prop} {n : Node} {e : Expr} (h : Reads true place n e) (hs : isStmt n.kind = true) (hk : n.kind ≠ .return_) :
    ∃ (id : Nat) (l : List (Node × Expr)), e = .seq id (l.map Prod.snd) ∧ l.map Prod.fst = stmtParts n ∧ (∀ q ∈ l, Reads true place q.1 q.2) ∧
      (n.kind = .varDeclStmt → ∀ q ∈ l, bindingType q.2 = n.ty) ∧ (n.kind = .oldVarDeclStmt → ∀ q ∈ l, bindingType q.2 = q.1.ty) := by
  cases h with
  | stmt l h1 h2 h3 h4 h5 => exact ⟨_, l, rfl, h2, h3, h4, h5⟩
  | missing h =>
    simp only [Bool.true_eq_false, blank, Bool.or_eq_true, beq_iff_eq, Bool.and_eq_true, false_or] at h
    rcases h with (h | h) | h
    · rw [h] at hs; cases hs
    · rw [h] at hs; cases hs
    · exact absurd h.1 hk
  | literal h1 => exfalso; cases hk : n.kind <;> simp [hk, isStmt, Spec.literal] at hs h1
  | operator l h1 => exfalso; cases hk : n.kind <;> simp [hk, isStmt, isOperator] at hs h1
  | declared h1 | initialised h1 => rcases h1 with h1 | h1 <;> rw [h1] at hs <;> cases hs
  | ident h1 | paren h1 | exprStmt h1 | block l h1 | index h1 | viewAs h1 | field h1 | scope h1 | new l h1 | call l h1 | method l h1 | namedArg h1 =>
    rw [h1] at hs; cases hs

theorem reads_block {place : Nat → Nat → Prop} {n : Node} {e : Expr} (h : Reads true place n e) (hs : n.kind = .block) :
    ∃ (id : Nat) (l : List (Node × Expr)), e = .block id (l.map Prod.snd) ∧ l.map Prod.fst = (n.children.filter fun c => c.kind != .brace) ∧ (∀ q ∈ l, Reads true place q.1 q.2) := by
  cases h with
  | block l h1 h2 h3 h4 => exact ⟨_, l, rfl, h3, h4⟩
  | missing h => simp [blank, hs] at h
  | literal h1 => rw [hs] at h1; cases h1
  | operator l h1 => rw [hs] at h1; cases h1
  | stmt l h1 => rw [hs] at h1; cases h1
  | declared h1 | initialised h1 => rcases h1 with h1 | h1 <;> rw [h1] at hs <;> cases hs
  | ident h1 | paren h1 | exprStmt h1 | index h1 | viewAs h1 | field h1 | scope h1 | new l h1 | call l h1 | method l h1 | namedArg h1 =>
    rw [h1] at hs; cases hs

theorem reads_decl {place : Nat → Nat → Prop} {n : Node} {e : Expr} (h : Reads true place n e) (hs : n.kind = .varDecl ∨ n.kind = .oldVarDecl) :
    ∃ id init t, e = .binding id init t ∧ place id n.ptr := by
  cases h with
  | declared _ _ h => exact ⟨_, _, _, rfl, h⟩
  | initialised _ _ _ h => exact ⟨_, _, _, rfl, h⟩
  | missing h => rcases hs with hs | hs <;> simp [blank, hs] at h
  | literal h1 => rcases hs with hs | hs <;> rw [hs] at h1 <;> cases h1
  | operator l h1 => rcases hs with hs | hs <;> rw [hs] at h1 <;> cases h1
  | stmt l h1 => rcases hs with hs | hs <;> rw [hs] at h1 <;> cases h1
  | ident h1 | paren h1 | exprStmt h1 | block l h1 | index h1 | viewAs h1 | field h1 | scope h1 | new l h1 | call l h1 | method l h1 | namedArg h1 =>
    rcases hs with hs | hs <;> rw [h1] at hs <;> cases hs

theorem stands_within {n s : Node} (h : Stands n s) : Within n s := by
  induction h with
  | here => exact .here _
  | block _ hc _ _ ih => exact .child hc ih
  | forInit _ hc _ _ ih => exact .child hc ih
  | loop _ hc _ ih => exact .child (child_mem hc) ih
  | branch _ hc _ ih => rcases hc with hc | hc <;> exact .child (child_mem hc) ih
  | case_ _ hc _ hb _ ih => exact .child hc (.child (child_mem hb) ih)

/-- Every statement is analysed. -/
theorem stands_occurs {place : Nat → Nat → Prop} {n s : Node} (h : Stands n s) : ∀ (b : Nat) (e : Expr), Reads true place n e →
    ∃ b' e', Infer.Spec.Occurs b e b' e' ∧ Reads true place s e' := by
  have stmt : ∀ {n c s : Node} (_ : isStmt n.kind = true) (_ : n.kind ≠ .return_) (_ : c ∈ stmtParts n)
      (_ : ∀ (b : Nat) (e : Expr), Reads true place c e → ∃ b' e', Infer.Spec.Occurs b e b' e' ∧ Reads true place s e')
      (b : Nat) (e : Expr), Reads true place n e → ∃ b' e', Infer.Spec.Occurs b e b' e' ∧ Reads true place s e' := by
    intro n c s h1 h2 h3 ih b e hr
    obtain ⟨id, l, rfl, hl, hq, -⟩ := reads_stmt hr h1 h2
    rw [← hl] at h3
    obtain ⟨p, hp, hpr⟩ := pairs hq h3
    obtain ⟨b', e', ho, he⟩ := ih (Infer.Spec.inside b (.seq id (l.map Prod.snd))) p hpr
    exact ⟨b', e', .part hp ho, he⟩
  induction h with
  | here => exact fun b e hr => ⟨b, e, .here _ _, hr⟩
  | block hk hc hb _ ih =>
    intro b e hr
    obtain ⟨id, l, rfl, hl, hq⟩ := reads_block hr hk
    have hm := (List.mem_filter (p := fun c : Node => c.kind != .brace)).2 ⟨hc, by simp [hb]⟩
    rw [← hl] at hm
    obtain ⟨p, hp, hpr⟩ := pairs hq hm
    obtain ⟨b', e', ho, he⟩ := ih (Infer.Spec.inside b (.block id (l.map Prod.snd))) p hpr
    exact ⟨b', e', .part hp ho, he⟩
  | forInit hk hc hf _ ih => exact stmt (by rw [hk]; rfl) (by rw [hk]; decide) (by simp [stmtParts, hk, hc, hf]) ih
  | loop hk hc _ ih => rcases hk with hk | hk <;> exact stmt (by rw [hk]; rfl) (by rw [hk]; decide) (by simp [stmtParts, hk, hc]) ih
  | branch hk hc _ ih => rcases hc with hc | hc <;> exact stmt (by rw [hk]; rfl) (by rw [hk]; decide) (by simp [stmtParts, hk, hc]) ih
  | @case_ n c x s hk hc hck hb _ ih =>
    refine stmt (by rw [hk]; rfl) (by rw [hk]; decide) ?_ ih
    simp only [stmtParts, hk, List.mem_append, List.mem_flatMap, List.mem_filter]
    exact .inr ⟨c, ⟨hc, by simp [hck]⟩, .inr (by simp [hb])⟩

/-- **Local variables are known in the body.** Each variable a statement of the body declares has an expression of its own among those that are
analysed, with the type that is written; this expression leads to the declaration, and the declaration to it. Partial: for clean trees, as
`Body.analysed_partial` (what is declared in a `for (;;)` is lost, `Body.loop_refuted`). -/
theorem locals_known_partial {params : Option Node} {n : Node} (hn : proper n = true) (hc : clean n = true) (hr : readableOrBlank n = true)
    (hp : ∀ p ∈ params, proper p = true) (hd : (ptrsAll params.toList ++ ptrs n).Nodup) {L : Lowered}
    (h : collectBody params (some n) = some L) {d : Node} {t : Option TypeRef} (hl : Local n d t) (hf : isOperand d.field = false) :
    ∃ e i, L.body = some e ∧ L.map.nodeExpr d.ptr = some i ∧ L.map.exprSource i = some d.ptr ∧
      ∀ b, ∃ b' init, Infer.Spec.Occurs b e b' (.binding i init t) := by
  obtain ⟨e, run⟩ := clean_run hn hc hr hp hd h
  have hnd : (L.map.log.map (·.1)).Nodup := by
    obtain ⟨s0, e', hb, hx, hcol⟩ := collectBody_some hp h
    exact ext_nodup (hx.trans (collect_post (lower_ok true n (fun _ => hc) hn) (fun _ => hr) hcol).ext)
  have key : ∀ {s : Node}, Stands n s → (s.kind = .varDeclStmt ∧ d.kind = .varDecl ∧ t = s.ty ∨ s.kind = .oldVarDeclStmt ∧ d.kind = .oldVarDecl ∧ t = d.ty) →
      d ∈ s.children → ∀ b, ∃ i b' init, At L.map i d.ptr ∧ Infer.Spec.Occurs b e b' (.binding i init t) := by
    intro s hs hk hds b
    obtain ⟨b1, e1, ho, hr1⟩ := stands_occurs hs b e run.reads
    obtain ⟨id, l, rfl, hl, hq, ht1, ht2⟩ := reads_stmt hr1 (by rcases hk with hk | hk <;> rw [hk.1] <;> rfl) (by rcases hk with hk | hk <;> rw [hk.1] <;> decide)
    have hm : d ∈ stmtParts s := by rcases hk with hk | hk <;> simp [stmtParts, hk.1, hds, hk.2.1]
    rw [← hl] at hm
    obtain ⟨q, hql, rfl⟩ := List.mem_map.1 hm
    obtain ⟨i, init, t', hi, hat⟩ := reads_decl (hq q hql) (by rcases hk with hk | hk <;> simp [hk.2.1])
    have htt : t' = t := by
      rcases hk with hk | hk
      · have := ht1 hk.1 q hql; rw [hi] at this; rw [hk.2.2]; exact this
      · have := ht2 hk.1 q hql; rw [hi] at this; rw [hk.2.2]; exact this
    subst htt
    exact ⟨i, _, init, hat, Infer.Demo.occurs_trans ho (.part (p := .binding i init t') (List.mem_map.2 ⟨q, hql, hi⟩) (.here _ _))⟩
  have all : Within n d ∧ ∀ b, ∃ i b' init, At L.map i d.ptr ∧ Infer.Spec.Occurs b e b' (.binding i init t) := by
    cases hl with
    | new hs h1 h2 h3 => exact ⟨within_trans (stands_within hs) (within_child h2), key hs (.inl ⟨h1, h3, rfl⟩) h2⟩
    | old hs h1 h2 h3 => exact ⟨within_trans (stands_within hs) (within_child h2), key hs (.inr ⟨h1, h3, rfl⟩) h2⟩
  obtain ⟨i, b', init, hat, -⟩ := all.2 0
  have hne := run.node d i all.1 hf hat
  refine ⟨e, i, run.body, hne, source_of hnd hat, fun b => ?_⟩
  obtain ⟨j, b', init, hat', ho⟩ := all.2 b
  have := run.node d j all.1 hf hat'
  rw [hne] at this
  cases this
  exact ⟨b', init, ho⟩

/-- `(int n = 0, const char[] s, float)` -/
def three : Node := .mk none 200 .paramDecls [] none
  [Demo.leaf none 201 .punct "(", .mk none 202 .paramDecl [] (some .int) [Demo.leaf (some .name) 203 .ident "n", Demo.leaf (some .initialValue) 204 .int "0"],
   Demo.leaf none 206 .punct ",", .mk none 207 .paramDecl [] (some .int) [Demo.leaf (some .name) 208 .ident "s"],
   Demo.leaf none 209 .punct ",", .mk none 210 .paramDecl [] (some .int) [],
   Demo.leaf none 205 .punct ")"]

/-- The hypotheses are met; the parameter without a name is not known. -/
example : ∃ L, collectBody (some three) (some Demo.tree) = some L ∧
    L.params.map (fun q => (q.1, L.map.exprSource q.2)) = [(['n'], some 202), (['s'], some 207)] ∧
    L.params.map (fun q => (q.1, some q.2)) = [(['n'], L.map.nodeExpr 202), (['s'], L.map.nodeExpr 207)] := by
  have h : (collectBody (some three) (some Demo.tree)).isSome := by decide +kernel
  obtain ⟨L, hL⟩ := Option.isSome_iff_exists.1 h
  exact ⟨L, hL, (params_known Demo.tree_proper (by decide) hL).1, params_lead Demo.tree_proper (by decide)
    (by simp [ptrs, ptrsAll, three, Demo.tree, Demo.leaf, Demo.stmt, Demo.put, Demo.named, Demo.fresh, Demo.size, Demo.loop, Demo.back, Demo.access, Demo.args])
    (by decide) hL⟩

/-- `{ int a = 1, b; for (int i = 0; i < 3; i++) { new c; } }` -/
def locals : Node := .mk none 1 .block [] none
  [Demo.leaf none 2 .brace "{",
   .mk none 3 .varDeclStmt [] (some .int)
    [.mk none 4 .varDecl [] none [Demo.leaf (some .name) 5 .ident "a", Demo.leaf (some .initialValue) 6 .int "1"],
     Demo.leaf none 7 .punct ",", .mk none 8 .varDecl [] none [Demo.leaf (some .name) 9 .ident "b"]],
   .mk none 10 .for_ [] none
    [.mk (some .initialization) 11 .varDeclStmt [] (some .int) [.mk none 12 .varDecl [] none [Demo.leaf (some .name) 13 .ident "i", Demo.leaf (some .initialValue) 14 .int "0"]],
     .mk (some .condition) 15 .binary [] none [Demo.leaf (some .left) 16 .ident "i", Demo.leaf (some .right) 17 .int "3"],
     .mk (some .iteration) 18 .unary [] none [Demo.leaf (some .argument) 19 .ident "i"],
     .mk (some .body) 20 .block [] none [Demo.leaf none 21 .brace "{",
       .mk none 22 .oldVarDeclStmt [] none [.mk none 23 .oldVarDecl [] (some .float) [Demo.leaf (some .name) 24 .ident "c"]], Demo.leaf none 25 .brace "}"]],
   Demo.leaf none 26 .brace "}"]

/-- The hypotheses are met: `c`, declared in the body of a loop, is known. -/
example : ∃ L i, collectBody (some three) (some locals) = some L ∧ L.map.nodeExpr 23 = some i ∧ L.map.exprSource i = some 23 := by
  have h : (collectBody (some three) (some locals)).isSome := by decide +kernel
  obtain ⟨L, hL⟩ := Option.isSome_iff_exists.1 h
  obtain ⟨e, i, -, h1, h2, -⟩ := locals_known_partial (params := some three) (n := locals) (by decide) (by decide) (by decide) (by decide)
    (by simp [ptrs, ptrsAll, three, locals, Demo.leaf]) hL
    (d := .mk none 23 .oldVarDecl [] (some .float) [Demo.leaf (some .name) 24 .ident "c"]) (t := some .float)
    (.old (s := .mk none 22 .oldVarDeclStmt [] none [.mk none 23 .oldVarDecl [] (some .float) [Demo.leaf (some .name) 24 .ident "c"]])
      (.block rfl (List.mem_cons_of_mem _ (List.mem_cons_of_mem _ List.mem_cons_self)) (by decide)
        (.loop (.inl rfl) rfl (.block rfl (List.mem_cons_of_mem _ List.mem_cons_self) (by decide) (.here _)))) rfl List.mem_cons_self rfl) rfl
  exact ⟨L, i, hL, h1, h2⟩

end Verif.Props.Params
