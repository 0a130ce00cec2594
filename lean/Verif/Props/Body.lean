import Verif.Props.Lower
/-!
# What is found out about a body, and where it is shown
-/

namespace Verif.Props.Body

open Verif.Hir Verif.Hir.Lower Verif.Hir.Lower.Spec Verif.Props.Lower
open Verif.Hir.Infer (Name TypeRef Expr Event Env Current events infer inferAll)
open Verif.Hir.Infer.Spec (Occurs parts inside Distinct NamesDistinct)

/-! ## Numbers of expressions are distinct -/

open Verif.Props.Infer.Demo (occs occsAll distinct_of nodup_inj)

mutual
theorem occs_ids : ∀ (b : Nat) (e : Expr), ((occs b e).map fun q => q.2.id).Sublist (ids e)
  | b, .ident _ _ | b, .literal _ _ | b, .binding _ none _ => by simp [occs, ids, Expr.id]
  | b, .block id es | b, .seq id es | b, .last id es | b, .new id _ es => by
    simp only [occs, ids, Expr.id, List.map_cons]
    exact (occsAll_ids _ es).cons_cons _
  | b, .index id a i => by
    simp only [occs, ids, Expr.id, List.map_cons, List.map_append]
    exact ((occs_ids b a).append (occs_ids b i)).cons_cons _
  | b, .viewAs id e _ | b, .field id e _ | b, .binding id (some e) _ => by
    simp only [occs, ids, Expr.id, List.map_cons]
    exact (occs_ids b e).cons_cons _
  | b, .methodCall id e _ es | b, .call id e es => by
    simp only [occs, ids, Expr.id, List.map_cons, List.map_append]
    exact ((occs_ids b e).append (occsAll_ids b es)).cons_cons _
  | b, .namedArg id n _ e => by
    simp only [occs, ids, Expr.id, List.map_cons]
    exact ((occs_ids b e).cons _).cons_cons _
theorem occsAll_ids : ∀ (b : Nat) (es : List Expr), ((occsAll b es).map fun q => q.2.id).Sublist (idsAll es)
  | b, [] => by simp [occsAll, idsAll]
  | b, e :: es => by
    simp only [occsAll, idsAll, List.map_append]
    exact (occs_ids b e).append (occsAll_ids b es)
end

theorem distinct_ids {e : Expr} (h : (ids e).Nodup) (b : Nat) : Distinct b e := distinct_of (h.sublist (occs_ids b e))

/-- The names of the named arguments among some parts of `e`, with `e` and its block. -/
def nameOf (b : Nat) (e : Expr) : Expr → List (Nat × Nat × Expr × Option Name)
  | .namedArg _ n x _ => [(n, b, e, x)]
  | _ => []

mutual
def names (b : Nat) : Expr → List (Nat × Nat × Expr × Option Name)
  | .ident _ _ | .literal _ _ | .binding _ none _ => []
  | .block id es => namesAll id b (.block id es) es
  | .seq id es => namesAll b b (.seq id es) es
  | .last id es => namesAll b b (.last id es) es
  | .new id x es => namesAll b b (.new id x es) es
  | .index id a i => nameOf b (.index id a i) a ++ names b a ++ (nameOf b (.index id a i) i ++ names b i)
  | .viewAs id e t => nameOf b (.viewAs id e t) e ++ names b e
  | .field id e x => nameOf b (.field id e x) e ++ names b e
  | .binding id (some e) t => nameOf b (.binding id (some e) t) e ++ names b e
  | .methodCall id e x es => nameOf b (.methodCall id e x es) e ++ names b e ++ namesAll b b (.methodCall id e x es) es
  | .call id e es => nameOf b (.call id e es) e ++ names b e ++ namesAll b b (.call id e es) es
  | .namedArg id n x e => nameOf b (.namedArg id n x e) e ++ names b e
def namesAll (b b' : Nat) (p : Expr) : List Expr → List (Nat × Nat × Expr × Option Name)
  | [] => []
  | e :: es => nameOf b' p e ++ names b e ++ namesAll b b' p es
end

mutual
/-- The numbers of the names in an expression are among those after the first, or the name is its own. -/
theorem names_ids : ∀ (b b' : Nat) (p e : Expr), ((nameOf b' p e ++ names b e).map (·.1)).Sublist (ids e)
  | b, b', p, .ident _ _ | b, b', p, .literal _ _ | b, b', p, .binding _ none _ => by simp [nameOf, names]
  | b, b', p, .block id es | b, b', p, .seq id es | b, b', p, .last id es | b, b', p, .new id _ es => by
    simp only [nameOf, names, ids, List.nil_append]
    exact (namesAll_ids _ _ _ es).cons _
  | b, b', p, .index id a i => by
    simp only [nameOf, names, ids, List.nil_append]
    rw [List.map_append]
    exact ((names_ids b b _ a).append (names_ids b b _ i)).cons _
  | b, b', p, .viewAs id e _ | b, b', p, .field id e _ | b, b', p, .binding id (some e) _ => by
    simp only [nameOf, names, ids, List.nil_append]
    exact (names_ids b b _ e).cons _
  | b, b', p, .methodCall id e _ es | b, b', p, .call id e es => by
    simp only [nameOf, names, ids, List.nil_append]
    rw [List.map_append]
    exact ((names_ids b b _ e).append (namesAll_ids b b _ es)).cons _
  | b, b', p, .namedArg id n _ e => by
    simp only [nameOf, names, ids, List.cons_append, List.nil_append, List.map_cons]
    exact ((names_ids b b _ e).cons_cons _).cons _
theorem namesAll_ids : ∀ (b b' : Nat) (p : Expr) (es : List Expr), ((namesAll b b' p es).map (·.1)).Sublist (idsAll es)
  | b, b', p, [] => by simp [namesAll, idsAll]
  | b, b', p, e :: es => by
    simp only [namesAll, idsAll]
    rw [List.map_append]
    exact (names_ids b b' p e).append (namesAll_ids b b' p es)
end

theorem mem_namesAll {b b' : Nat} {p : Expr} {q : Nat × Nat × Expr × Option Name} : ∀ es : List Expr,
    q ∈ namesAll b b' p es ↔ ∃ e ∈ es, q ∈ nameOf b' p e ∨ q ∈ names b e
  | [] => by simp [namesAll]
  | e :: es => by simp [namesAll, mem_namesAll es, or_assoc]

theorem names_part {b : Nat} {e p : Expr} (hp : p ∈ parts e) {q : Nat × Nat × Expr × Option Name}
    (hq : q ∈ nameOf b e p ∨ q ∈ names (inside b e) p) : q ∈ names b e := by
  cases e with
  | ident | literal => simp [parts] at hp
  | binding id init t =>
    cases init with
    | none => simp [parts] at hp
    | some v =>
      simp only [parts, List.mem_singleton] at hp
      subst hp
      simpa [names, inside] using hq
  | block | seq | last | new =>
    simp only [parts] at hp
    simp only [names, mem_namesAll]
    exact ⟨p, hp, by simpa [inside] using hq⟩
  | index id a i =>
    simp only [parts, List.mem_cons, List.not_mem_nil, or_false] at hp
    simp only [inside] at hq
    rcases hp with rfl | rfl
    · simp only [names, List.mem_append]; exact .inl hq
    · simp only [names, List.mem_append]; exact .inr hq
  | viewAs | field | namedArg =>
    simp only [parts, List.mem_singleton] at hp
    subst hp
    simpa [names, inside] using hq
  | methodCall | call =>
    simp only [parts, List.mem_cons] at hp
    simp only [inside] at hq
    rcases hp with rfl | hp
    · simp only [names, List.mem_append]; exact .inl hq
    · simp only [names, List.mem_append, mem_namesAll]; exact .inr ⟨p, hp, hq⟩

theorem names_occurs {b b' : Nat} {e e' : Expr} (h : Occurs b e b' e') {i n : Nat} {x : Option Name} {v : Expr}
    (hp : .namedArg i n x v ∈ parts e') : (n, b', e', x) ∈ names b e := by
  induction h with
  | here b e => exact names_part hp (.inl (by simp [nameOf]))
  | part hm _ ih => exact names_part hm (.inr (ih hp))

theorem namesDistinct_ids {e : Expr} (h : (ids e).Nodup) (b : Nat) : NamesDistinct b e := by
  intro b1 e1 b2 e2 i1 i2 n x1 x2 v1 v2 h1 h2 p1 p2
  have hn : ((names b e).map (·.1)).Nodup :=
    h.sublist (List.Sublist.trans (by rw [List.map_append]; exact List.sublist_append_right _ _) (names_ids b b e e))
  have := nodup_inj hn _ (names_occurs h1 p1) _ (names_occurs h2 p2) rfl
  cases this
  exact ⟨rfl, rfl, rfl⟩

/-! ## What is written down is about expressions of the body -/

/-- The expression an event is about. -/
def About : Event → Expr → Prop
  | .attribute i _, e => ∃ t x, e = .field i t x
  | .unresolvedField i _ x _, e => ∃ t, e = .field i t x
  | .method i _, e => (∃ t x as, e = .methodCall i t x as) ∨ ∃ x as, e = .new i x as
  | .unresolvedMethod i _ x _, e => ∃ t as, e = .methodCall i t x as
  | .unresolvedConstructor i x _, e => ∃ as, e = .new i x as
  | .named i _ _, e => ∃ j x v, e = .namedArg j i (some x) v
  | .unresolvedNamed i x _, e => ∃ j v, e = .namedArg j i (some x) v
  | .arguments d, e => ∃ i f as, e = .call i f as ∧ d.expr = Infer.lastId i as ∧ d.actual = as.length

def Within_ (b : Nat) (e : Expr) (ev : Event) : Prop := ∃ b' e', Occurs b e b' e' ∧ About ev e'

theorem within_part {b : Nat} {e p : Expr} {ev : Event} (hp : p ∈ parts e) (h : Within_ (inside b e) p ev) : Within_ b e ev := by
  obtain ⟨b', e', ho, ha⟩ := h
  exact ⟨b', e', .part hp ho, ha⟩

theorem within_self {b : Nat} {e : Expr} {ev : Event} (h : About ev e) : Within_ b e ev := ⟨b, e, .here b e, h⟩

theorem fieldOf_about {env : Env} {b id : Nat} {ty : Option TypeRef} {x : Name} {t : Expr} {ev : Event}
    (h : ev ∈ (Infer.fieldOf env b id ty x).2) : About ev (.field id t x) := by
  unfold Infer.fieldOf at h
  (repeat' split at h) <;> simp only [List.not_mem_nil, List.mem_singleton] at h <;> subst h <;> simp [About]

theorem methodOf_about {env : Env} {b id : Nat} {c : Current} {ty : Option TypeRef} {x : Name} {t : Expr} {as : List Expr} {ev : Event}
    (h : ev ∈ (Infer.methodOf env b id c ty x).evs) : About ev (.methodCall id t x as) := by
  unfold Infer.methodOf at h
  (repeat' split at h) <;> simp only [List.not_mem_nil, List.mem_singleton] at h <;> subst h <;> simp [About]

theorem constructorOf_about {env : Env} {b id : Nat} {x : Name} {as : List Expr} {ev : Event}
    (h : ev ∈ (Infer.constructorOf env b id x).2) : About ev (.new id x as) := by
  unfold Infer.constructorOf at h
  (repeat' split at h) <;> simp only [List.not_mem_nil, List.mem_singleton] at h <;> subst h <;> simp [About]

theorem check_about {env : Env} {c : Current} {id : Nat} {f : Expr} {as : List Expr} {ev : Event}
    (h : ev ∈ Infer.check env c id as) : About ev (.call id f as) := by
  unfold Infer.check at h
  split at h
  · next f' fs =>
    dsimp only at h
    split at h
    · obtain rfl := List.mem_singleton.1 h
      exact ⟨id, f, as, rfl, rfl, rfl⟩
    · split at h
      · split at h
        · obtain rfl := List.mem_singleton.1 h
          exact ⟨id, f, as, rfl, rfl, rfl⟩
        · cases h
      · cases h
  · cases h

theorem inferIdent_evs (env : Env) (b : Nat) (c : Current) (x : Name) : (Infer.inferIdent env b c x).evs = [] := by
  unfold Infer.inferIdent
  split <;> rfl

mutual
theorem infer_about {env : Env} {ev : Event} : ∀ (b : Nat) (c : Current) (e : Expr), ev ∈ (infer env b c e).evs → Within_ b e ev
  | b, c, .ident _ x => fun h => by rw [infer, inferIdent_evs] at h; cases h
  | b, c, .literal _ _ | b, c, .binding _ none _ => fun h => by simp [infer] at h
  | b, c, .block id es => fun h => by
    obtain ⟨p, hp, hw⟩ := inferAll_about id c es h
    exact within_part hp hw
  | b, c, .seq id es => fun h => by
    obtain ⟨p, hp, hw⟩ := inferAll_about b c es h
    exact within_part hp hw
  | b, c, .last id es => fun h => by
    obtain ⟨p, hp, hw⟩ := inferAll_about b c es h
    exact within_part hp hw
  | b, c, .new id x es => fun h => by
    simp only [infer, List.mem_append] at h
    rcases h with h | h
    · obtain ⟨p, hp, hw⟩ := inferAll_about b c es h
      exact within_part hp hw
    · exact within_self (constructorOf_about h)
  | b, c, .index id a i => fun h => by
    simp only [infer, List.mem_append] at h
    rcases h with h | h
    · exact within_part (p := i) (by simp [parts]) (infer_about b c i h)
    · exact within_part (p := a) (by simp [parts]) (infer_about b _ a h)
  | b, c, .viewAs id e t => fun h => within_part (p := e) (by simp [parts]) (infer_about b c e h)
  | b, c, .binding id (some e) t => fun h => within_part (p := e) (by simp [parts]) (infer_about b c e h)
  | b, c, .field id e x => fun h => by
    simp only [infer, List.mem_append] at h
    rcases h with h | h
    · exact within_part (p := e) (by simp [parts]) (infer_about b c e h)
    · exact within_self (fieldOf_about h)
  | b, c, .methodCall id e x es => fun h => by
    simp only [infer, List.mem_append] at h
    rcases h with (h | h) | h
    · exact within_part (p := e) (by simp [parts]) (infer_about b _ e h)
    · exact within_self (methodOf_about h)
    · obtain ⟨p, hp, hw⟩ := inferAll_about b _ es h
      exact within_part (by simp [parts, hp]) hw
  | b, c, .call id e es => fun h => by
    simp only [infer, List.mem_append] at h
    rcases h with (h | h) | h
    · exact within_part (p := e) (by simp [parts]) (infer_about b _ e h)
    · obtain ⟨p, hp, hw⟩ := inferAll_about b _ es h
      exact within_part (by simp [parts, hp]) hw
    · exact within_self (check_about h)
  | b, c, .namedArg id n x v => fun h => by
    have hv := infer_about (env := env) (ev := ev) b c v
    unfold infer at h
    split at h
    · next f fs =>
      split at h
      · cases h
      · next x =>
        dsimp only at h
        split at h <;> rcases List.mem_cons.1 h with rfl | h
        · exact within_self ⟨id, x, v, rfl⟩
        · exact within_part (p := v) (by simp [parts]) (hv h)
        · exact within_self ⟨id, v, rfl⟩
        · exact within_part (p := v) (by simp [parts]) (hv h)
    · cases h
theorem inferAll_about {env : Env} {ev : Event} : ∀ (b : Nat) (c : Current) (es : List Expr), ev ∈ (inferAll env b c es).evs →
    ∃ p ∈ es, Within_ b p ev
  | b, c, [] => fun h => by simp [inferAll] at h
  | b, c, e :: es => fun h => by
    simp only [inferAll, List.mem_append] at h
    rcases h with h | h
    · exact ⟨e, List.mem_cons_self, infer_about b c e h⟩
    · obtain ⟨p, hp, hw⟩ := inferAll_about b _ es h
      exact ⟨p, List.mem_cons_of_mem _ hp, hw⟩
end

/-! ## Expressions of the body are read from nodes of the tree -/

theorem mem_toList {α : Type} {a : α} {o : Option α} : a ∈ o.toList ↔ o = some a := by cases o <;> simp [eq_comm]

theorem stmtParts_within {n x : Node} (h : x ∈ stmtParts n) : Within n x := by
  unfold stmtParts at h
  split at h
  case h_6 =>
    rcases List.mem_append.1 h with h | h
    · exact within_child (child_mem (mem_toList.1 h))
    · obtain ⟨c, hc, hx⟩ := List.mem_flatMap.1 h
      refine .child (List.mem_filter.1 hc).1 ?_
      rcases List.mem_append.1 hx with hx | hx
      · exact within_child (List.mem_filter.1 hx).1
      · exact within_child (child_mem (mem_toList.1 hx))
  all_goals
    refine within_child ?_
    simp only [List.mem_append, List.mem_filter, mem_toList, List.not_mem_nil] at h
  · exact h.1
  · exact h.1
  · rcases h with ((h | h) | h) | h
    · exact h.1
    all_goals exact child_mem h
  · rcases h with h | h <;> exact child_mem h
  · rcases h with (h | h) | h <;> exact child_mem h
  · exact child_mem h
  · exact child_mem h

theorem operands_within {n x : Node} (h : x ∈ operands n) : Within n x := by
  refine within_child ?_
  unfold operands at h
  split at h <;> (try simp only [List.mem_append, mem_toList, List.not_mem_nil] at h)
  · rcases h with h | h <;> exact child_mem h
  · rcases h with (h | h) | h <;> exact child_mem h
  · exact child_mem h
  · exact child_mem h
  · exact h
  · exact (List.mem_filter.1 h).1

theorem written_within {n x : Node} (h : x ∈ written n) : Within n x := within_child (List.mem_filter.1 h).1

theorem covers_mem {strict : Bool} {xs ys : List Node} (h : Covers strict xs ys) {x : Node} (hx : x ∈ xs) : x ∈ ys := by
  cases strict with
  | true => exact (show xs = ys from h) ▸ hx
  | false => exact (show xs.Sublist ys from h).subset hx

theorem mem_snd {l : List (Node × Expr)} {p : Expr} (h : p ∈ l.map Prod.snd) : ∃ q ∈ l, q.2 = p := List.mem_map.1 h

theorem occurs_reads {strict : Bool} {place : Nat → Nat → Prop} {n : Node} {e : Expr} (h : Reads strict place n e) :
    ∀ {b b' : Nat} {e' : Expr}, Occurs b e b' e' → ∃ d, Within n d ∧ Reads strict place d e' := by
  have lift : ∀ {n x : Node} {e' : Expr}, Within n x → (∃ d, Within x d ∧ Reads strict place d e') → ∃ d, Within n d ∧ Reads strict place d e' :=
    fun hw ⟨d, hd, hr⟩ => ⟨d, within_trans hw hd, hr⟩
  induction h with
  | missing h =>
    intro b b' e' ho
    cases ho with
    | here => exact ⟨_, .here _, .missing h⟩
    | part hp _ => simp [parts] at hp
  | ident h1 h2 =>
    intro b b' e' ho
    cases ho with
    | here => exact ⟨_, .here _, .ident h1 h2⟩
    | part hp _ => simp [parts] at hp
  | literal h1 h2 =>
    intro b b' e' ho
    cases ho with
    | here => exact ⟨_, .here _, .literal h1 h2⟩
    | part hp _ => simp [parts] at hp
  | paren h1 h2 h3 ih =>
    intro b b' e' ho
    exact lift (within_child (child_mem h2)) (ih ho)
  | exprStmt h1 h2 h3 ih =>
    intro b b' e' ho
    exact lift (within_child (by rw [h2]; exact List.mem_cons_self)) (ih ho)
  | @block n id l h1 h2 h3 h4 ih =>
    intro b b' e' ho
    cases ho with
    | here => exact ⟨_, .here _, .block l h1 h2 h3 h4⟩
    | part hp ho =>
      obtain ⟨q, hq, rfl⟩ := mem_snd hp
      refine lift (within_child ?_) (ih q hq ho)
      have : q.1 ∈ l.map Prod.fst := List.mem_map.2 ⟨q, hq, rfl⟩
      rw [h3] at this
      exact (List.mem_filter.1 this).1
  | stmt l h1 h2 h3 h4 h5 ih =>
    intro b b' e' ho
    cases ho with
    | here => exact ⟨_, .here _, .stmt l h1 h2 h3 h4 h5⟩
    | part hp ho =>
      obtain ⟨q, hq, rfl⟩ := mem_snd hp
      exact lift (stmtParts_within (covers_mem h2 (List.mem_map.2 ⟨q, hq, rfl⟩))) (ih q hq ho)
  | declared h1 h2 h3 =>
    intro b b' e' ho
    cases ho with
    | here => exact ⟨_, .here _, .declared h1 h2 h3⟩
    | part hp _ => simp [parts] at hp
  | initialised h1 h2 h3 h4 ih =>
    intro b b' e' ho
    cases ho with
    | here => exact ⟨_, .here _, .initialised h1 h2 h3 h4⟩
    | part hp ho =>
      obtain rfl := List.mem_singleton.1 hp
      exact lift (within_child (child_mem h2)) (ih ho)
  | operator l h1 h2 h3 ih =>
    intro b b' e' ho
    cases ho with
    | here => exact ⟨_, .here _, .operator l h1 h2 h3⟩
    | part hp ho =>
      obtain ⟨q, hq, rfl⟩ := mem_snd hp
      exact lift (operands_within (covers_mem h2 (List.mem_map.2 ⟨q, hq, rfl⟩))) (ih q hq ho)
  | index h1 h2 h3 h4 h5 h6 ih1 ih2 =>
    intro b b' e' ho
    cases ho with
    | here => exact ⟨_, .here _, .index h1 h2 h3 h4 h5 h6⟩
    | part hp ho =>
      simp only [parts, List.mem_cons, List.not_mem_nil, or_false] at hp
      rcases hp with rfl | rfl
      · exact lift (within_child (child_mem h2)) (ih1 ho)
      · exact lift (within_child (child_mem h3)) (ih2 ho)
  | viewAs h1 h2 h3 h4 h5 ih =>
    intro b b' e' ho
    cases ho with
    | here => exact ⟨_, .here _, .viewAs h1 h2 h3 h4 h5⟩
    | part hp ho =>
      obtain rfl := List.mem_singleton.1 hp
      exact lift (within_child (child_mem h2)) (ih ho)
  | field h1 h2 h3 h4 h5 ih =>
    intro b b' e' ho
    cases ho with
    | here => exact ⟨_, .here _, .field h1 h2 h3 h4 h5⟩
    | part hp ho =>
      obtain rfl := List.mem_singleton.1 hp
      exact lift (within_child (child_mem h2)) (ih ho)
  | scope h1 h2 h3 h4 h5 ih =>
    intro b b' e' ho
    cases ho with
    | here => exact ⟨_, .here _, .scope h1 h2 h3 h4 h5⟩
    | part hp ho =>
      obtain rfl := List.mem_singleton.1 hp
      exact lift (within_child (child_mem h2)) (ih ho)
  | new l h1 h2 h3 h4 h5 h6 ih =>
    intro b b' e' ho
    cases ho with
    | here => exact ⟨_, .here _, .new l h1 h2 h3 h4 h5 h6⟩
    | part hp ho =>
      obtain ⟨q, hq, rfl⟩ := mem_snd hp
      exact lift (.child (child_mem h3) (written_within (covers_mem h4 (List.mem_map.2 ⟨q, hq, rfl⟩)))) (ih q hq ho)
  | call l h1 h2 h3 h4 h5 h6 h7 h8 h9 ih1 ih2 =>
    intro b b' e' ho
    cases ho with
    | here => exact ⟨_, .here _, .call l h1 h2 h3 h4 h5 h6 h7 h8 h9⟩
    | part hp ho =>
      rcases List.mem_cons.1 hp with rfl | hp
      · exact lift (within_child (child_mem h2)) (ih1 ho)
      · obtain ⟨q, hq, rfl⟩ := mem_snd hp
        exact lift (.child (child_mem h3) (written_within (covers_mem h6 (List.mem_map.2 ⟨q, hq, rfl⟩)))) (ih2 q hq ho)
  | method l h1 h2 h3 h4 h5 h6 h7 h8 h9 h10 ih1 ih2 =>
    intro b b' e' ho
    cases ho with
    | here => exact ⟨_, .here _, .method l h1 h2 h3 h4 h5 h6 h7 h8 h9 h10⟩
    | part hp ho =>
      rcases List.mem_cons.1 hp with rfl | hp
      · exact lift (.child (child_mem h2) (within_child (child_mem h5))) (ih1 ho)
      · obtain ⟨q, hq, rfl⟩ := mem_snd hp
        exact lift (.child (child_mem h3) (written_within (covers_mem h8 (List.mem_map.2 ⟨q, hq, rfl⟩)))) (ih2 q hq ho)
  | namedArg h1 h2 h3 h4 h5 h6 ih1 ih2 =>
    intro b b' e' ho
    cases ho with
    | here => exact ⟨_, .here _, .namedArg h1 h2 h3 h4 h5 h6⟩
    | part hp ho =>
      obtain rfl := List.mem_singleton.1 hp
      exact lift (within_child (child_mem h3)) (ih2 ho)

section Inversion

variable {strict : Bool} {place : Nat → Nat → Prop} {n : Node} {e : Expr}

theorem reads_ident (h : Reads strict place n e) : ∀ {i : Nat} {x : Name}, e = .ident i x →
    ∃ d, Within n d ∧ d.kind = .ident ∧ d.text = x ∧ place i d.ptr := by
  induction h with
  | ident h1 h2 => rintro _ _ ⟨⟩; exact ⟨_, .here _, h1, rfl, h2⟩
  | paren h1 h2 _ ih => intro i x he; obtain ⟨d, hd, hr⟩ := ih he; exact ⟨d, .child (child_mem h2) hd, hr⟩
  | exprStmt h1 h2 _ ih =>
    intro i x he; obtain ⟨d, hd, hr⟩ := ih he; exact ⟨d, .child (by rw [h2]; exact List.mem_cons_self) hd, hr⟩
  | _ => rintro _ _ ⟨⟩

theorem reads_field (h : Reads strict place n e) : ∀ {i : Nat} {t : Expr} {x : Name}, e = .field i t x →
    ∃ d f, Within n d ∧ d.child .field = some f ∧ f.text = x ∧
      ((d.kind = .fieldAccess ∧ place i f.ptr) ∨ (d.kind = .scopeAccess ∧ place i d.ptr)) := by
  induction h with
  | field h1 h2 h3 h4 h5 _ => rintro _ _ _ ⟨⟩; exact ⟨_, _, .here _, h3, rfl, .inl ⟨h1, h5⟩⟩
  | scope h1 h2 h3 h4 h5 _ => rintro _ _ _ ⟨⟩; exact ⟨_, _, .here _, h3, rfl, .inr ⟨h1, h5⟩⟩
  | paren h1 h2 _ ih => intro i t x he; obtain ⟨d, f, hd, hr⟩ := ih he; exact ⟨d, f, .child (child_mem h2) hd, hr⟩
  | exprStmt h1 h2 _ ih =>
    intro i t x he; obtain ⟨d, f, hd, hr⟩ := ih he; exact ⟨d, f, .child (by rw [h2]; exact List.mem_cons_self) hd, hr⟩
  | _ => rintro _ _ _ ⟨⟩

theorem reads_method (h : Reads strict place n e) : ∀ {i : Nat} {t : Expr} {x : Name} {as : List Expr}, e = .methodCall i t x as →
    ∃ d f m, Within n d ∧ d.kind = .call ∧ d.child .function = some f ∧ f.kind = .fieldAccess ∧ f.child .field = some m ∧ m.text = x ∧
      place i m.ptr := by
  induction h with
  | method l h1 h2 h3 h4 h5 h6 _ _ _ h10 _ _ => rintro _ _ _ _ ⟨⟩; exact ⟨_, _, _, .here _, h1, h2, h4, h6, rfl, h10⟩
  | paren h1 h2 _ ih => intro i t x as he; obtain ⟨d, f, m, hd, hr⟩ := ih he; exact ⟨d, f, m, .child (child_mem h2) hd, hr⟩
  | exprStmt h1 h2 _ ih =>
    intro i t x as he; obtain ⟨d, f, m, hd, hr⟩ := ih he; exact ⟨d, f, m, .child (by rw [h2]; exact List.mem_cons_self) hd, hr⟩
  | _ => rintro _ _ _ _ ⟨⟩

theorem reads_new (h : Reads strict place n e) : ∀ {i : Nat} {x : Name} {as : List Expr}, e = .new i x as →
    ∃ d k, Within n d ∧ d.kind = .new ∧ d.child .cls = some k ∧ k.text = x ∧ place i k.ptr := by
  induction h with
  | new l h1 h2 h3 _ _ h6 _ => rintro _ _ _ ⟨⟩; exact ⟨_, _, .here _, h1, h2, rfl, h6⟩
  | paren h1 h2 _ ih => intro i x as he; obtain ⟨d, k, hd, hr⟩ := ih he; exact ⟨d, k, .child (child_mem h2) hd, hr⟩
  | exprStmt h1 h2 _ ih =>
    intro i x as he; obtain ⟨d, k, hd, hr⟩ := ih he; exact ⟨d, k, .child (by rw [h2]; exact List.mem_cons_self) hd, hr⟩
  | _ => rintro _ _ _ ⟨⟩

theorem identName_some {a : Expr} {x : Name} (h : identName a = some x) : a = .ident a.id x := by
  cases a <;> simp [identName] at h
  subst h; rfl

theorem reads_named (h : Reads strict place n e) : ∀ {i j : Nat} {x : Name} {v : Expr}, e = .namedArg i j (some x) v →
    ∃ d a w, Within n d ∧ d.kind = .namedArg ∧ d.child .argName = some a ∧ Within a w ∧ w.kind = .ident ∧ w.text = x ∧ place j w.ptr := by
  induction h with
  | namedArg h1 h2 h3 h4 _ _ _ _ =>
    intro i j x v he
    simp only [Expr.namedArg.injEq] at he
    obtain ⟨rfl, rfl, hx, rfl⟩ := he
    obtain ⟨w, hw, hk, ht, hp⟩ := reads_ident h4 (identName_some hx)
    exact ⟨_, _, w, .here _, h1, h2, hw, hk, ht, hp⟩
  | paren h1 h2 _ ih => intro i j x v he; obtain ⟨d, a, w, hd, hr⟩ := ih he; exact ⟨d, a, w, .child (child_mem h2) hd, hr⟩
  | exprStmt h1 h2 _ ih =>
    intro i j x v he; obtain ⟨d, a, w, hd, hr⟩ := ih he; exact ⟨d, a, w, .child (by rw [h2]; exact List.mem_cons_self) hd, hr⟩
  | _ => rintro _ _ _ _ ⟨⟩

theorem reads_call (h : Reads strict place n e) : ∀ {i : Nat} {f : Expr} {as : List Expr}, e = .call i f as →
    ∃ d g a, ∃ l : List (Node × Expr), Within n d ∧ d.kind = .call ∧ d.child .function = some g ∧ g.kind = .ident ∧
      d.child .arguments = some a ∧ Reads strict place g f ∧
      as = l.map Prod.snd ∧ Covers strict (l.map Prod.fst) (written a) ∧ (∀ q ∈ l, ∃ w, Within q.1 w ∧ place q.2.id w.ptr) ∧ place i d.ptr := by
  induction h with
  | call l h1 h2 h3 h4 h5 h6 _ h8 h9 _ _ => rintro _ _ _ ⟨⟩; exact ⟨_, _, _, l, .here _, h1, h2, h4, h3, h5, rfl, h6, h8, h9⟩
  | paren h1 h2 _ ih => intro i f as he; obtain ⟨d, g, a, l, hd, hr⟩ := ih he; exact ⟨d, g, a, l, .child (child_mem h2) hd, hr⟩
  | exprStmt h1 h2 _ ih =>
    intro i f as he; obtain ⟨d, g, a, l, hd, hr⟩ := ih he; exact ⟨d, g, a, l, .child (by rw [h2]; exact List.mem_cons_self) hd, hr⟩
  | _ => rintro _ _ _ ⟨⟩

end Inversion

/-! ## Bodies -/

theorem parameter_post {d : Node} (hp : proper d = true) {s s' : State} {r : Option (Name × Nat)} (h : parameter (toLow d) s = some (r, s')) :
    Ext s s' (inner · d) := by
  simp only [parameter, toLow_sub, child_toLows, toLow_ptr] at h
  cases hn : d.child .name with
  | none =>
    simp only [hn, Option.map_none, pure_some] at h
    obtain ⟨-, rfl⟩ := h
    exact (Ext.refl s').mono fun _ => Nat.zero_le _
  | some x =>
    simp only [hn, Option.map_some, bind_some] at h
    obtain ⟨o, s1, ho, o2, s2, h2, h⟩ := h
    obtain ⟨rfl, rfl⟩ := alloc_some.1 h2
    obtain ⟨-, rfl⟩ := pure_some.1 h
    have hx := alloc_ext s1 d.ptr
    cases hv : d.child .initialValue with
    | none =>
      simp only [hv, Option.map_none, collectOpt, pure_some] at ho
      obtain ⟨rfl, rfl⟩ := ho
      exact hx.mono fun p => ptr_inner p d
    | some v =>
      simp only [hv, Option.map_some] at ho
      obtain ⟨e, rfl, he⟩ := collectOpt_some ho
      have g := collect_post (lower_ok false v (fun h => nomatch h) (proper_child hp (child_mem hv))) (fun h => nomatch h) he
      exact (g.ext.trans hx).mono fun p => w1 hv p

theorem parameters_post : ∀ {ds : List Node}, (∀ d ∈ ds, proper d = true) → ∀ {s s' : State} {r : List (Name × Nat)},
    parameters (toLows ds) s = some (r, s') → Ext s s' fun p => weights p ds
  | [], _, s, s', r, h => by
    simp only [toLows, parameters, pure_some] at h
    obtain ⟨-, rfl⟩ := h
    exact Ext.refl _
  | d :: ds, hp, s, s', r, h => by
    simp only [toLows, parameters, bind_some] at h
    obtain ⟨o, s1, h1, es, s2, h2, h3⟩ := h
    obtain ⟨-, rfl⟩ := pure_some.1 h3
    have g := parameter_post (hp d List.mem_cons_self) h1
    have gl := parameters_post (fun m hm => hp m (List.mem_cons_of_mem _ hm)) h2
    refine (g.trans gl).mono fun p => ?_
    have := inner_le p d
    simp only [weights]
    omega

/-- What the parameters weigh. -/
def paramsWeight (params : Option Node) (p : Nat) : Nat := weights p params.toList

theorem paramsPart_post {params : Option Node} (hp : ∀ p ∈ params, proper p = true) {s s' : State} {r : List (Name × Nat)}
    (h : paramsPart params s = some (r, s')) : Ext s s' (paramsWeight params) := by
  cases params with
  | none =>
    simp only [paramsPart, pure_some] at h
    obtain ⟨-, rfl⟩ := h
    exact Ext.refl _
  | some p =>
    have hpp := hp p rfl
    simp only [paramsPart] at h
    cases hk : p.kind <;> simp only [hk] at h
    case paramDecls =>
      rw [filter_toLows _ (fun c => c.kind == .paramDecl) (fun n => by simp)] at h
      refine (parameters_post (fun d hd => proper_child hpp (List.mem_filter.1 hd).1) h).mono fun q => ?_
      have := weights_filter q (fun c => c.kind == .paramDecl) p.children
      have := inner_le q p
      rw [inner] at this
      simp only [paramsWeight, Option.toList_some, weights]
      omega
    case paramDecl =>
      have : [toLow p] = toLows [p] := rfl
      rw [this] at h
      exact parameters_post (fun d hd => by obtain rfl := List.mem_singleton.1 hd; exact hpp) h
    all_goals cases h

/-- The parts of a run on a body. -/
theorem collectBody_some {params : Option Node} {n : Node} (hp : ∀ p ∈ params, proper p = true) {L : Lowered}
    (h : collectBody params (some n) = some L) :
    ∃ s0 e, L.body = some e ∧ Ext {} s0 (paramsWeight params) ∧ collect (toLow n) s0 = some (e, L.map) := by
  simp only [collectBody, Option.map_eq_some_iff] at h
  obtain ⟨⟨⟨ps, o⟩, s⟩, h, rfl⟩ := h
  obtain ⟨ps', s0, h1, h⟩ := bind_some.1 h
  obtain ⟨o', s1, h2, h⟩ := bind_some.1 h
  obtain ⟨h3, rfl⟩ := pure_some.1 h
  cases h3
  simp only [Option.map_some] at h2
  obtain ⟨e, rfl, he⟩ := collectOpt_some h2
  exact ⟨s0, e, rfl, paramsPart_post hp h1, he⟩

/-- Every expression has at most one place. -/
theorem ext_nodup {s : State} {w : Nat → Nat} (h : Ext {} s w) : (s.log.map (·.1)).Nodup := by
  obtain ⟨_, new, h1, _, _, h4⟩ := h
  rw [h1]
  simpa using h4

theorem source_of {s : State} (h : (s.log.map (·.1)).Nodup) {i p : Nat} (hp : At s i p) : s.exprSource i = some p := by
  unfold State.exprSource
  have hp : (i, p) ∈ s.log := hp
  generalize s.log = l at *
  induction l with
  | nil => cases hp
  | cons q l ih =>
    rw [List.map_cons, List.nodup_cons] at h
    rw [List.find?_cons]
    rcases List.mem_cons.1 hp with rfl | hp
    · simp
    · have : (q.1 == i) = false := by
        simp only [beq_eq_false_iff_ne]
        rintro rfl
        exact h.1 (List.mem_map.2 ⟨_, hp, rfl⟩)
      simp only [this]
      exact ih h.2 hp

theorem lastId_mem (id : Nat) : ∀ {as : List Expr}, Infer.lastId id as = id ∧ as = [] ∨ ∃ a, as.getLast? = some a ∧ Infer.lastId id as = a.id
  | [] => .inl ⟨rfl, rfl⟩
  | [a] => .inr ⟨a, rfl, rfl⟩
  | _ :: a :: as => by
    rcases lastId_mem id (as := a :: as) with ⟨_, h⟩ | ⟨x, h1, h2⟩
    · cases h
    · exact .inr ⟨x, by simpa using h1, by simpa [Infer.lastId] using h2⟩

/-- The place that is looked up for an event. -/
def eventPlace (s : State) : Event → Option (List (Event × Nat))
  | .attribute .. | .method .. | .named .. => some []
  | ev@(.unresolvedField i ..) | ev@(.unresolvedMethod i ..) | ev@(.unresolvedConstructor i ..) | ev@(.unresolvedNamed i ..) =>
    (s.exprSource i).map fun p => [(ev, p)]
  | ev@(.arguments d) => (s.exprSource d.expr).map fun p => [(ev, p)]

theorem places_cons (s : State) (ev : Event) (evs : List Event) : places s (ev :: evs) =
    match eventPlace s ev, places s evs with
    | some a, some b => some (a ++ b)
    | _, _ => none := by
  cases ev <;> rfl

theorem places_of {s : State} {P : Event → Nat → Prop} : ∀ {evs : List Event},
    (∀ ev ∈ evs, isFinding ev = true → ∃ p, eventPlace s ev = some [(ev, p)] ∧ P ev p) →
    ∃ ds, places s evs = some ds ∧ ds.map Prod.fst = evs.filter isFinding ∧ ∀ q ∈ ds, P q.1 q.2
  | [], _ => ⟨[], rfl, rfl, fun _ h => nomatch h⟩
  | ev :: evs, h => by
    obtain ⟨ds, h1, h2, h3⟩ := places_of fun e he => h e (List.mem_cons_of_mem _ he)
    rw [places_cons, h1]
    cases hf : isFinding ev with
    | false =>
      have : eventPlace s ev = some [] := by cases ev <;> simp [isFinding] at hf <;> rfl
      rw [this]
      exact ⟨ds, rfl, by rw [List.filter_cons, hf]; exact h2, h3⟩
    | true =>
      obtain ⟨p, hp, hP⟩ := h ev List.mem_cons_self hf
      rw [hp]
      refine ⟨(ev, p) :: ds, rfl, by rw [List.filter_cons, hf]; simp [h2], fun q hq => ?_⟩
      rcases List.mem_cons.1 hq with rfl | hq
      · exact hP
      · exact h3 q hq

/-- Where a finding about an expression of the tree is shown. -/
theorem shown_of {strict : Bool} {s : State} (hs : (s.log.map (·.1)).Nodup) {n : Node} {e : Expr} (hr : Reads strict (At s) n e) {b : Nat} {ev : Event}
    (hw : Within_ b e ev) (hf : isFinding ev = true) : ∃ p, eventPlace s ev = some [(ev, p)] ∧ Shown n ev p := by
  obtain ⟨b', e', ho, ha⟩ := hw
  obtain ⟨d, hd, hr⟩ := occurs_reads hr ho
  cases ev with
  | «attribute» | method | named => simp [isFinding] at hf
  | unresolvedField i t x m =>
    obtain ⟨t', rfl⟩ := ha
    obtain ⟨d', f, hw, hc, rfl, hk⟩ := reads_field hr rfl
    rcases hk with ⟨hk, hp⟩ | ⟨hk, hp⟩
    · exact ⟨f.ptr, by simp [eventPlace, source_of hs hp], .field (within_trans hd hw) hk hc⟩
    · exact ⟨d'.ptr, by simp [eventPlace, source_of hs hp], .scope (within_trans hd hw) hk hc⟩
  | unresolvedMethod i t x m =>
    obtain ⟨t', as, rfl⟩ := ha
    obtain ⟨d', f, m', hw, hk, hc, hfk, hm, rfl, hp⟩ := reads_method hr rfl
    exact ⟨m'.ptr, by simp [eventPlace, source_of hs hp], .method (within_trans hd hw) hk hc hfk hm⟩
  | unresolvedConstructor i x m =>
    obtain ⟨as, rfl⟩ := ha
    obtain ⟨d', k, hw, hk, hc, rfl, hp⟩ := reads_new hr rfl
    exact ⟨k.ptr, by simp [eventPlace, source_of hs hp], .new (within_trans hd hw) hk hc⟩
  | unresolvedNamed i x c =>
    obtain ⟨j, v, rfl⟩ := ha
    obtain ⟨d', a, w, hw, hk, hc, haw, hwk, rfl, hp⟩ := reads_named hr rfl
    exact ⟨w.ptr, by simp [eventPlace, source_of hs hp], .named (within_trans hd hw) hk hc haw hwk⟩
  | arguments dg =>
    obtain ⟨i, f, as, rfl, hl, -⟩ := ha
    obtain ⟨d', g, a, l, hw, hk, -, -, hc, -, has, hcov, hpl, hp⟩ := reads_call hr rfl
    rcases lastId_mem i (as := as) with ⟨h1, -⟩ | ⟨x, h1, h2⟩
    · rw [h1] at hl
      exact ⟨d'.ptr, by simp [eventPlace, hl, source_of hs hp], .call (within_trans hd hw) hk hc (.inl rfl)⟩
    · have hx : x ∈ as := List.mem_of_getLast? h1
      rw [has] at hx
      obtain ⟨q, hq, rfl⟩ := mem_snd hx
      obtain ⟨w, hww, hwp⟩ := hpl q hq
      rw [h2] at hl
      exact ⟨w.ptr, by simp [eventPlace, hl, source_of hs hwp],
        .call (within_trans hd hw) hk hc (.inr ⟨q.1, covers_mem hcov (List.mem_map.2 ⟨q, hq, rfl⟩), w, hww, rfl⟩)⟩

/-! ### C70: findings are shown at the code they are about -/

/-- **Findings about a body are shown at the code they are about.** Whatever the tree of a body is, with or without errors, whatever
the declarations it is analysed with: if the body can be lowered, each diagnostic of type inference has a place (looking it up does not
panic), and that place is the name of the member, class or argument the diagnostic is about, or the call and its arguments. -/
theorem findings_shown (env : Env) (b : Nat) {params : Option Node} {n : Node} (hn : proper n = true) (hp : ∀ p ∈ params, proper p = true)
    {L : Lowered} (h : collectBody params (some n) = some L) :
    ∃ e ds, L.body = some e ∧ places L.map (events env b e) = some ds ∧ ds.map Prod.fst = (events env b e).filter isFinding ∧
      ∀ q ∈ ds, Shown n q.1 q.2 := by
  obtain ⟨s0, e, hb, hx, hc⟩ := collectBody_some hp h
  have g := collect_post (lower_ok false n (fun h => nomatch h) hn) (fun h => nomatch h) hc
  have hs := ext_nodup (hx.trans g.ext)
  obtain ⟨ds, h1, h2, h3⟩ := places_of (s := L.map) (evs := events env b e) (P := Shown n)
    fun ev hev hf => shown_of hs g.reads (infer_about b none e hev) hf
  exact ⟨e, ds, hb, h1, h2, h3⟩

/-- Bodies as they are made from trees have distinct numbers, as the theorems about inference demand. -/
theorem lowered_distinct {params : Option Node} {n : Node} (hn : proper n = true) (hp : ∀ p ∈ params, proper p = true)
    {L : Lowered} (h : collectBody params (some n) = some L) : ∃ e, L.body = some e ∧ ∀ b, Distinct b e ∧ NamesDistinct b e := by
  obtain ⟨s0, e, hb, hx, hc⟩ := collectBody_some hp h
  have g := collect_post (lower_ok false n (fun h => nomatch h) hn) (fun h => nomatch h) hc
  exact ⟨e, hb, fun b => ⟨distinct_ids g.fresh.1 b, namesDistinct_ids g.fresh.1 b⟩⟩

/-! ## Every call and access of a clean tree is there -/

section Complete

variable {place : Nat → Nat → Prop}

/-- The node `d` of `n` is read by an expression in `e`, on its own or as the function of a call. -/
def Sees (place : Nat → Nat → Prop) (b : Nat) (n : Node) (e : Expr) (d : Node) : Prop :=
  (∃ b' e', Occurs b e b' e' ∧ Reads true place d e') ∨
  (∃ c b' e', Within n c ∧ c.kind = .call ∧ c.child .function = some d ∧ Occurs b e b' e' ∧ Reads true place c e')

def Cov (place : Nat → Nat → Prop) (n : Node) (e : Expr) : Prop := ∀ b d, Within n d → isCode d.kind = true → Sees place b n e d

/-- What is in the node `x` is seen from `n`. -/
def Covered (place : Nat → Nat → Prop) (n : Node) (e : Expr) (x : Node) : Prop :=
  ∀ b d, Within x d → isCode d.kind = true → Sees place b n e d

theorem cov_of {n : Node} {e : Expr} (hr : Reads true place n e) (h : ∀ x ∈ n.children, Covered place n e x) : Cov place n e := by
  intro b d hw hk
  cases hw with
  | here => exact .inl ⟨b, e, .here b e, hr⟩
  | child hc hw => exact h _ hc b d hw hk

theorem covered_inert {n : Node} {e : Expr} {x : Node} (h : inert x = true) : Covered place n e x := by
  intro b d hw hk
  rw [inert_within h hw] at hk
  cases hk

theorem covered_same {n : Node} {e : Expr} {x : Node} (hx : Within n x) (h : Cov place x e) : Covered place n e x := by
  intro b d hw hk
  rcases h b d hw hk with h | ⟨c, b', e', hc, hr⟩
  · exact .inl h
  · exact .inr ⟨c, b', e', within_trans hx hc, hr⟩

theorem covered_part {n : Node} {e : Expr} {x : Node} (hx : Within n x) {p : Expr} (hp : p ∈ parts e) (h : Cov place x p) :
    Covered place n e x := by
  intro b d hw hk
  rcases h (inside b e) d hw hk with ⟨b', e', ho, hr⟩ | ⟨c, b', e', hc, h1, h2, ho, hr⟩
  · exact .inl ⟨b', e', .part hp ho, hr⟩
  · exact .inr ⟨c, b', e', within_trans hx hc, h1, h2, .part hp ho, hr⟩

theorem covered_down {n : Node} {e : Expr} {x : Node} (hk : isCode x.kind = false) (h : ∀ y ∈ x.children, Covered place n e y) :
    Covered place n e x := by
  intro b d hw hd
  cases hw with
  | here => rw [hk] at hd; cases hd
  | child hc hw => exact h _ hc b d hw hd

theorem blank_inert {x : Node} (hc : clean x = true) (hb : blank x = true) : inert x = true := by
  have hs := ((clean_iff x).1 hc).1
  simp only [blank, Bool.or_eq_true, Bool.and_eq_true, beq_iff_eq, Option.isNone_iff_eq_none] at hb
  rw [inert_iff]
  rcases hb with (hb | hb) | ⟨hb, hx⟩
  · simp only [shape, hb, List.all_eq_true] at hs
    exact ⟨by rw [hb]; rfl, hs⟩
  · simp only [shape, hb, List.all_eq_true] at hs
    exact ⟨by rw [hb]; rfl, hs⟩
  · simp only [shape, hb, Bool.and_eq_true, onlyFields, List.all_eq_true] at hs
    refine ⟨by rw [hb]; rfl, fun c hm => ?_⟩
    have := hs.2 c hm
    simp only [List.any_cons, List.any_nil, Bool.or_false, Bool.or_eq_true, beq_iff_eq] at this
    rcases this with this | this
    · rw [Node.child, List.find?_eq_none] at hx
      exact absurd this (by simpa using hx c hm)
    · exact this

theorem only {n : Node} {fs : List Field} (h : onlyFields n fs = true) {x : Node} (hx : x ∈ n.children) :
    (∃ f ∈ fs, x.field = some f) ∨ inert x = true := by
  simp only [onlyFields, List.all_eq_true, Bool.or_eq_true, List.any_eq_true, beq_iff_eq] at h
  exact h x hx

theorem exactly_eq {n : Node} {f : Field} {P : Node → Bool} (h : exactly n f P = true) {c x : Node} (hc : n.child f = some c)
    (hx : x ∈ n.children) (hf : x.field = some f) : x = c := by
  obtain ⟨c', h1, _, h3⟩ := exactly_some h
  rw [hc] at h1
  cases h1
  exact h3 x hx hf

theorem child_of_field {n x : Node} {f : Field} (hx : x ∈ n.children) (hf : x.field = some f) : ∃ c, n.child f = some c := by
  cases h : n.child f with
  | some c => exact ⟨c, rfl⟩
  | none =>
    rw [Node.child, List.find?_eq_none] at h
    exact absurd hf (by simpa using h x hx)

theorem pairs {P : Node → Expr → Prop} {l : List (Node × Expr)} (h : ∀ q ∈ l, P q.1 q.2) {x : Node} (hx : x ∈ l.map Prod.fst) :
    ∃ p ∈ l.map Prod.snd, P x p := by
  obtain ⟨q, hq, rfl⟩ := List.mem_map.1 hx
  exact ⟨q.2, List.mem_map.2 ⟨q, hq, rfl⟩, h q hq⟩

theorem args_covered {n a : Node} {e : Expr} {l : List (Node × Expr)} (ha : Within n a) (hca : clean a = true) (hk : a.kind = .callArgs)
    (hcov : l.map Prod.fst = written a) (hsub : ∀ p ∈ l.map Prod.snd, p ∈ parts e) (ih : ∀ q ∈ l, clean q.1 = true → Cov place q.1 q.2) :
    Covered place n e a := by
  refine covered_down (by rw [hk]; rfl) fun y hy => ?_
  have hcy := ((clean_iff a).1 hca).2 y hy
  cases hb : blank y with
  | true => exact covered_inert (blank_inert hcy hb)
  | false =>
    have hm : y ∈ l.map Prod.fst := by rw [hcov]; exact List.mem_filter.2 ⟨hy, by simp [hb]⟩
    obtain ⟨p, hp, h⟩ := pairs (P := fun x p => clean x = true → Cov place x p) ih hm
    exact covered_part (within_trans ha (within_child hy)) (hsub p hp) (h hcy)

theorem reads_cov {n : Node} {e : Expr} (h : Reads true place n e) : clean n = true → Cov place n e := by
  induction h with
  | missing h =>
    rcases h with h | h
    · cases h
    · intro hc b d hw hk
      rw [inert_within (blank_inert hc h) hw] at hk
      cases hk
  | ident h1 h2 =>
    intro hc
    have hs := ((clean_iff _).1 hc).1
    simp only [shape, h1, List.all_eq_true] at hs
    exact cov_of (.ident h1 h2) fun x hx => covered_inert (hs x hx)
  | @literal n id t h1 h2 =>
    intro hc
    have hs := ((clean_iff _).1 hc).1
    refine cov_of (.literal h1 h2) fun x hx => covered_inert ?_
    cases hk : n.kind <;> rw [hk] at h1 <;> simp only [Spec.literal] at h1 <;> (try cases h1) <;>
      simp only [shape, hk, Bool.and_eq_true, List.all_eq_true] at hs <;> first | exact hs x hx | exact hs.2 x hx
  | paren h1 h2 h3 ih =>
    intro hc
    have hs := ((clean_iff _).1 hc).1
    simp only [shape, h1, Bool.and_eq_true] at hs
    refine cov_of (.paren h1 h2 h3) fun x hx => ?_
    rcases only hs.2 hx with ⟨f, hf, hxf⟩ | hi
    · obtain rfl := List.mem_singleton.1 hf
      obtain rfl := exactly_eq hs.1 h2 hx hxf
      exact covered_same (within_child hx) (ih (((clean_iff _).1 hc).2 _ hx))
    · exact covered_inert hi
  | @exprStmt n c cs e h1 h2 h3 ih =>
    intro hc
    have hs := ((clean_iff _).1 hc).1
    simp only [shape, h1, h2, Bool.and_eq_true, List.all_eq_true] at hs
    refine cov_of (.exprStmt h1 h2 h3) fun x hx => ?_
    have hx' := hx
    rw [h2] at hx
    rcases List.mem_cons.1 hx with rfl | hx
    · exact covered_same (within_child hx') (ih (((clean_iff _).1 hc).2 _ hx'))
    · exact covered_inert (hs.2 x hx)
  | @block n id l h1 h2 h3 h4 ih =>
    intro hc
    have hs := ((clean_iff _).1 hc).1
    simp only [shape, h1, List.all_eq_true] at hs
    refine cov_of (.block l h1 h2 h3 h4) fun x hx => ?_
    have hcx := ((clean_iff _).1 hc).2 x hx
    by_cases hb : x.kind = .brace
    · exact covered_inert (blank_inert hcx (by simp [blank, hb]))
    · have hm : x ∈ l.map Prod.fst := by rw [h3]; exact List.mem_filter.2 ⟨hx, by simp [hb]⟩
      obtain ⟨p, hp, h⟩ := pairs (P := fun x p => clean x = true → Cov place x p) ih hm
      exact covered_part (within_child hx) hp (h hcx)
  | @stmt n id l h1 h2 h3 h4 h5 ih =>
    intro hc
    have hs := ((clean_iff _).1 hc).1
    have h2' : l.map Prod.fst = stmtParts n := h2
    have part : ∀ x, x ∈ stmtParts n → clean x = true → Covered place n (.seq id (l.map Prod.snd)) x := by
      intro x hx hcx
      have hw := stmtParts_within hx
      rw [← h2'] at hx
      obtain ⟨p, hp, h⟩ := pairs (P := fun x p => clean x = true → Cov place x p) ih hx
      exact covered_part hw hp (h hcx)
    refine cov_of (.stmt l h1 h2 h3 h4 h5) fun x hx => ?_
    have hcx := ((clean_iff _).1 hc).2 x hx
    cases hk : n.kind <;> rw [hk] at h1 <;> simp only [isStmt, Bool.false_eq_true] at h1 <;> simp only [shape, hk] at hs
    case varDeclStmt =>
      simp only [List.all_eq_true, Bool.or_eq_true, beq_iff_eq] at hs
      rcases hs x hx with h | h
      · exact part x (by simp [stmtParts, hk, hx, h]) hcx
      · exact covered_inert h
    case oldVarDeclStmt =>
      simp only [List.all_eq_true, Bool.or_eq_true, beq_iff_eq] at hs
      rcases hs x hx with h | h
      · exact part x (by simp [stmtParts, hk, hx, h]) hcx
      · exact covered_inert h
    case for_ =>
      simp only [Bool.and_eq_true] at hs
      rcases only hs.2 hx with ⟨f, hf, hxf⟩ | hi
      · simp only [List.mem_cons, List.not_mem_nil, or_false] at hf
        rcases hf with rfl | rfl | rfl | rfl
        · exact part x (by simp [stmtParts, hk, hx, hxf]) hcx
        · obtain ⟨c, hcc, _, hu⟩ := exactly_some hs.1.1.1.2
          obtain rfl := hu x hx hxf
          exact part x (by simp [stmtParts, hk, hcc]) hcx
        · obtain ⟨c, hcc, _, hu⟩ := exactly_some hs.1.1.2
          obtain rfl := hu x hx hxf
          exact part x (by simp [stmtParts, hk, hcc]) hcx
        · obtain ⟨c, hcc, _, hu⟩ := exactly_some hs.1.2
          obtain rfl := hu x hx hxf
          exact part x (by simp [stmtParts, hk, hcc]) hcx
      · exact covered_inert hi
    case while_ =>
      simp only [Bool.and_eq_true] at hs
      rcases only hs.2 hx with ⟨f, hf, hxf⟩ | hi
      · simp only [List.mem_cons, List.not_mem_nil, or_false] at hf
        rcases hf with rfl | rfl
        · obtain ⟨c, hcc, _, hu⟩ := exactly_some hs.1.1
          obtain rfl := hu x hx hxf
          exact part x (by simp [stmtParts, hk, hcc]) hcx
        · obtain ⟨c, hcc, _, hu⟩ := exactly_some hs.1.2
          obtain rfl := hu x hx hxf
          exact part x (by simp [stmtParts, hk, hcc]) hcx
      · exact covered_inert hi
    case jump =>
      simp only [List.all_eq_true] at hs
      exact covered_inert (hs x hx)
    case condition =>
      simp only [Bool.and_eq_true] at hs
      rcases only hs.2 hx with ⟨f, hf, hxf⟩ | hi
      · simp only [List.mem_cons, List.not_mem_nil, or_false] at hf
        rcases hf with rfl | rfl | rfl
        · obtain ⟨c, hcc, _, hu⟩ := exactly_some hs.1.1.1
          obtain rfl := hu x hx hxf
          exact part x (by simp [stmtParts, hk, hcc]) hcx
        · obtain ⟨c, hcc, _, hu⟩ := exactly_some hs.1.1.2
          obtain rfl := hu x hx hxf
          exact part x (by simp [stmtParts, hk, hcc]) hcx
        · obtain ⟨c, hcc⟩ := child_of_field hx hxf
          obtain rfl := (atMost_some hs.1.2 hcc).2 x hx hxf
          exact part x (by simp [stmtParts, hk, hcc]) hcx
      · exact covered_inert hi
    case switch =>
      simp only [Bool.and_eq_true, List.all_eq_true, Bool.or_eq_true, beq_iff_eq] at hs
      rcases hs.2 x hx with (hxf | hxk) | hi
      · obtain ⟨c, hcc, _, hu⟩ := exactly_some hs.1
        obtain rfl := hu x hx hxf
        exact part x (by simp [stmtParts, hk, hcc]) hcx
      · refine covered_down (by rw [hxk]; rfl) fun y hy => ?_
        have hsx := ((clean_iff _).1 hcx).1
        have hcy := ((clean_iff _).1 hcx).2 y hy
        simp only [shape, hxk, Bool.and_eq_true] at hsx
        rcases only hsx.2 hy with ⟨f, hf, hyf⟩ | hi
        · simp only [List.mem_cons, List.not_mem_nil, or_false] at hf
          rcases hf with rfl | rfl
          · refine part y ?_ hcy
            simp only [stmtParts, hk]
            refine List.mem_append_right _ (List.mem_flatMap.2 ⟨x, List.mem_filter.2 ⟨hx, by simp [hxk]⟩, ?_⟩)
            exact List.mem_append_left _ (List.mem_filter.2 ⟨hy, by simp [hyf]⟩)
          · obtain ⟨c, hcc, _, hu⟩ := exactly_some hsx.1.2
            obtain rfl := hu y hy hyf
            refine part y ?_ hcy
            simp only [stmtParts, hk]
            refine List.mem_append_right _ (List.mem_flatMap.2 ⟨x, List.mem_filter.2 ⟨hx, by simp [hxk]⟩, ?_⟩)
            exact List.mem_append_right _ (by rw [hcc]; simp)
        · exact covered_inert hi
      · exact covered_inert hi
    case return_ =>
      simp only [Bool.and_eq_true] at hs
      rcases only hs.2 hx with ⟨f, hf, hxf⟩ | hi
      · obtain rfl := List.mem_singleton.1 hf
        obtain ⟨c, hcc⟩ := child_of_field hx hxf
        obtain rfl := (atMost_some hs.1 hcc).2 x hx hxf
        exact part x (by simp [stmtParts, hk, hcc]) hcx
      · exact covered_inert hi
    case delete =>
      simp only [Bool.and_eq_true] at hs
      rcases only hs.2 hx with ⟨f, hf, hxf⟩ | hi
      · obtain rfl := List.mem_singleton.1 hf
        obtain ⟨c, hcc, _, hu⟩ := exactly_some hs.1
        obtain rfl := hu x hx hxf
        exact part x (by simp [stmtParts, hk, hcc]) hcx
      · exact covered_inert hi
  | @declared n id t h1 h2 h3 =>
    intro hc
    have hs := ((clean_iff _).1 hc).1
    have hs : onlyFields n [.initialValue] = true := by
      rcases h1 with h1 | h1 <;> simp only [shape, h1, Bool.and_eq_true] at hs <;> exact hs.2
    refine cov_of (.declared h1 h2 h3) fun x hx => ?_
    rcases only hs hx with ⟨f, hf, hxf⟩ | hi
    · obtain rfl := List.mem_singleton.1 hf
      obtain ⟨c, hcc⟩ := child_of_field hx hxf
      rw [h2] at hcc; cases hcc
    · exact covered_inert hi
  | @initialised n v id e t h1 h2 h3 h4 ih =>
    intro hc
    have hs := ((clean_iff _).1 hc).1
    have hs : atMost n .initialValue readable = true ∧ onlyFields n [.initialValue] = true := by
      rcases h1 with h1 | h1 <;> simp only [shape, h1, Bool.and_eq_true] at hs <;> exact ⟨hs.1.2, hs.2⟩
    refine cov_of (.initialised h1 h2 h3 h4) fun x hx => ?_
    rcases only hs.2 hx with ⟨f, hf, hxf⟩ | hi
    · obtain rfl := List.mem_singleton.1 hf
      obtain rfl := (atMost_some hs.1 h2).2 x hx hxf
      exact covered_part (within_child hx) (by simp [parts]) (ih (((clean_iff _).1 hc).2 x hx))
    · exact covered_inert hi
  | @operator n id l h1 h2 h3 ih =>
    intro hc
    have hs := ((clean_iff _).1 hc).1
    have h2' : l.map Prod.fst = operands n := h2
    have part : ∀ x, x ∈ operands n → clean x = true → Covered place n (.last id (l.map Prod.snd)) x := by
      intro x hx hcx
      have hw := operands_within hx
      rw [← h2'] at hx
      obtain ⟨p, hp, h⟩ := pairs (P := fun x p => clean x = true → Cov place x p) ih hx
      exact covered_part hw hp (h hcx)
    refine cov_of (.operator l h1 h2 h3) fun x hx => ?_
    have hcx := ((clean_iff _).1 hc).2 x hx
    cases hk : n.kind <;> rw [hk] at h1 <;> simp only [isOperator, Bool.false_eq_true] at h1 <;> simp only [shape, hk] at hs
    case comma => exact part x (by simp [operands, hk, hx]) hcx
    case arrayLit =>
      cases hb : blank x with
      | true => exact covered_inert (blank_inert hcx hb)
      | false => exact part x (by simp only [operands, hk]; exact List.mem_filter.2 ⟨hx, by simp [hb]⟩) hcx
    case binary =>
      simp only [Bool.and_eq_true] at hs
      rcases only hs.2 hx with ⟨f, hf, hxf⟩ | hi
      · simp only [List.mem_cons, List.not_mem_nil, or_false] at hf
        rcases hf with rfl | rfl
        · obtain ⟨c, hcc, _, hu⟩ := exactly_some hs.1.1
          obtain rfl := hu x hx hxf
          exact part x (by simp [operands, hk, hcc]) hcx
        · obtain ⟨c, hcc, _, hu⟩ := exactly_some hs.1.2
          obtain rfl := hu x hx hxf
          exact part x (by simp [operands, hk, hcc]) hcx
      · exact covered_inert hi
    case ternary =>
      simp only [Bool.and_eq_true] at hs
      rcases only hs.2 hx with ⟨f, hf, hxf⟩ | hi
      · simp only [List.mem_cons, List.not_mem_nil, or_false] at hf
        rcases hf with rfl | rfl | rfl
        · obtain ⟨c, hcc, _, hu⟩ := exactly_some hs.1.1.1
          obtain rfl := hu x hx hxf
          exact part x (by simp [operands, hk, hcc]) hcx
        · obtain ⟨c, hcc, _, hu⟩ := exactly_some hs.1.1.2
          obtain rfl := hu x hx hxf
          exact part x (by simp [operands, hk, hcc]) hcx
        · obtain ⟨c, hcc, _, hu⟩ := exactly_some hs.1.2
          obtain rfl := hu x hx hxf
          exact part x (by simp [operands, hk, hcc]) hcx
      · exact covered_inert hi
    case unary =>
      simp only [Bool.and_eq_true] at hs
      rcases only hs.2 hx with ⟨f, hf, hxf⟩ | hi
      · obtain rfl := List.mem_singleton.1 hf
        obtain ⟨c, hcc, _, hu⟩ := exactly_some hs.1
        obtain rfl := hu x hx hxf
        exact part x (by simp [operands, hk, hcc]) hcx
      · exact covered_inert hi
    case sizeof =>
      simp only [Bool.and_eq_true] at hs
      rcases only hs.2 hx with ⟨f, hf, hxf⟩ | hi
      · obtain rfl := List.mem_singleton.1 hf
        obtain ⟨c, hcc, _, hu⟩ := exactly_some hs.1
        obtain rfl := hu x hx hxf
        exact part x (by simp [operands, hk, hcc]) hcx
      · exact covered_inert hi
  | index h1 h2 h3 h4 h5 h6 ih1 ih2 =>
    intro hc
    have hs := ((clean_iff _).1 hc).1
    simp only [shape, h1, Bool.and_eq_true] at hs
    refine cov_of (.index h1 h2 h3 h4 h5 h6) fun x hx => ?_
    have hcx := ((clean_iff _).1 hc).2 x hx
    rcases only hs.2 hx with ⟨f, hf, hxf⟩ | hi
    · simp only [List.mem_cons, List.not_mem_nil, or_false] at hf
      rcases hf with rfl | rfl
      · obtain rfl := exactly_eq hs.1.1 h2 hx hxf
        exact covered_part (within_child hx) (by simp [parts]) (ih1 hcx)
      · obtain rfl := exactly_eq hs.1.2 h3 hx hxf
        exact covered_part (within_child hx) (by simp [parts]) (ih2 hcx)
    · exact covered_inert hi
  | viewAs h1 h2 h3 h4 h5 ih =>
    intro hc
    have hs := ((clean_iff _).1 hc).1
    simp only [shape, h1, Bool.and_eq_true] at hs
    refine cov_of (.viewAs h1 h2 h3 h4 h5) fun x hx => ?_
    rcases only hs.2 hx with ⟨f, hf, hxf⟩ | hi
    · obtain rfl := List.mem_singleton.1 hf
      obtain rfl := exactly_eq hs.1.1 h2 hx hxf
      exact covered_part (within_child hx) (by simp [parts]) (ih (((clean_iff _).1 hc).2 _ hx))
    · exact covered_inert hi
  | field h1 h2 h3 h4 h5 ih =>
    intro hc
    have hs := ((clean_iff _).1 hc).1
    simp only [shape, h1, Bool.and_eq_true] at hs
    refine cov_of (.field h1 h2 h3 h4 h5) fun x hx => ?_
    rcases only hs.2 hx with ⟨f, hf, hxf⟩ | hi
    · obtain rfl := List.mem_singleton.1 hf
      obtain rfl := exactly_eq hs.1.1 h2 hx hxf
      exact covered_part (within_child hx) (by simp [parts]) (ih (((clean_iff _).1 hc).2 _ hx))
    · exact covered_inert hi
  | scope h1 h2 h3 h4 h5 ih =>
    intro hc
    have hs := ((clean_iff _).1 hc).1
    simp only [shape, h1, Bool.and_eq_true] at hs
    refine cov_of (.scope h1 h2 h3 h4 h5) fun x hx => ?_
    rcases only hs.2 hx with ⟨f, hf, hxf⟩ | hi
    · obtain rfl := List.mem_singleton.1 hf
      obtain rfl := exactly_eq hs.1.1 h2 hx hxf
      exact covered_part (within_child hx) (by simp [parts]) (ih (((clean_iff _).1 hc).2 _ hx))
    · exact covered_inert hi
  | new l h1 h2 h3 h4 h5 h6 ih =>
    intro hc
    have hs := ((clean_iff _).1 hc).1
    simp only [shape, h1, Bool.and_eq_true] at hs
    refine cov_of (.new l h1 h2 h3 h4 h5 h6) fun x hx => ?_
    rcases only hs.2 hx with ⟨f, hf, hxf⟩ | hi
    · obtain rfl := List.mem_singleton.1 hf
      obtain rfl := exactly_eq hs.1.2 h3 hx hxf
      have hk := exactly_at hs.1.2 h3
      exact args_covered (within_child hx) (((clean_iff _).1 hc).2 _ hx) (by simpa using hk) h4 (fun p hp => hp) ih
    · exact covered_inert hi
  | call l h1 h2 h3 h4 h5 h6 h7 h8 h9 ih1 ih2 =>
    intro hc
    have hs := ((clean_iff _).1 hc).1
    simp only [shape, h1, Bool.and_eq_true] at hs
    refine cov_of (.call l h1 h2 h3 h4 h5 h6 h7 h8 h9) fun x hx => ?_
    have hcx := ((clean_iff _).1 hc).2 x hx
    rcases only hs.2 hx with ⟨f, hf, hxf⟩ | hi
    · simp only [List.mem_cons, List.not_mem_nil, or_false] at hf
      rcases hf with rfl | rfl
      · obtain rfl := exactly_eq hs.1.1 h2 hx hxf
        exact covered_part (within_child hx) (by simp [parts]) (ih1 hcx)
      · obtain rfl := exactly_eq hs.1.2 h3 hx hxf
        have hk := exactly_at hs.1.2 h3
        exact args_covered (within_child hx) hcx (by simpa using hk) h6 (fun p hp => List.mem_cons_of_mem _ hp) ih2
    · exact covered_inert hi
  | @method n f t m a id e l h1 h2 h3 h4 h5 h6 h7 h8 h9 h10 ih1 ih2 =>
    intro hc
    have hs := ((clean_iff _).1 hc).1
    simp only [shape, h1, Bool.and_eq_true] at hs
    have hr : Reads true place n (.methodCall id e m.text (l.map Prod.snd)) := .method l h1 h2 h3 h4 h5 h6 h7 h8 h9 h10
    refine cov_of hr fun x hx => ?_
    have hcx := ((clean_iff _).1 hc).2 x hx
    rcases only hs.2 hx with ⟨g, hf, hxf⟩ | hi
    · simp only [List.mem_cons, List.not_mem_nil, or_false] at hf
      rcases hf with rfl | rfl
      · obtain rfl := exactly_eq hs.1.1 h2 hx hxf
        have hsx := ((clean_iff _).1 hcx).1
        simp only [shape, h4, Bool.and_eq_true] at hsx
        intro b d hw hk
        cases hw with
        | here => exact .inr ⟨n, b, _, .here n, h1, h2, .here b _, hr⟩
        | child hy hw =>
          rcases only hsx.2 hy with ⟨g, hf, hyf⟩ | hi
          · obtain rfl := List.mem_singleton.1 hf
            obtain rfl := exactly_eq hsx.1.1 h5 hy hyf
            exact covered_part (.child hx (within_child hy)) (by simp [parts]) (ih1 (((clean_iff _).1 hcx).2 _ hy)) b d hw hk
          · exact covered_inert hi b d hw hk
      · obtain rfl := exactly_eq hs.1.2 h3 hx hxf
        have hk := exactly_at hs.1.2 h3
        exact args_covered (within_child hx) hcx (by simpa using hk) h8 (fun p hp => List.mem_cons_of_mem _ hp) ih2
    · exact covered_inert hi
  | namedArg h1 h2 h3 h4 h5 h6 ih1 ih2 =>
    intro hc
    have hs := ((clean_iff _).1 hc).1
    simp only [shape, h1, Bool.and_eq_true] at hs
    refine cov_of (.namedArg h1 h2 h3 h4 h5 h6) fun x hx => ?_
    have hcx := ((clean_iff _).1 hc).2 x hx
    rcases only hs.2 hx with ⟨f, hf, hxf⟩ | hi
    · simp only [List.mem_cons, List.not_mem_nil, or_false] at hf
      rcases hf with rfl | rfl
      · obtain rfl := exactly_eq hs.1.1 h2 hx hxf
        have hk := exactly_at hs.1.1 h2
        simp only [beq_iff_eq] at hk
        have hsx := ((clean_iff _).1 hcx).1
        simp only [shape, hk, List.all_eq_true] at hsx
        exact covered_down (by rw [hk]; rfl) fun y hy => covered_inert (hsx y hy)
      · obtain rfl := exactly_eq hs.1.2 h3 hx hxf
        exact covered_part (within_child hx) (by simp [parts]) (ih2 hcx)
    · exact covered_inert hi

end Complete

/-! ## From a name to its expression -/

theorem ptr_mem {n d : Node} (h : Within n d) : d.ptr ∈ ptrs n := by
  induction h with
  | here n => cases n; simp [ptrs, Node.ptr]
  | @child n c d hc _ ih =>
    cases n
    simp only [ptrs, ptrsAll_eq, List.mem_cons, List.mem_flatMap]
    exact .inr ⟨c, hc, ih⟩

theorem weight_zero {p : Nat} {n : Node} (h : p ∉ ptrs n) : weight p n = 0 := by
  cases hw : weight p n with
  | zero => rfl
  | succ k =>
    obtain ⟨d, hd, rfl⟩ := mem_weight (p := p) (n := n) (by omega)
    exact absurd (ptr_mem hd) h

theorem weights_zero {p : Nat} : ∀ {ns : List Node}, p ∉ ptrsAll ns → weights p ns = 0
  | [], _ => rfl
  | n :: ns, h => by
    simp only [ptrsAll, List.mem_append, not_or] at h
    simp [weights, weight_zero h.1, weights_zero h.2]

theorem weights_one {p : Nat} {c : Node} : ∀ {ns : List Node}, (ptrsAll ns).Nodup → c ∈ ns → p ∈ ptrs c → weights p ns = weight p c
  | n :: ns, hn, hc, hp => by
    simp only [ptrsAll, List.nodup_append] at hn
    rcases List.mem_cons.1 hc with rfl | hc
    · have : p ∉ ptrsAll ns := fun h => hn.2.2 p hp p h rfl
      simp [weights, weights_zero this]
    · have hpa : p ∈ ptrsAll ns := by rw [ptrsAll_eq, List.mem_flatMap]; exact ⟨c, hc, hp⟩
      have : p ∉ ptrs n := fun h => hn.2.2 p h p hpa rfl
      simp [weights, weight_zero this, weights_one hn.2.1 hc hp]

theorem nodup_child {c : Node} : ∀ {ns : List Node}, (ptrsAll ns).Nodup → c ∈ ns → (ptrs c).Nodup
  | n :: ns, hn, hc => by
    simp only [ptrsAll, List.nodup_append] at hn
    rcases List.mem_cons.1 hc with rfl | hc
    · exact hn.1
    · exact nodup_child hn.2.1 hc

theorem weight_one {n d : Node} (h : Within n d) (hn : (ptrs n).Nodup) (hf : isOperand d.field = false) : weight d.ptr n = 1 := by
  induction h with
  | here n =>
    cases n
    simp only [ptrs, List.nodup_cons] at hn
    rw [weight_eq]
    simp only [Node.ptr, Node.children, Node.field] at *
    simp [hf, one, weights_zero hn.1]
  | @child n c d hc hw ih =>
    obtain ⟨fl, pt, kd, tx, ty, cs⟩ := n
    simp only [ptrs, List.nodup_cons] at hn
    simp only [Node.children] at hc
    have hpm : d.ptr ∈ ptrsAll cs := by rw [ptrsAll_eq, List.mem_flatMap]; exact ⟨c, hc, ptr_mem hw⟩
    have hne : pt ≠ d.ptr := fun h => hn.1 (h ▸ hpm)
    rw [weight_eq]
    simp only [Node.ptr, Node.children, Node.field] at *
    have hcn : (ptrs c).Nodup := nodup_child hn.2 hc
    have : weights d.ptr cs = weight d.ptr c := weights_one hn.2 hc (ptr_mem hw)
    have hi := ih hcn hf
    simp only [Node.ptr] at hi this hne
    simp [one, hne, this, hi]

theorem nodeExpr_of {s : State} {i p : Nat} (h : At s i p) (hc : cnt p s.log ≤ 1) : s.nodeExpr p = some i := by
  unfold State.nodeExpr
  have h : (i, p) ∈ s.log := h
  generalize s.log = l at *
  induction l with
  | nil => cases h
  | cons q l ih =>
    rw [List.find?_cons]
    simp only [cnt, List.countP_cons] at hc
    rcases List.mem_cons.1 h with rfl | h
    · simp
    · have hpos : 0 < l.countP (·.2 == p) := List.countP_pos_iff.2 ⟨_, h, by simp⟩
      have : (q.2 == p) = false := by
        cases hq : q.2 == p with
        | false => rfl
        | true => rw [hq, if_pos rfl] at hc; omega
      simp only [this]
      refine ih ?_ h
      unfold cnt
      omega

/-- What is known after lowering a clean body. -/
structure CleanRun (params : Option Node) (n : Node) (L : Lowered) (e : Expr) : Prop where
  body : L.body = some e
  reads : Reads true (At L.map) n e
  node : ∀ d i, Within n d → isOperand d.field = false → At L.map i d.ptr → L.map.nodeExpr d.ptr = some i
  ids : (ids e).Nodup

theorem clean_run {params : Option Node} {n : Node} (hn : proper n = true) (hc : clean n = true) (hr : readableOrBlank n = true)
    (hp : ∀ p ∈ params, proper p = true) (hd : (ptrsAll params.toList ++ ptrs n).Nodup) {L : Lowered}
    (h : collectBody params (some n) = some L) : ∃ e, CleanRun params n L e := by
  obtain ⟨s0, e, hb, hx, hcol⟩ := collectBody_some hp h
  have g := collect_post (lower_ok true n (fun _ => hc) hn) (fun _ => hr) hcol
  refine ⟨e, hb, g.reads, fun d i hw hf hat => nodeExpr_of hat ?_, g.fresh.1⟩
  obtain ⟨_, new, h1, h2, _⟩ := hx.trans g.ext
  have h3 := h2 d.ptr
  simp only [List.append_nil] at h1
  rw [h1]
  rw [List.nodup_append] at hd
  have hw1 := weight_one hw hd.2.1 hf
  have := inner_le d.ptr n
  have hw0 : paramsWeight params d.ptr = 0 := weights_zero fun hm => hd.2.2 _ hm _ (ptr_mem hw) rfl
  omega

section Kinds

variable {place : Nat → Nat → Prop} {d : Node} {e : Expr}

theorem kind_field (h : Reads true place d e) (hk : d.kind = .fieldAccess) : ∃ f t id te, d.child .field = some f ∧ d.child .target = some t ∧
    Reads true place t te ∧ place id f.ptr ∧ e = .field id te f.text := by
  cases h with
  | field h1 h2 h3 h4 h5 => exact ⟨_, _, _, _, h3, h2, h4, h5, rfl⟩
  | missing h => simp [blank, hk] at h
  | literal h1 => simp [hk, Spec.literal] at h1
  | stmt l h1 => simp [hk, isStmt] at h1
  | operator l h1 => simp [hk, isOperator] at h1
  | ident h1 | paren h1 | exprStmt h1 | block l h1 | index h1 | viewAs h1 | scope h1 | new l h1 | call l h1 | method l h1 | namedArg h1 =>
    rw [hk] at h1; cases h1
  | declared h1 | initialised h1 => simp [hk] at h1

theorem kind_scope (h : Reads true place d e) (hk : d.kind = .scopeAccess) : ∃ f t id te, d.child .field = some f ∧ d.child .scope = some t ∧
    Reads true place t te ∧ e = .field id te f.text := by
  cases h with
  | scope h1 h2 h3 h4 h5 => exact ⟨_, _, _, _, h3, h2, h4, rfl⟩
  | missing h => simp [blank, hk] at h
  | literal h1 => simp [hk, Spec.literal] at h1
  | stmt l h1 => simp [hk, isStmt] at h1
  | operator l h1 => simp [hk, isOperator] at h1
  | ident h1 | paren h1 | exprStmt h1 | block l h1 | index h1 | viewAs h1 | field h1 | new l h1 | call l h1 | method l h1 | namedArg h1 =>
    rw [hk] at h1; cases h1
  | declared h1 | initialised h1 => simp [hk] at h1

theorem kind_new (h : Reads true place d e) (hk : d.kind = .new) : ∃ k a id args, d.child .cls = some k ∧ d.child .arguments = some a ∧
    place id k.ptr ∧ e = .new id k.text args ∧ args.length = (written a).length := by
  cases h with
  | new l h1 h2 h3 h4 h5 h6 =>
    refine ⟨_, _, _, _, h2, h3, h6, rfl, ?_⟩
    rw [← (show l.map Prod.fst = _ from h4), List.length_map, List.length_map]
  | missing h => simp [blank, hk] at h
  | literal h1 => simp [hk, Spec.literal] at h1
  | stmt l h1 => simp [hk, isStmt] at h1
  | operator l h1 => simp [hk, isOperator] at h1
  | ident h1 | paren h1 | exprStmt h1 | block l h1 | index h1 | viewAs h1 | field h1 | scope h1 | call l h1 | method l h1 | namedArg h1 =>
    rw [hk] at h1; cases h1
  | declared h1 | initialised h1 => simp [hk] at h1

theorem kind_ident (h : Reads true place d e) (hk : d.kind = .ident) : ∃ id, e = .ident id d.text ∧ place id d.ptr := by
  cases h with
  | ident h1 h2 => exact ⟨_, rfl, h2⟩
  | missing h => simp [blank, hk] at h
  | literal h1 => simp [hk, Spec.literal] at h1
  | stmt l h1 => simp [hk, isStmt] at h1
  | operator l h1 => simp [hk, isOperator] at h1
  | new l h1 | paren h1 | exprStmt h1 | block l h1 | index h1 | viewAs h1 | field h1 | scope h1 | call l h1 | method l h1 | namedArg h1 =>
    rw [hk] at h1; cases h1
  | declared h1 | initialised h1 => simp [hk] at h1

theorem kind_named (h : Reads true place d e) (hk : d.kind = .namedArg) : ∃ x v id a ve, d.child .argName = some x ∧ d.child .value = some v ∧
    Reads true place x a ∧ Reads true place v ve ∧ e = .namedArg id a.id (identName a) ve := by
  cases h with
  | namedArg h1 h2 h3 h4 h5 h6 => exact ⟨_, _, _, _, _, h2, h3, h4, h5, rfl⟩
  | missing h => simp [blank, hk] at h
  | literal h1 => simp [hk, Spec.literal] at h1
  | stmt l h1 => simp [hk, isStmt] at h1
  | operator l h1 => simp [hk, isOperator] at h1
  | ident h1 | paren h1 | exprStmt h1 | block l h1 | index h1 | viewAs h1 | field h1 | scope h1 | call l h1 | method l h1 | new l h1 =>
    rw [hk] at h1; cases h1
  | declared h1 | initialised h1 => simp [hk] at h1

theorem kind_call (h : Reads true place d e) (hk : d.kind = .call) :
    (∃ f a id g args, d.child .function = some f ∧ f.kind = .ident ∧ d.child .arguments = some a ∧ Reads true place f g ∧
      e = .call id g args ∧ args.length = (written a).length) ∨
    (∃ f t m a id te args, d.child .function = some f ∧ f.kind = .fieldAccess ∧ f.child .target = some t ∧ f.child .field = some m ∧
      d.child .arguments = some a ∧ Reads true place t te ∧ place id m.ptr ∧ e = .methodCall id te m.text args ∧
      args.length = (written a).length) := by
  cases h with
  | call l h1 h2 h3 h4 h5 h6 h7 h8 h9 =>
    refine .inl ⟨_, _, _, _, _, h2, h4, h3, h5, rfl, ?_⟩
    rw [← (show l.map Prod.fst = _ from h6), List.length_map, List.length_map]
  | method l h1 h2 h3 h4 h5 h6 h7 h8 h9 h10 =>
    refine .inr ⟨_, _, _, _, _, _, _, h2, h4, h5, h6, h3, h7, h10, rfl, ?_⟩
    rw [← (show l.map Prod.fst = _ from h8), List.length_map, List.length_map]
  | missing h => simp [blank, hk] at h
  | literal h1 => simp [hk, Spec.literal] at h1
  | stmt l h1 => simp [hk, isStmt] at h1
  | operator l h1 => simp [hk, isOperator] at h1
  | ident h1 | paren h1 | exprStmt h1 | block l h1 | index h1 | viewAs h1 | field h1 | scope h1 | namedArg h1 | new l h1 =>
    rw [hk] at h1; cases h1
  | declared h1 | initialised h1 => simp [hk] at h1

end Kinds

theorem field_not_operand {n c : Node} {f : Field} (h : n.child f = some c) (hf : isOperand (some f) = false) : isOperand c.field = false := by
  rw [child_field h]; exact hf

/-! ### C71: every call, access to a member, construction and named argument is analysed -/

/-- **Every call, access to a member, construction and named argument of a body is analysed.** Each such node of the tree is one of the
expressions type inference sees, with the name and the number of arguments that are written, and the name leads to that expression. The
function part `a.x` of a call `a.x(…)` is analysed with the call. Partial: for trees that are `clean`; `loop_refuted`, `literal_refuted` and
`ignored_refuted` show what is lost otherwise. -/
theorem analysed_partial {params : Option Node} {n : Node} (hn : proper n = true) (hc : clean n = true) (hr : readableOrBlank n = true)
    (hp : ∀ p ∈ params, proper p = true) (hd : (ptrsAll params.toList ++ ptrs n).Nodup) {L : Lowered}
    (h : collectBody params (some n) = some L) :
    ∃ e, L.body = some e ∧ ∀ b d, Within n d → isCode d.kind = true → ¬ isCallee n d →
      Analysed L.map.nodeExpr (Reads true (At L.map)) b e d := by
  obtain ⟨e, run⟩ := clean_run hn hc hr hp hd h
  refine ⟨e, run.body, fun b d hw hk hnc => ?_⟩
  have hsee := reads_cov run.reads hc b d hw hk
  have hread : ∃ b' e', Occurs b e b' e' ∧ Reads true (At L.map) d e' := by
    rcases hsee with h | ⟨c, b', e', hcw, hck, hcf, ho, hr⟩
    · exact h
    · have hdk : d.kind = .fieldAccess := by
        have hs := ((clean_iff c).1 (clean_within hc hcw)).1
        simp only [shape, hck, Bool.and_eq_true] at hs
        have := exactly_at hs.1.1 hcf
        simp only [Bool.or_eq_true, beq_iff_eq] at this
        rcases this with this | this
        · rw [this] at hk; cases hk
        · exact this
      exact absurd ⟨c, hcw, hck, hcf, hdk⟩ hnc
  obtain ⟨b', e', ho, hr⟩ := hread
  cases hkd : d.kind <;> rw [hkd] at hk <;> simp only [isCode, Bool.false_eq_true] at hk
  case fieldAccess =>
    obtain ⟨f, t, id, te, hf, ht, hrt, hat, rfl⟩ := kind_field hr hkd
    exact .field hkd hf ht hrt ho (run.node f id (within_trans hw (within_child (child_mem hf))) (field_not_operand hf rfl) hat)
  case scopeAccess =>
    obtain ⟨f, t, id, te, hf, ht, hrt, rfl⟩ := kind_scope hr hkd
    exact .scope hkd hf ht hrt ho
  case new =>
    obtain ⟨k, a, id, args, hf, ha, hat, rfl, hl⟩ := kind_new hr hkd
    exact .new hkd hf ha ho hl (run.node k id (within_trans hw (within_child (child_mem hf))) (field_not_operand hf rfl) hat)
  case namedArg =>
    obtain ⟨x, v, id, a, ve, hx, hv, hrx, hrv, rfl⟩ := kind_named hr hkd
    have hs := ((clean_iff d).1 (clean_within hc hw)).1
    simp only [shape, hkd, Bool.and_eq_true] at hs
    have hxk := exactly_at hs.1.1 hx
    simp only [beq_iff_eq] at hxk
    obtain ⟨i, rfl, hat⟩ := kind_ident hrx hxk
    exact .named hkd hx hv hrv ho (run.node x i (within_trans hw (within_child (child_mem hx))) (field_not_operand hx rfl) hat)
  case call =>
    rcases kind_call hr hkd with ⟨f, a, id, g, args, hf, hfk, ha, hrf, rfl, hl⟩ | ⟨f, t, m, a, id, te, args, hf, hfk, ht, hm, ha, hrt, hat, rfl, hl⟩
    · obtain ⟨i, rfl, hat⟩ := kind_ident hrf hfk
      exact .call hkd hf hfk ha ho hl (run.node f i (within_trans hw (within_child (child_mem hf))) (field_not_operand hf rfl) hat)
    · exact .method hkd hf hfk ht hm ha hrt ho hl
        (run.node m id (within_trans hw (.child (child_mem hf) (within_child (child_mem hm)))) (field_not_operand hm rfl) hat)

/-- **From the name of a member in the text to its declaration.** In a clean body, what is found for the name of a member is the
field or property that the declarations give to the type of what is written before the dot. Partial: under `Fair`, as
`Infer.attribute_exact_partial`. -/
theorem member_leads_partial {params : Option Node} {n : Node} (hn : proper n = true) (hc : clean n = true) (hr : readableOrBlank n = true)
    (hp : ∀ p ∈ params, proper p = true) (hd : (ptrsAll params.toList ++ ptrs n).Nodup) {L : Lowered}
    (h : collectBody params (some n) = some L) {env : Env} {b : Nat} (hfair : ∀ e, L.body = some e → Infer.Fair env b e)
    {d f t : Node} (hw : Within n d) (hk : d.kind = .fieldAccess) (hcal : ¬ isCallee n d) (hf : d.child .field = some f)
    (ht : d.child .target = some t) :
    ∃ e i b' te, L.body = some e ∧ L.map.nodeExpr f.ptr = some i ∧ Occurs b e b' te ∧ Reads true (At L.map) t te ∧
      ∀ a, Verif.Hir.Infer.attributeResolution (events env b e) i = some a ↔
        ∃ x, Verif.Hir.Infer.Spec.Ty env b' te (.name x) ∧ Verif.Hir.Infer.Spec.IsMember env x f.text (.attribute a) := by
  obtain ⟨e, hb, hall⟩ := analysed_partial hn hc hr hp hd h
  obtain ⟨e', hb', hdis⟩ := lowered_distinct hn hp h
  obtain rfl : e = e' := by rw [hb] at hb'; exact Option.some.inj hb'
  have ha := hall b d hw (by rw [hk]; rfl) hcal
  cases ha with
  | field h1 h2 h3 h4 h5 h6 =>
    rw [hf] at h2; cases h2
    rw [ht] at h3; cases h3
    rename_i b' id te
    refine ⟨e, id, b', te, hb, h6, ?_, h4, fun a => ?_⟩
    · exact Infer.Demo.occurs_trans h5 (.part (by simp [parts]) (.here _ _))
    rw [Infer.attribute_exact_partial (hfair e hb) (hdis b).1]
    constructor
    · rintro ⟨b1, e1, x, m, ho, hty, hm⟩
      obtain ⟨rfl, h⟩ := (hdis b).1 _ _ _ _ h5 ho rfl
      cases h
      exact ⟨m, hty, hm⟩
    · rintro ⟨m, hty, hm⟩
      exact ⟨_, _, _, m, h5, hty, hm⟩
  | scope h1 | call h1 | method h1 | new h1 | named h1 => rw [hk] at h1; cases h1

/-- **From the name of a method in the text to its declaration.** -/
theorem method_leads_partial {params : Option Node} {n : Node} (hn : proper n = true) (hc : clean n = true) (hr : readableOrBlank n = true)
    (hp : ∀ p ∈ params, proper p = true) (hd : (ptrsAll params.toList ++ ptrs n).Nodup) {L : Lowered}
    (h : collectBody params (some n) = some L) {env : Env} {b : Nat} (hfair : ∀ e, L.body = some e → Infer.Fair env b e)
    {d f t m : Node} (hw : Within n d) (hk : d.kind = .call) (hf : d.child .function = some f) (hfk : f.kind = .fieldAccess)
    (hm : f.child .field = some m) (ht : f.child .target = some t) :
    ∃ e i b' te, L.body = some e ∧ L.map.nodeExpr m.ptr = some i ∧ Occurs b e b' te ∧ Reads true (At L.map) t te ∧
      ∀ a, Verif.Hir.Infer.methodResolution (events env b e) i = some a ↔
        ∃ x, Verif.Hir.Infer.Spec.Ty env b' te (.name x) ∧ Verif.Hir.Infer.Spec.IsMember env x m.text (.method a) := by
  obtain ⟨e, hb, hall⟩ := analysed_partial hn hc hr hp hd h
  obtain ⟨e', hb', hdis⟩ := lowered_distinct hn hp h
  obtain rfl : e = e' := by rw [hb] at hb'; exact Option.some.inj hb'
  have ha := hall b d hw (by rw [hk]; rfl) (by rintro ⟨c, _, _, _, h⟩; rw [hk] at h; cases h)
  cases ha with
  | call h1 h2 h3 => rw [hf] at h2; cases h2; rw [hfk] at h3; cases h3
  | method h1 h2 h3 h4 h5 h6 h7 h8 h9 h10 =>
    rw [hf] at h2; cases h2
    rw [ht] at h4; cases h4
    rw [hm] at h5; cases h5
    rename_i b' id te args
    refine ⟨e, id, b', te, hb, h10, ?_, h7, fun a => ?_⟩
    · exact Infer.Demo.occurs_trans h8 (.part (by simp [parts]) (.here _ _))
    rw [Infer.method_exact_partial (hfair e hb) (hdis b).1]
    constructor
    · rintro (⟨b1, e1, x, as, k, ho, hty, hmem⟩ | ⟨b1, x, as, k, ho, _⟩)
      · obtain ⟨rfl, h⟩ := (hdis b).1 _ _ _ _ h8 ho rfl
        cases h
        exact ⟨k, hty, hmem⟩
      · obtain ⟨rfl, h⟩ := (hdis b).1 _ _ _ _ h8 ho rfl
        cases h
    · rintro ⟨k, hty, hmem⟩
      exact .inl ⟨_, _, _, _, k, h8, hty, hmem⟩
  | field h1 | scope h1 | new h1 | named h1 => rw [hk] at h1; cases h1

/-! ### C72: lowering does not panic -/

def Total {α : Type} (m : M α) : Prop := ∀ s, ∃ q, m s = some q

theorem total_pure {α : Type} (a : α) : Total (M.pure a) := fun s => ⟨(a, s), rfl⟩

theorem total_bind {α β : Type} {m : M α} {f : α → M β} (h : Total m) (h' : ∀ a, Total (f a)) : Total (M.bind m f) := by
  intro s
  obtain ⟨⟨a, s1⟩, hq⟩ := h s
  obtain ⟨q, hq'⟩ := h' a s1
  exact ⟨q, by simp [M.bind, hq, hq']⟩

theorem total_alloc (mk : Nat → Expr) (p : Nat) : Total (alloc mk p) := fun _ => ⟨_, rfl⟩

theorem total_collect {l : Low} (h : Total l.run) : Total (collect l) := by
  refine total_bind h fun r => ?_
  cases r with
  | none => exact fun _ => ⟨_, rfl⟩
  | some e => exact total_pure e

theorem total_collectAll : ∀ {ls : List Low}, (∀ l ∈ ls, Total l.run) → Total (collectAll ls)
  | [], _ => total_pure _
  | _ :: _, h => total_bind (total_collect (h _ List.mem_cons_self)) fun _ =>
      total_bind (total_collectAll fun m hm => h m (List.mem_cons_of_mem _ hm)) fun _ => total_pure _

theorem total_collectSome : ∀ {ls : List Low}, (∀ l ∈ ls, Total l.run) → Total (collectSome ls)
  | [], _ => total_pure _
  | _ :: _, h => total_bind (h _ List.mem_cons_self) fun _ =>
      total_bind (total_collectSome fun m hm => h m (List.mem_cons_of_mem _ hm)) fun _ => total_pure _

theorem total_collectOpt {o : Option Low} (h : ∀ l ∈ o, Total l.run) : Total (collectOpt o) := by
  cases o with
  | none => exact total_pure _
  | some l => exact total_bind (total_collect (h l rfl)) fun _ => total_pure _

theorem total_runOpt {o : Option Low} (h : ∀ l ∈ o, Total l.run) : Total (runOpt o) := by
  cases o with
  | none => exact total_pure _
  | some l => exact h l rfl

theorem low_child_mem {f : Field} {cs : List Low} {l : Low} (h : Lower.child f cs = some l) : l ∈ cs := List.mem_of_find?_eq_some h

theorem total_declareAll {ty : Low → Option TypeRef} : ∀ {ds : List Low}, (∀ d ∈ ds, ∀ l ∈ d.sub, Total l.run) → Total (declareAll ty ds)
  | [], _ => total_pure _
  | d :: ds, h => by
    refine total_bind ?_ fun _ => total_bind (total_declareAll fun m hm => h m (List.mem_cons_of_mem _ hm)) fun _ => total_pure _
    unfold declare
    split
    · exact total_pure _
    · exact total_bind (total_collectOpt fun l hl => h d List.mem_cons_self l (low_child_mem hl)) fun _ => total_alloc _ _

theorem total_cases : ∀ {ds : List Low}, (∀ d ∈ ds, ∀ l ∈ d.sub, Total l.run) → Total (cases_ ds)
  | [], _ => total_pure _
  | d :: ds, h => by
    refine total_bind ?_ fun _ => total_bind (total_cases fun m hm => h m (List.mem_cons_of_mem _ hm)) fun _ => total_pure _
    refine total_bind (total_collectAll fun l hl => h d List.mem_cons_self l (List.mem_filter.1 hl).1) fun _ => ?_
    split
    · exact total_pure _
    · next b hb => exact total_bind (total_collect (h d List.mem_cons_self b (low_child_mem hb))) fun _ => total_pure _

/-- `maybe_collect_expr` only panics by what is called. -/
theorem total_step {ptr : Nat} {kind : Kind} {text : Name} {ty : Option TypeRef} {cs : List Low} (h : ∀ c ∈ cs, Total c.run)
    (h' : ∀ c ∈ cs, ∀ g ∈ c.sub, Total g.run)
    (hk : kind = .call → ∀ f, Lower.child .function cs = some f → f.kind = .ident ∨ f.kind = .fieldAccess) : Total (step ptr kind text ty cs) := by
  have hch : ∀ {f : Field} {l : Low}, Lower.child f cs = some l → Total l.run := fun hl => h _ (low_child_mem hl)
  have hco : ∀ {f : Field} {l : Low}, Lower.child f cs = some l → Total (collect l) := fun hl => total_collect (hch hl)
  have hfil : ∀ {P : Low → Bool}, ∀ l ∈ cs.filter P, Total l.run := fun l hl => h l (List.mem_filter.1 hl).1
  have hfil' : ∀ {P : Low → Bool}, ∀ l ∈ cs.filter P, ∀ g ∈ l.sub, Total g.run := fun l hl => h' l (List.mem_filter.1 hl).1
  cases kind <;> simp only [step]
  case varDecl | oldVarDecl | switchCase | brace | punct | paramDecls | paramDecl | callArgs | other => exact total_pure _
  case int | float | char | string | bool | null =>
    split
    · exact total_alloc _ _
    · exact total_pure _
  case namedArg =>
    split
    · next h1 h2 => exact total_bind (hco h1) fun _ => total_bind (hco h2) fun _ => total_alloc _ _
    · exact total_pure _
  case block => exact total_bind (total_collectAll hfil) fun _ => total_alloc _ _
  case varDeclStmt => exact total_bind (total_declareAll hfil') fun _ => total_alloc _ _
  case oldVarDeclStmt => exact total_bind (total_declareAll hfil') fun _ => total_alloc _ _
  case for_ =>
    refine total_bind (total_collectAll hfil) fun _ => ?_
    split
    · next h1 h2 h3 =>
      exact total_bind (hco h1) fun _ => total_bind (hch h2) fun _ => total_bind (hco h3) fun _ => total_alloc _ _
    · exact total_pure _
  case while_ =>
    split
    · next h1 h2 => exact total_bind (hco h1) fun _ => total_bind (hco h2) fun _ => total_alloc _ _
    · exact total_pure _
  case jump => exact total_alloc _ _
  case condition =>
    split
    · next h1 h2 =>
      exact total_bind (total_collectOpt fun l hl => hch hl) fun _ => total_bind (hco h1) fun _ => total_bind (hco h2) fun _ => total_alloc _ _
    · exact total_pure _
  case switch =>
    split
    · next h1 => exact total_bind (total_cases hfil') fun _ => total_bind (hco h1) fun _ => total_alloc _ _
    · exact total_pure _
  case return_ =>
    split
    · next h1 => exact total_bind (hch h1) fun _ => total_alloc _ _
    · exact total_pure _
  case delete =>
    split
    · next h1 => exact total_bind (hch h1) fun _ => total_alloc _ _
    · exact total_pure _
  case exprStmt =>
    split
    · exact total_pure _
    · next c _ => exact total_collectOpt fun l hl => by cases hl; exact h _ List.mem_cons_self
  case binary =>
    split
    · exact total_pure _
    · next h1 =>
      refine total_bind (hco h1) fun _ => ?_
      split
      · exact total_pure _
      · next h2 => exact total_bind (hco h2) fun _ => total_alloc _ _
  case call =>
    split
    · next f a h1 h2 =>
      have hargs : ∀ l ∈ a.sub, Total l.run := h' a (low_child_mem h2)
      rcases hk rfl f h1 with hf | hf
      · rw [hf]
        exact total_bind (hco h1) fun _ => total_bind (total_collectSome hargs) fun _ => total_alloc _ _
      · rw [hf]
        simp only
        split
        · next t m h3 h4 =>
          exact total_bind (total_collectSome hargs) fun _ =>
            total_bind (total_collect (h' f (low_child_mem h1) t (low_child_mem h3))) fun _ => total_alloc _ _
        · exact total_pure _
    · exact total_pure _
  case index =>
    split
    · next h1 h2 => exact total_bind (hco h1) fun _ => total_bind (hco h2) fun _ => total_alloc _ _
    · exact total_pure _
  case ternary =>
    split
    · exact total_pure _
    · next h1 =>
      refine total_bind (hco h1) fun _ => ?_
      split
      · exact total_pure _
      · next h2 =>
        refine total_bind (hco h2) fun _ => ?_
        split
        · exact total_pure _
        · next h3 => exact total_bind (hco h3) fun _ => total_alloc _ _
  case fieldAccess =>
    split
    · next h1 h2 => exact total_bind (hco h2) fun _ => total_alloc _ _
    · exact total_pure _
  case scopeAccess =>
    split
    · next h1 h2 => exact total_bind (hco h2) fun _ => total_alloc _ _
    · exact total_pure _
  case unary =>
    split
    · next h1 => exact total_bind (hco h1) fun _ => total_alloc _ _
    · exact total_pure _
  case sizeof =>
    split
    · next h1 => exact total_bind (hco h1) fun _ => total_alloc _ _
    · exact total_pure _
  case viewAs =>
    split
    · next h1 => exact total_bind (hco h1) fun _ => total_alloc _ _
    · exact total_pure _
  case ident => exact total_alloc _ _
  case paren => exact total_runOpt fun l hl => hch hl
  case new =>
    split
    · next k a h1 h2 => exact total_bind (total_collectSome (h' a (low_child_mem h2))) fun _ => total_alloc _ _
    · exact total_pure _
  case arrayLit => exact total_bind (total_collectSome h) fun _ => total_alloc _ _
  case comma => exact total_bind (total_collectAll h) fun _ => total_alloc _ _

theorem callableAll_iff : ∀ ns : List Node, callableAll ns = true ↔ ∀ n ∈ ns, callable n = true
  | [] => by simp [callableAll]
  | n :: ns => by simp [callableAll, callableAll_iff ns]

theorem callable_within {n d : Node} (h : callable n = true) (hw : Within n d) : callable d = true := by
  induction hw with
  | here => exact h
  | @child n c d hc _ ih =>
    cases n
    simp only [callable, Bool.and_eq_true, callableAll_iff] at h
    exact ih (h.2 c hc)

theorem lower_total (n : Node) : callable n = true → Total (lower n) := by
  refine node_ind (P := fun n => callable n = true → Total (lower n)) ?_ n
  intro n ih hc
  rw [lower_eq]
  have hsub : ∀ d, Below n d → Total (lower d) := fun d hd => by
    refine ih d hd ?_
    obtain ⟨x, hx, hw⟩ := hd
    exact callable_within hc (.child hx hw)
  refine total_step ?_ ?_ ?_
  · intro c hm
    rw [toLows_eq] at hm
    obtain ⟨x, hx, rfl⟩ := List.mem_map.1 hm
    exact hsub x (below_child hx)
  · intro c hm g hg
    rw [toLows_eq] at hm
    obtain ⟨x, hx, rfl⟩ := List.mem_map.1 hm
    rw [toLow_sub, toLows_eq] at hg
    obtain ⟨y, hy, rfl⟩ := List.mem_map.1 hg
    exact hsub y (below_grandchild hx hy)
  · intro hk f hf
    rw [child_toLows] at hf
    obtain ⟨x, hx, rfl⟩ := Option.map_eq_some_iff.1 hf
    have hxf := child_field hx
    have hxm := child_mem hx
    rw [toLow_kind]
    cases n
    simp only [Node.kind] at hk
    subst hk
    simp only [callable, Bool.and_eq_true, bne_self_eq_false, Bool.false_or, List.all_eq_true] at hc
    have := hc.1 x hxm
    simpa [hxf] using this

/-- **Analysing a body does not panic** as long as functions are called by name or as members. Partial: `called_refuted` shows that the
condition is needed. -/
theorem lowering_partial {params : Option Node} {n : Node} (hn : callable n = true) (hp : ∀ p ∈ params, callable p = true)
    (hk : ∀ p ∈ params, p.kind = .paramDecls ∨ p.kind = .paramDecl) : ∃ L, collectBody params (some n) = some L := by
  have hpar : ∀ {d : Node}, callable d = true → Total (parameter (toLow d)) := by
    intro d hd
    simp only [parameter, toLow_sub, child_toLows]
    cases d.child .name with
    | none => exact total_pure _
    | some x =>
      refine total_bind (total_collectOpt fun l hl => ?_) fun _ => total_bind (total_alloc _ _) fun _ => total_pure _
      obtain ⟨y, hy, rfl⟩ := Option.map_eq_some_iff.1 hl
      exact lower_total y (callable_within hd (within_child (child_mem hy)))
  have hpars : ∀ {ds : List Node}, (∀ d ∈ ds, callable d = true) → Total (parameters (toLows ds)) := by
    intro ds
    induction ds with
    | nil => intro _; exact total_pure _
    | cons d ds ih =>
      intro h
      exact total_bind (hpar (h d List.mem_cons_self)) fun _ => total_bind (ih fun m hm => h m (List.mem_cons_of_mem _ hm)) fun _ => total_pure _
  have hpp : Total (paramsPart params) := by
    cases params with
    | none => exact total_pure _
    | some p =>
      rcases hk p rfl with hk | hk
      · simp only [paramsPart, hk]
        rw [filter_toLows _ (fun c => c.kind == .paramDecl) (fun n => by simp)]
        exact hpars fun d hd => callable_within (hp p rfl) (within_child (List.mem_filter.1 hd).1)
      · simp only [paramsPart, hk]
        exact hpars (ds := [p]) fun d hd => by obtain rfl := List.mem_singleton.1 hd; exact hp _ rfl
  obtain ⟨q, hq⟩ := total_bind hpp (f := fun ps => M.bind (collectOpt ((some n).map toLow)) fun b => M.pure (ps, b))
    (fun ps => total_bind (total_collectOpt fun l hl => by cases hl; exact lower_total n hn) fun _ => total_pure _) {}
  exact ⟨_, by rw [collectBody, hq]; rfl⟩

/-! ## A body -/

namespace Demo

def leaf (f : Option Field) (p : Nat) (k : Kind) (s : String) : Node := .mk f p k s.toList none []

def access (f : Option Field) (p : Nat) (t : Node) (x : String) : Node :=
  .mk f p .fieldAccess [] none [t, leaf none (p + 1) .punct ".", leaf (some .field) (p + 2) .ident x]

def args (p : Nat) (as : List Node) : Node :=
  .mk (some .arguments) p .callArgs [] none ([leaf none (p + 1) .punct "("] ++ as ++ [leaf none (p + 2) .punct ")"])

def stmt (p : Nat) (e : Node) : Node := .mk none p .exprStmt [] none [e, leaf none (p + 1) .punct ";"]

/-- `f.next.put(1, f)` -/
def put : Node := .mk none 10 .call [] none
  [access (some .function) 11 (access (some .target) 14 (leaf (some .target) 17 .ident "f") "next") "put",
   args 20 [leaf none 23 .int "1", leaf none 24 .punct ",", leaf none 25 .ident "f"]]

/-- `mk(.n = f.x)` -/
def named : Node := .mk none 30 .call [] none
  [leaf (some .function) 31 .ident "mk",
   args 32 [.mk none 35 .namedArg [] none
     [leaf none 36 .punct ".", leaf (some .argName) 37 .ident "n", leaf none 38 .punct "=", access (some .value) 39 (leaf (some .target) 42 .ident "f") "x"]]]

/-- `new Bag()` -/
def fresh : Node := .mk none 50 .new [] none [leaf none 51 .punct "new", leaf (some .cls) 52 .ident "Bag", args 53 []]

/-- `b.size()` -/
def size : Node := .mk none 60 .call [] none [access (some .function) 61 (leaf (some .target) 64 .ident "b") "size", args 65 []]

/-- `for (i = 0; i < 3; i++) { f.no; }` -/
def loop : Node := .mk none 70 .for_ [] none
  [.mk (some .initialization) 71 .binary [] none [leaf (some .left) 72 .ident "i", leaf (some .right) 73 .int "0"],
   .mk (some .condition) 74 .binary [] none [leaf (some .left) 75 .ident "i", leaf (some .right) 76 .int "3"],
   .mk (some .iteration) 77 .unary [] none [leaf (some .argument) 78 .ident "i"],
   .mk (some .body) 79 .block [] none [leaf none 80 .brace "{", stmt 81 (access none 83 (leaf (some .target) 86 .ident "f") "no"), leaf none 87 .brace "}"]]

/-- `return f.next;` -/
def back : Node := .mk none 90 .return_ [] none [access (some .expression) 91 (leaf (some .target) 94 .ident "f") "next"]

/-- `{ f.next.put(1, f); mk(.n = f.x); new Bag(); b.size(); for (i = 0; i < 3; i++) { f.no; } return f.next; }` -/
def tree : Node := .mk none 1 .block [] none
  [leaf none 2 .brace "{", stmt 3 put, stmt 5 named, stmt 7 fresh, stmt 100 size, loop, back, leaf none 9 .brace "}"]

/-- `(int n = 0)` -/
def params : Node := .mk none 200 .paramDecls [] none
  [leaf none 201 .punct "(", .mk none 202 .paramDecl [] (some .int) [leaf (some .name) 203 .ident "n", leaf (some .initialValue) 204 .int "0"],
   leaf none 205 .punct ")"]

theorem tree_proper : proper tree = true := by decide
theorem tree_clean : clean tree = true := by decide
theorem tree_callable : callable tree = true := by decide
theorem tree_distinct : (ptrsAll (some params).toList ++ ptrs tree).Nodup := by simp [ptrs, ptrsAll, params, tree, leaf, stmt, put, named, fresh, size, loop, back, access, args]
theorem params_proper : ∀ p ∈ some params, proper p = true := by decide

/-- What is shown: no parameter of `mk` is missed, but `f` has no `x`, `b` no method `size` and `f` no `no`; each at its name. -/
example : (collectBody (some params) (some tree)).bind (fun L => L.body.bind fun e => places L.map (events Infer.Demo.env 0 e)) =
    some [(.unresolvedField 10 Infer.Demo.foo ['x'] false, 41), (.unresolvedMethod 15 Infer.Demo.bag ['s', 'i', 'z', 'e'] false, 63),
      (.unresolvedField 25 Infer.Demo.foo ['n', 'o'] false, 85)] := by decide +kernel

end Demo

/-- The hypotheses of C70-C72 are met by `Demo.tree`. -/
example : ∃ L, collectBody (some Demo.params) (some Demo.tree) = some L ∧ (∃ e, L.body = some e ∧
    Analysed L.map.nodeExpr (Reads true (At L.map)) 0 e Demo.put ∧
    ∃ ds, places L.map (events Infer.Demo.env 0 e) = some ds ∧ ∀ q ∈ ds, Shown Demo.tree q.1 q.2) := by
  obtain ⟨L, hL⟩ := lowering_partial Demo.tree_callable (params := some Demo.params) (by decide) (by decide)
  refine ⟨L, hL, ?_⟩
  obtain ⟨e, he, ha⟩ := analysed_partial Demo.tree_proper Demo.tree_clean rfl Demo.params_proper Demo.tree_distinct hL
  obtain ⟨e', ds, he', hds, _, hs⟩ := findings_shown Demo.tree_proper Demo.params_proper hL (env := Infer.Demo.env) (b := 0)
  obtain rfl : e = e' := by rw [he] at he'; exact Option.some.inj he'
  refine ⟨e, he, ha 0 Demo.put ?_ rfl ?_, ds, hds, hs⟩
  · exact .child (c := Demo.stmt 3 Demo.put) (by simp [Demo.tree, Node.children]) (within_child (by simp [Demo.stmt, Node.children]))
  · rintro ⟨c, _, _, _, h⟩; cases h

/-! ## What goes wrong -/

/-- `{ for (;;) { f.no; } }` -/
def endless : Node := .mk none 1 .block [] none
  [.mk none 2 .for_ [] none [.mk (some .body) 3 .block [] none [Demo.stmt 4 (Demo.access none 6 (Demo.leaf (some .target) 9 .ident "f") "no")]]]

/-- Nothing is analysed in a `for` that lacks its condition or its last part: `f.no` in `for (;;) { f.no; }` is not reported. -/
theorem loop_refuted : (collectBody none (some endless)).map (·.body) = some (some (.block 1 [.seq 0 []])) := by rfl

/-- `f(a)` with another argument. -/
def callWith (a : Node) : Node := .mk none 1 .block [] none
  [Demo.stmt 2 (.mk none 4 .call [] none [Demo.leaf (some .function) 5 .ident "f", Demo.args 6 [a]])]

/-- Literals that Rust cannot read are no arguments: in `f(0x10)`, `f` is called without arguments. -/
theorem literal_refuted : (collectBody none (some (callWith (Demo.leaf none 9 .int "0x10")))).map (·.body) =
    some (some (.block 2 [.call 1 (.ident 0 ['f']) []])) ∧
    written (Demo.args 6 [Demo.leaf none 9 .int "0x10"]) = [Demo.leaf none 9 .int "0x10"] := ⟨by rfl, by rfl⟩

/-- `_` is no argument: in `f(_)`, `f` is called without arguments. -/
theorem ignored_refuted : (collectBody none (some (callWith (Demo.leaf none 9 .other "_")))).map (·.body) =
    some (some (.block 2 [.call 1 (.ident 0 ['f']) []])) ∧
    written (Demo.args 6 [Demo.leaf none 9 .other "_"]) = [Demo.leaf none 9 .other "_"] := ⟨by rfl, by rfl⟩

/-- A call of something other than a name or a member is a panic, as is a parameter list of another kind. -/
theorem called_refuted : collectBody none (some (.mk none 1 .call [] none [.mk (some .function) 2 .paren [] none
    [Demo.leaf (some .expression) 3 .ident "f"], Demo.args 4 []])) = none := by rfl

end Verif.Props.Body
