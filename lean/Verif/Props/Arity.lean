import Verif.Hir.Arity
/-!
# C47: diagnostics about argument counts
-/

namespace Verif.Props.Arity
open Verif.Hir.Arity Verif.Hir.Arity.Spec

/-! ## The current call -/

theorem set_some (fs gs : List Fn) : Current.set (some (some fs)) gs = some (some fs) := rfl

mutual
/-- A call that knows its function keeps it. -/
theorem infer_known (fs : List Fn) : ∀ e : Expr, (infer (some (some fs)) e).1 = some (some fs)
  | .ident _ (.functions _) => rfl
  | .ident _ .other => rfl
  | .call _ _ _ => by simp only [infer]
  | .methodCall _ _ _ _ => by simp only [infer]
  | .namedArg _ b v => by
    unfold infer
    split
    · split
      · next h => cases h; exact infer_known _ v
      · rfl
    · rfl
  | .node _ es => by simp only [infer]; exact inferAll_known fs es

theorem inferAll_known (fs : List Fn) : ∀ es : List Expr, (inferAll (some (some fs)) es).1 = some (some fs)
  | [] => rfl
  | e :: es => by simp only [inferAll, infer_known fs e]; exact inferAll_known fs es
end

mutual
/-- Without names of functions, a call that does not know its function does not learn one. -/
theorem infer_unknown : ∀ e : Expr, NoFunction e → (infer (some none) e).1 = some none
  | .ident _ (.functions _), h => by simp [NoFunction] at h
  | .ident _ .other, _ => rfl
  | .call _ _ _, _ => by simp only [infer]
  | .methodCall _ _ _ _, _ => by simp only [infer]
  | .namedArg _ b v, _ => by simp only [infer]
  | .node _ es, h => by simp only [infer]; exact inferAll_unknown es (by simpa [NoFunction] using h)

theorem inferAll_unknown : ∀ es : List Expr, NoFunctionAll es → (inferAll (some none) es).1 = some none
  | [], _ => rfl
  | e :: es, h => by
    simp only [NoFunctionAll] at h
    simp only [inferAll, infer_unknown e h.1]; exact inferAll_unknown es h.2
end

/-! ## The check -/

theorem lastId_eq (id : Nat) : ∀ args : List Expr, lastId id args = ((args.getLast?).map Expr.id).getD id
  | [] => rfl
  | [a] => rfl
  | a :: b :: as => by
    rw [lastId, lastId_eq id (b :: as)]
    · simp [List.getLast?_cons_cons]
    · simp

theorem mem_check (id : Nat) (callee : Expr) (args : List Expr) (f : Fn) (fs : List Fn) (d : Diag) :
    d ∈ check (some (some (f :: fs))) id args ↔ Reports (.call id callee args) f d := by
  obtain ⟨e, n, x, a⟩ := d
  have hany : f.params.any (·.isRest) = false ↔ ∀ p ∈ f.params, p.isRest = false := by simp
  have hr : Reports (.call id callee args) f ⟨e, n, x, a⟩ ↔ Violates f args.length x ∧ n = f.name ∧ a = args.length ∧ e = lastId id args := by
    rw [lastId_eq]
    constructor
    · rintro ⟨id', callee', args', h, h1, h2, h3, h4⟩
      cases h
      exact ⟨h1, h2, h3, h4⟩
    · rintro ⟨h1, h2, h3, h4⟩
      exact ⟨id, callee, args, rfl, h1, h2, h3, h4⟩
  rw [hr]
  unfold check Violates Fn.maximum
  simp only
  have hm : f.mandatory = (f.params.filter fun p => !(p.hasDefault || p.isRest)).length := rfl
  have hle : f.mandatory ≤ f.params.length := List.length_filter_le _ _
  rw [← hm]
  by_cases h1 : args.length < f.mandatory
  · rw [if_pos h1]
    simp only [List.mem_singleton, Diag.mk.injEq]
    constructor
    · rintro ⟨rfl, rfl, rfl, rfl⟩; exact ⟨.inl ⟨rfl, h1⟩, rfl, rfl, rfl⟩
    · rintro ⟨h | h, h2, h3, h4⟩
      · exact ⟨h4, h2, h.1, h3⟩
      · omega
  · rw [if_neg h1]
    by_cases hrest : f.params.any (·.isRest) = true
    · simp only [hrest, if_true]
      constructor
      · intro h; simp at h
      · rintro ⟨h | h, _⟩
        · omega
        · have := hany.2 h.2.1; rw [hrest] at this; simp at this
    · have hrest' : f.params.any (·.isRest) = false := by simpa using hrest
      simp only [hrest', Bool.false_eq_true, if_false]
      by_cases h2 : args.length > f.params.length
      · rw [if_pos h2]
        simp only [List.mem_singleton, Diag.mk.injEq]
        constructor
        · rintro ⟨rfl, rfl, rfl, rfl⟩; exact ⟨.inr ⟨rfl, hany.1 hrest', h2⟩, rfl, rfl, rfl⟩
        · rintro ⟨h | h, h3, h4, h5⟩
          · omega
          · exact ⟨h5, h3, h.1, h4⟩
      · rw [if_neg h2]
        constructor
        · intro h; simp at h
        · rintro ⟨h | h, _⟩ <;> omega

/-! ## The whole body -/

def Flagged (e : Expr) (d : Diag) : Prop := ∃ c f, Calls e c f ∧ Reports c f d
def FlaggedIn (es : List Expr) (d : Diag) : Prop := ∃ c f, CallsIn es c f ∧ Reports c f d

theorem flaggedIn_nil (d : Diag) : ¬FlaggedIn [] d := by
  rintro ⟨c, f, h, _⟩; cases h

theorem flaggedIn_cons (e : Expr) (es : List Expr) (d : Diag) : FlaggedIn (e :: es) d ↔ Flagged e d ∨ FlaggedIn es d := by
  constructor
  · rintro ⟨c, f, h, hr⟩
    cases h with
    | head _ _ _ _ h => exact .inl ⟨c, f, h, hr⟩
    | tail _ _ _ _ h => exact .inr ⟨c, f, h, hr⟩
  · rintro (⟨c, f, h, hr⟩ | ⟨c, f, h, hr⟩)
    · exact ⟨c, f, .head _ _ _ _ h, hr⟩
    · exact ⟨c, f, .tail _ _ _ _ h, hr⟩

theorem flagged_ident (id : Nat) (r : Res) (d : Diag) : ¬Flagged (.ident id r) d := by
  rintro ⟨c, f, h, _⟩; cases h

theorem flagged_node (id : Nat) (es : List Expr) (d : Diag) : Flagged (.node id es) d ↔ FlaggedIn es d := by
  constructor
  · rintro ⟨c, f, h, hr⟩; cases h with | part _ _ _ _ h => exact ⟨c, f, h, hr⟩
  · rintro ⟨c, f, h, hr⟩; exact ⟨c, f, .part _ _ _ _ h, hr⟩

theorem flagged_named (id : Nat) (b : Bool) (e : Expr) (d : Diag) : Flagged (.namedArg id b e) d ↔ Flagged e d := by
  constructor
  · rintro ⟨c, f, h, hr⟩; cases h with | named _ _ _ _ _ h => exact ⟨c, f, h, hr⟩
  · rintro ⟨c, f, h, hr⟩; exact ⟨c, f, .named _ _ _ _ _ h, hr⟩

theorem flagged_method (id : Nat) (e : Expr) (m : Method) (args : List Expr) (d : Diag) :
    Flagged (.methodCall id e m args) d ↔ Flagged e d ∨ FlaggedIn args d := by
  constructor
  · rintro ⟨c, f, h, hr⟩
    cases h with
    | target _ _ _ _ _ _ h => exact .inl ⟨c, f, h, hr⟩
    | marg _ _ _ _ _ _ h => exact .inr ⟨c, f, h, hr⟩
  · rintro (⟨c, f, h, hr⟩ | ⟨c, f, h, hr⟩)
    · exact ⟨c, f, .target _ _ _ _ _ _ h, hr⟩
    · exact ⟨c, f, .marg _ _ _ _ _ _ h, hr⟩

theorem flagged_call (id cid : Nat) (f : Fn) (fs : List Fn) (args : List Expr) (d : Diag) :
    Flagged (.call id (.ident cid (.functions (f :: fs))) args) d ↔
      FlaggedIn args d ∨ Reports (.call id (.ident cid (.functions (f :: fs))) args) f d := by
  constructor
  · rintro ⟨c, g, h, hr⟩
    cases h with
    | here => exact .inr hr
    | callee _ _ _ _ _ h => cases h
    | arg _ _ _ _ _ h => exact .inl ⟨c, g, h, hr⟩
  · rintro (⟨c, g, h, hr⟩ | hr)
    · exact ⟨c, g, .arg _ _ _ _ _ h, hr⟩
    · exact ⟨_, f, .here _ _ _ _ _, hr⟩

theorem flagged_call' (id : Nat) (e : Expr) (args : List Expr) (d : Diag) (he : ∀ cid f fs, e ≠ .ident cid (.functions (f :: fs))) :
    Flagged (.call id e args) d ↔ Flagged e d ∨ FlaggedIn args d := by
  constructor
  · rintro ⟨c, f, h, hr⟩
    cases h with
    | here => exact absurd rfl (he _ _ _)
    | callee _ _ _ _ _ h => exact .inl ⟨c, f, h, hr⟩
    | arg _ _ _ _ _ h => exact .inr ⟨c, f, h, hr⟩
  · rintro (⟨c, f, h, hr⟩ | ⟨c, f, h, hr⟩)
    · exact ⟨c, f, .callee _ _ _ _ _ h, hr⟩
    · exact ⟨c, f, .arg _ _ _ _ _ h, hr⟩

/-- The current call is what `Plain` takes it for. -/
def Fits (b : Bool) (c : Current) : Prop := b = true → ∃ f fs, c = some (some (f :: fs))

theorem fits_false (c : Current) : Fits false c := by intro h; cases h

mutual
theorem infer_exact : ∀ (e : Expr) (b : Bool) (c : Current), Plain b e → Fits b c → ∀ d, d ∈ (infer c e).2 ↔ Flagged e d
  | .ident id (.functions _), b, c, _, _, d => by
    simp only [infer, List.not_mem_nil, false_iff]; exact flagged_ident _ _ _
  | .ident id .other, b, c, _, _, d => by
    simp only [infer, List.not_mem_nil, false_iff]; exact flagged_ident _ _ _
  | .call id (.ident cid (.functions (f :: fs))) args, b, c, h, _, d => by
    simp only [Plain] at h
    simp only [infer, Current.set, List.nil_append, List.mem_append, inferAll_known]
    rw [flagged_call, mem_check id (.ident cid (.functions (f :: fs))), inferAll_exact args true _ h (fun _ => ⟨f, fs, rfl⟩) d]
  | .call id (.ident cid (.functions [])) args, b, c, h, _, d => by
    simp [Plain, NoFunction] at h
  | .call id (.ident cid .other) args, b, c, h, _, d => call_other id (.ident cid .other) args c (by simp) (by simpa only [Plain] using h) d
      (fun hp c d => by simp only [infer, List.not_mem_nil, false_iff]; exact flagged_ident _ _ _)
      (fun hp c d => inferAll_exact args false c hp (fits_false c) d)
  | .call id (.call i1 e1 a1) args, b, c, h, _, d => call_other id (.call i1 e1 a1) args c (by simp) (by simpa only [Plain] using h) d
      (fun hp c d => infer_exact (.call i1 e1 a1) false c hp (fits_false c) d)
      (fun hp c d => inferAll_exact args false c hp (fits_false c) d)
  | .call id (.methodCall i1 e1 m1 a1) args, b, c, h, _, d => call_other id (.methodCall i1 e1 m1 a1) args c (by simp) (by simpa only [Plain] using h) d
      (fun hp c d => infer_exact (.methodCall i1 e1 m1 a1) false c hp (fits_false c) d)
      (fun hp c d => inferAll_exact args false c hp (fits_false c) d)
  | .call id (.namedArg i1 b1 e1) args, b, c, h, _, d => call_other id (.namedArg i1 b1 e1) args c (by simp) (by simpa only [Plain] using h) d
      (fun hp c d => infer_exact (.namedArg i1 b1 e1) false c hp (fits_false c) d)
      (fun hp c d => inferAll_exact args false c hp (fits_false c) d)
  | .call id (.node i1 es1) args, b, c, h, _, d => call_other id (.node i1 es1) args c (by simp) (by simpa only [Plain] using h) d
      (fun hp c d => infer_exact (.node i1 es1) false c hp (fits_false c) d)
      (fun hp c d => inferAll_exact args false c hp (fits_false c) d)
  | .methodCall id e (.enumStruct f) args, b, c, h, _, d => by
    simp only [Plain] at h
    obtain ⟨h1, h2, h3⟩ := h
    have e1 := infer_exact e false (some none) h1 (fits_false _) d
    simp only [infer, infer_unknown e h2, Current.set, List.mem_append]
    rw [e1, inferAll_exact args true _ h3 (fun _ => ⟨f, [], rfl⟩) d, flagged_method]
  | .methodCall id e (.methodmap f) args, b, c, h, _, d => by
    simp only [Plain] at h
    have e1 := infer_exact e false (some none) h.1 (fits_false _) d
    simp only [infer, List.mem_append]
    rw [e1, inferAll_exact args false _ h.2 (fits_false _) d, flagged_method]
  | .methodCall id e .unresolved args, b, c, h, _, d => by
    simp only [Plain] at h
    have e1 := infer_exact e false (some none) h.1 (fits_false _) d
    simp only [infer, List.mem_append]
    rw [e1, inferAll_exact args false _ h.2 (fits_false _) d, flagged_method]
  | .namedArg id i v, b, c, h, hf, d => by
    simp only [Plain] at h
    obtain ⟨rfl, rfl, h⟩ := h
    obtain ⟨f, fs, rfl⟩ := hf rfl
    simp only [infer, if_true]
    rw [flagged_named, infer_exact v true _ h hf d]
  | .node id es, b, c, h, hf, d => by
    simp only [Plain] at h
    simp only [infer]
    rw [flagged_node, inferAll_exact es b c h hf d]

theorem inferAll_exact : ∀ (es : List Expr) (b : Bool) (c : Current), PlainAll b es → Fits b c → ∀ d, d ∈ (inferAll c es).2 ↔ FlaggedIn es d
  | [], b, c, _, _, d => by simp only [inferAll, List.not_mem_nil, false_iff]; exact flaggedIn_nil d
  | e :: es, b, c, h, hf, d => by
    simp only [PlainAll] at h
    simp only [inferAll, List.mem_append]
    have hf' : Fits b (infer c e).1 := by
      intro hb
      obtain ⟨f, fs, rfl⟩ := hf hb
      exact ⟨f, fs, infer_known _ e⟩
    rw [infer_exact e b c h.1 hf d, inferAll_exact es b _ h.2 hf' d, flaggedIn_cons]

theorem call_other (id : Nat) (e : Expr) (args : List Expr) (c : Current) (he : ∀ cid f fs, e ≠ .ident cid (.functions (f :: fs)))
    (h : Plain false e ∧ NoFunction e ∧ PlainAll false args ∧ NoFunctionAll args) (d : Diag)
    (ih : Plain false e → ∀ c d, d ∈ (infer c e).2 ↔ Flagged e d) (ihs : PlainAll false args → ∀ c d, d ∈ (inferAll c args).2 ↔ FlaggedIn args d) :
    d ∈ (infer c (.call id e args)).2 ↔ Flagged (.call id e args) d := by
  obtain ⟨h1, h2, h3, h4⟩ := h
  simp only [infer, infer_unknown e h2, inferAll_unknown args h4, check, List.append_nil, List.mem_append]
  rw [ih h1, ihs h3, flagged_call' id e args d he]
end

/-- **C47**, for bodies where callees are resolved or take no functions as arguments, and for calls of functions (not of methods): the
diagnostics are exactly those of the calls whose number of arguments is below the number of mandatory parameters, or above the number of
parameters of a function without rest parameter; they name the violated bound. -/
theorem arity_partial (body : Expr) (h : Plain false body) (d : Diag) :
    d ∈ diagnostics body ↔ ∃ c f, Calls body c f ∧ Reports c f d :=
  infer_exact body false none h (fits_false _) d

/-- For a single call of a function, whatever surrounds it and whatever its arguments are: beyond the diagnostics of its arguments there is
exactly the one for the violated bound. -/
theorem single_call (cur : Current) (id cid : Nat) (f : Fn) (fs : List Fn) (args : List Expr) :
    ∃ own, (infer cur (.call id (.ident cid (.functions (f :: fs))) args)).2 = (inferAll (some (some (f :: fs))) args).2 ++ own ∧
      own.length ≤ 1 ∧ ∀ d, d ∈ own ↔ Reports (.call id (.ident cid (.functions (f :: fs))) args) f d := by
  refine ⟨check (some (some (f :: fs))) id args, ?_, ?_, fun d => mem_check _ _ _ _ _ _⟩
  · simp only [infer, Current.set, inferAll_known, List.nil_append]
  · simp only [check]
    split
    · simp
    · split
      · split <;> simp
      · simp

def two : Fn := ⟨['c', 'b'], [⟨false, false⟩, ⟨false, false⟩]⟩

/-- C47 does not hold if the callee is unknown: `unknown(cb)` is flagged, with the name and the parameters of `cb`. -/
theorem unknown_callee_refuted : diagnostics (.call 0 (.ident 1 .other) [.ident 2 (.functions [two])]) = [⟨2, ['c', 'b'], 2, 1⟩] ∧
    ∀ c f, ¬Calls (.call 0 (.ident 1 .other) [.ident 2 (.functions [two])]) c f := by
  refine ⟨by decide, fun c f h => ?_⟩
  cases h with
  | callee _ _ _ _ _ h => cases h
  | arg _ _ _ _ _ h =>
    cases h with
    | head _ _ _ _ h => cases h
    | tail _ _ _ _ h => cases h

/-- C47 does not hold for calls of methods: `x.m()` is not flagged for a method with two parameters, of an enum struct or a methodmap. -/
theorem method_refuted : diagnostics (.methodCall 0 (.ident 1 .other) (.enumStruct two) []) = [] ∧
    diagnostics (.methodCall 0 (.ident 1 .other) (.methodmap two) []) = [] ∧ Violates two 0 2 :=
  ⟨by decide, by decide, .inl ⟨by decide, by decide⟩⟩

/-- C47 does not hold below a named argument of a method of a methodmap: in `x.m(.a = cb())` the call of `cb` is not flagged. -/
theorem named_argument_refuted :
    diagnostics (.methodCall 0 (.ident 1 .other) (.methodmap two) [.namedArg 2 true (.call 3 (.ident 4 (.functions [two])) [])]) = [] ∧
    ∃ d, Flagged (.methodCall 0 (.ident 1 .other) (.methodmap two) [.namedArg 2 true (.call 3 (.ident 4 (.functions [two])) [])]) d := by
  refine ⟨by decide, ⟨3, ['c', 'b'], 2, 0⟩, _, two, .marg _ _ _ _ _ _ (.head _ _ _ _ (.named _ _ _ _ _ (.here _ _ _ _ _))), 3, _, _, rfl,
    .inl ⟨by decide, by decide⟩, rfl, rfl, rfl⟩

/-! ## The hypotheses are met -/

def opt : Fn := ⟨['o'], [⟨false, false⟩, ⟨true, false⟩]⟩
def rest : Fn := ⟨['r'], [⟨false, false⟩, ⟨false, true⟩]⟩

/-- `{ o(cb(), 1, 2); r(); x.m(.a = o()); unknown(1); o(cb); }` where `m` is a method of an enum struct -/
def body : Expr := .node 0 [
  .call 1 (.ident 2 (.functions [opt])) [.call 3 (.ident 4 (.functions [two])) [], .node 5 [], .node 6 []],
  .call 7 (.ident 8 (.functions [rest])) [],
  .methodCall 9 (.ident 10 .other) (.enumStruct two) [.namedArg 11 true (.call 12 (.ident 13 (.functions [opt])) [])],
  .call 14 (.ident 15 .other) [.node 16 []],
  .call 17 (.ident 18 (.functions [opt])) [.ident 19 (.functions [two])]]

example : Plain false body := by simp [body, Plain, PlainAll, NoFunction, NoFunctionAll]
example : diagnostics body = [⟨3, ['c', 'b'], 2, 0⟩, ⟨6, ['o'], 2, 3⟩, ⟨7, ['r'], 1, 0⟩, ⟨12, ['o'], 1, 0⟩] := by decide

end Verif.Props.Arity
