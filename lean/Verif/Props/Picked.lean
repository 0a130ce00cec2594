import Verif.Props.FindDef
import Mathlib.Data.List.Induction
/-!
# C60, exactly: which function a name in a body is looked up in
-/

namespace Verif.Props.Picked
open Verif.Hir Verif.Hir.FindDef Verif.Hir.FindDef.Spec

theorem head_flat (n : Name) (its : List Globals.Item) (d : Globals.Def) : (its.flatMap (Globals.part n)).head? = some d ↔
    d.kind ≠ .property ∧ ∃ before after, its = before ++ ⟨d.kind, some n, d.id⟩ :: after ∧ ∀ it ∈ before, it.name = some n → it.kind = .property := by
  induction its with
  | nil => simp
  | cons it its ih =>
    rw [List.flatMap_cons]
    by_cases h : it.name = some n ∧ it.kind ≠ .property
    · have hp : Globals.part n it = [⟨it.kind, it.id⟩] := by simp [Globals.part, h]
      rw [hp, List.cons_append, List.head?_cons, Option.some.injEq]
      constructor
      · rintro rfl
        refine ⟨h.2, [], its, ?_, by simp⟩
        obtain ⟨k, nm, i⟩ := it
        simp only at h
        simp [h.1]
      · rintro ⟨-, before, after, he, hb⟩
        cases before with
        | nil =>
          simp only [List.nil_append, List.cons.injEq] at he
          rw [he.1]
        | cons b before =>
          simp only [List.cons_append, List.cons.injEq] at he
          exact absurd (hb b (by simp) (he.1 ▸ h.1)) (he.1 ▸ h.2)
    · have hp : Globals.part n it = [] := by simp only [Globals.part, h, if_false]
      rw [hp, List.nil_append, ih]
      constructor
      · rintro ⟨hk, before, after, he, hb⟩
        refine ⟨hk, it :: before, after, by rw [he]; rfl, fun x hx hn => ?_⟩
        rcases List.mem_cons.1 hx with rfl | hx
        · exact Classical.not_not.1 fun hne => h ⟨hn, hne⟩
        · exact hb x hx hn
      · rintro ⟨hk, before, after, he, hb⟩
        cases before with
        | nil =>
          simp only [List.nil_append, List.cons.injEq] at he
          exact absurd ⟨by rw [he.1], by rw [he.1]; exact hk⟩ h
        | cons b before =>
          simp only [List.cons_append, List.cons.injEq] at he
          exact ⟨hk, before, after, he.2, fun x hx => hb x (List.mem_cons_of_mem _ hx)⟩

theorem first_iff (env : Env) (n : Name) (d : Globals.Def) : env.first n = some d ↔ First env n d.kind d.id := by
  unfold First
  rw [← head_flat]
  have hget := Globals.foldl_get env.items n { file := 0 }
  simp only [Hir.Globals.DefMap.get, List.lookup_nil, Option.getD_none, List.nil_append] at hget
  unfold Env.first Hir.Globals.DefMap.get
  rw [← hget]
  cases (List.lookup n (env.items.foldl Globals.DefMap.add { file := 0 }).values) <;> simp

theorem lookup_last (ms : List EnumStruct.Member) (m : Name) : ∀ idx, (EnumStruct.data ms).itemsMap.lookup m = some idx ↔
    (∃ mem, ms[idx]? = some mem ∧ mem.name = m) ∧ ∀ j mem, idx < j → ms[j]? = some mem → mem.name ≠ m := by
  induction ms using List.reverseRecOn with
  | nil => intro idx; simp [EnumStruct.data]
  | append_singleton ms x ih =>
    intro idx
    have hd : EnumStruct.data (ms ++ [x]) = (EnumStruct.data ms).add x := by simp [EnumStruct.data]
    rw [hd]
    simp only [EnumStruct.Data.add, EnumStruct.items_eq]
    by_cases hx : x.name = m
    · rw [List.lookup_cons, hx]
      simp only [beq_self_eq_true, Option.some.injEq]
      constructor
      · rintro rfl
        refine ⟨⟨x, by simp, hx⟩, fun j mem hj hm => ?_⟩
        rw [List.getElem?_append_right (by omega)] at hm
        have : j - ms.length ≠ 0 := by omega
        obtain ⟨k, hk⟩ := Nat.exists_eq_succ_of_ne_zero this
        simp [hk] at hm
      · rintro ⟨⟨mem, h1, h2⟩, h3⟩
        by_cases hi : idx < ms.length
        · exact absurd hx (h3 ms.length x hi (by simp))
        · have hlt := (List.getElem?_eq_some_iff.1 h1).1
          simp only [List.length_append, List.length_singleton] at hlt
          omega
    · have hb : (m == x.name) = false := by simpa using fun e => hx e.symm
      rw [List.lookup_cons, hb]
      simp only
      rw [ih]
      constructor
      · rintro ⟨⟨mem, h1, h2⟩, h3⟩
        have hlt := (List.getElem?_eq_some_iff.1 h1).1
        refine ⟨⟨mem, by rw [List.getElem?_append_left hlt]; exact h1, h2⟩, fun j y hj hy => ?_⟩
        by_cases hjl : j < ms.length
        · rw [List.getElem?_append_left hjl] at hy
          exact h3 j y hj hy
        · rw [List.getElem?_append_right (by omega)] at hy
          rcases Nat.eq_zero_or_pos (j - ms.length) with h0 | h0
          · simp only [h0, List.getElem?_cons_zero, Option.some.injEq] at hy
            rw [← hy]; exact hx
          · obtain ⟨k, hk⟩ := Nat.exists_eq_succ_of_ne_zero (Nat.ne_of_gt h0)
            simp [hk] at hy
      · rintro ⟨⟨mem, h1, h2⟩, h3⟩
        have hlt : idx < ms.length := by
          apply Classical.not_not.1
          intro hn
          rw [List.getElem?_append_right (by omega)] at h1
          rcases Nat.eq_zero_or_pos (idx - ms.length) with h0 | h0
          · simp only [h0, List.getElem?_cons_zero, Option.some.injEq] at h1
            exact hx (h1 ▸ h2)
          · obtain ⟨k, hk⟩ := Nat.exists_eq_succ_of_ne_zero (Nat.ne_of_gt h0)
            simp [hk] at h1
        rw [List.getElem?_append_left hlt] at h1
        exact ⟨⟨mem, h1, h2⟩, fun j y hj hy => h3 j y hj (by rw [List.getElem?_append_left (List.getElem?_eq_some_iff.1 hy).1]; exact hy)⟩

theorem esMethod_iff (env : Env) (id : Nat) (m : Name) (f : Fn) : env.esMethod id m = some f ↔ ∃ idx, f = .es id idx ∧ LastMethod (env.ess id) m idx := by
  unfold Env.esMethod LastMethod
  rw [EnumStruct.items_eq]
  constructor
  · intro h
    rw [Option.bind_eq_some_iff] at h
    obtain ⟨idx, h1, h2⟩ := h
    obtain ⟨⟨mem, h3, h4⟩, h5⟩ := (lookup_last _ _ _).1 h1
    rw [h3] at h2
    cases mem with
    | field _ _ => simp at h2
    | method n p =>
      simp only [Option.some.injEq] at h2
      simp only [EnumStruct.Member.name] at h4
      subst h4
      exact ⟨idx, h2.symm, ⟨p, h3⟩, h5⟩
  · rintro ⟨idx, rfl, ⟨ptr, h1⟩, h2⟩
    rw [(lookup_last (env.ess id) m idx).2 ⟨⟨_, h1, rfl⟩, h2⟩]
    simp [h1]

theorem chain_unique {mms : Nat → Methodmap.Methodmap} {id : Nat} {a b : List Nat} (ha : Methodmap.Spec.Chain mms id a) (hb : Methodmap.Spec.Chain mms id b) : a = b := by
  induction ha generalizing b with
  | last id h => cases hb with
    | last _ _ => rfl
    | step _ p l h' _ => rw [h] at h'; cases h'
  | step id p l h _ ih => cases hb with
    | last _ h' => rw [h] at h'; cases h'
    | step _ p' l' h' t => rw [h] at h'; cases h'; rw [ih t]

theorem data_iff (env : Env) (ha : Acyclic env) (ho : Methodmap.Spec.Iterates env.order) (id : Nat) :
    ∃ d, Methodmap.data env.mms env.order env.fuel id = some d ∧ ∀ m it, d.lookup m = some it ↔ MemberOf env id m it := by
  obtain ⟨chain, hc, hlen⟩ := ha id
  obtain ⟨d, h1, h2⟩ := Methodmap.lookup_member env.mms env.order ho id chain hc
  refine ⟨d, h1 _ hlen, fun m it => ?_⟩
  rw [h2]
  exact ⟨fun h => ⟨chain, hc, h⟩, fun ⟨c, h, h'⟩ => chain_unique hc h ▸ h'⟩

theorem accessor_iff (env : Env) (g : Bool) (it : Methodmap.Item) (f : Fn) : env.accessor g it = some f ↔
    ∃ fn ast before after, f = .mm fn ∧ it.kind = .property ∧ it.fns = before ++ (fn, ast) :: after ∧ env.isGetter fn = g ∧ ∀ x ∈ before, env.isGetter x.1 ≠ g := by
  unfold Env.accessor
  by_cases hk : it.kind = .property
  · rw [if_pos hk, Option.map_eq_some_iff]
    constructor
    · rintro ⟨x, h1, h2⟩
      obtain ⟨h3, before, after, h4, h5⟩ := List.find?_eq_some_iff_append.1 h1
      exact ⟨x.1, x.2, before, after, h2.symm, hk, h4, by simpa using h3, fun y hy => by simpa using h5 y hy⟩
    · rintro ⟨fn, ast, before, after, rfl, -, h4, h3, h5⟩
      exact ⟨(fn, ast), List.find?_eq_some_iff_append.2 ⟨by simpa using h3, before, after, h4, fun y hy => by simpa using h5 y hy⟩, rfl⟩
  · rw [if_neg hk]
    constructor
    · intro h; cases h
    · rintro ⟨_, _, _, _, _, h, _⟩; exact absurd h hk

theorem itemMethod_iff (it : Methodmap.Item) (f : Fn) : itemMethod it = some f ↔ ∃ fn ast more, f = .mm fn ∧ it.kind ≠ .property ∧ it.fns = (fn, ast) :: more := by
  unfold itemMethod
  by_cases hk : it.kind = .property
  · rw [if_pos hk]
    constructor
    · intro h; cases h
    · rintro ⟨_, _, _, _, h, _⟩; exact absurd hk h
  · rw [if_neg hk]
    cases hf : it.fns with
    | nil => simp
    | cons x l =>
      simp only [List.head?_cons, Option.map_some, Option.some.injEq]
      constructor
      · rintro rfl; exact ⟨x.1, x.2, l, rfl, hk, rfl⟩
      · rintro ⟨fn, ast, more, rfl, -, h⟩
        simp only [List.cons.injEq] at h
        rw [h.1]

theorem function_answer (env : Env) (inner : List Node) (hi : Plain inner) (n : Name) : env.findDef (inner ++ [.function (some n) .block, .sourceFile]) =
    match env.first n with
    | none => .nothing
    | some d => if d.kind = .function then .inside (.top d.id) true else .crash := by
  rw [FindDef.findDef_plain env inner hi _ _ _ rfl]
  rfl

/-- The functions the names of a method and its container lead to. -/
theorem member_answer (env : Env) (ha : Acyclic env) (ho : Methodmap.Spec.Iterates env.order) (inner : List Node) (hi : Plain inner) (c m : Name) (f : Fn) :
    env.findDef (inner ++ [.member (some m) .block, .container (some c), .sourceFile]) = .inside f true ↔
      (∃ id idx, f = .es id idx ∧ First env c .enumStruct id ∧ LastMethod (env.ess id) m idx) ∨
      ∃ id it fn ast more, f = .mm fn ∧ First env c .methodmap id ∧ MemberOf env id m it ∧ it.kind ≠ .property ∧ it.fns = (fn, ast) :: more := by
  rw [FindDef.findDef_plain env inner hi _ _ _ rfl]
  simp only [Env.dispatch, Env.methodNode, List.head?_cons]
  constructor
  · intro h
    cases hf : env.first c with
    | none => simp [hf] at h
    | some d =>
      have hfi := (first_iff env c d).1 hf
      simp only [hf] at h
      by_cases hk : d.kind = .enumStruct
      · rw [if_pos hk] at h
        cases he : env.esMethod d.id m with
        | none => simp [he] at h
        | some f' =>
          simp only [he, finish, Answer.inside.injEq, and_true] at h
          obtain ⟨idx, h1, h2⟩ := (esMethod_iff env d.id m f').1 he
          exact .inl ⟨d.id, idx, h ▸ h1, hk ▸ hfi, h2⟩
      · rw [if_neg hk] at h
        by_cases hk' : d.kind = .methodmap
        · rw [if_pos hk'] at h
          obtain ⟨data, hd, hl⟩ := data_iff env ha ho d.id
          simp only [hd] at h
          cases he : (data.lookup m).bind itemMethod with
          | none => simp [he] at h
          | some f' =>
            simp only [he, finish, Answer.inside.injEq, and_true] at h
            obtain ⟨it, h1, h2⟩ := Option.bind_eq_some_iff.1 he
            obtain ⟨fn, ast, more, h3, h4, h5⟩ := (itemMethod_iff it f').1 h2
            exact .inr ⟨d.id, it, fn, ast, more, h ▸ h3, hk' ▸ hfi, (hl m it).1 h1, h4, h5⟩
        · rw [if_neg hk'] at h; cases h
  · rintro (⟨id, idx, rfl, h1, h2⟩ | ⟨id, it, fn, ast, more, rfl, h1, h2, h3, h4⟩)
    · rw [(first_iff env c ⟨.enumStruct, id⟩).2 h1]
      simp only [if_true, (esMethod_iff env id m _).2 ⟨idx, rfl, h2⟩, finish]
    · obtain ⟨data, hd, hl⟩ := data_iff env ha ho id
      rw [(first_iff env c ⟨.methodmap, id⟩).2 h1]
      have he : (data.lookup m).bind itemMethod = some (.mm fn) := by
        rw [(hl m it).2 h2]
        exact (itemMethod_iff it _).2 ⟨fn, ast, more, rfl, h3, h4⟩
      simp only [reduceCtorEq, if_false, if_true, hd, he, finish]

/-- The accessors the names of a property and its methodmap lead to. -/
theorem accessor_answer (env : Env) (ha : Acyclic env) (ho : Methodmap.Spec.Iterates env.order) (inner : List Node) (hi : Plain inner) (c p : Name) (g : Bool) (f : Fn) :
    env.findDef (inner ++ [.propertyMethod (some g) .block, .property (some p), .container (some c), .sourceFile]) = .inside f true ↔
      ∃ id it fn ast before after, f = .mm fn ∧ First env c .methodmap id ∧ MemberOf env id p it ∧ it.kind = .property ∧ it.fns = before ++ (fn, ast) :: after ∧
        env.isGetter fn = g ∧ ∀ x ∈ before, env.isGetter x.1 ≠ g := by
  rw [FindDef.findDef_plain env inner hi _ _ _ rfl]
  simp only [Env.dispatch, Env.accessorNode]
  constructor
  · intro h
    cases hf : env.first c with
    | none => simp [hf] at h
    | some d =>
      have hfi := (first_iff env c d).1 hf
      obtain ⟨k, id⟩ := d
      by_cases hk : k = .methodmap
      · subst hk
        obtain ⟨data, hd, hl⟩ := data_iff env ha ho id
        simp only [hf, hd] at h
        cases he : (data.lookup p).bind (env.accessor g) with
        | none => simp [he] at h
        | some f' =>
          simp only [he, finish, Answer.inside.injEq, and_true] at h
          obtain ⟨it, h1, h2⟩ := Option.bind_eq_some_iff.1 he
          obtain ⟨fn, ast, before, after, h3, h4, h5, h6, h7⟩ := (accessor_iff env g it f').1 h2
          exact ⟨id, it, fn, ast, before, after, h ▸ h3, hfi, (hl p it).1 h1, h4, h5, h6, h7⟩
      · rw [hf] at h
        cases k <;> simp at h hk
  · rintro ⟨id, it, fn, ast, before, after, rfl, h1, h2, h3, h4, h5, h6⟩
    obtain ⟨data, hd, hl⟩ := data_iff env ha ho id
    rw [(first_iff env c ⟨.methodmap, id⟩).2 h1]
    have he : (data.lookup p).bind (env.accessor g) = some (.mm fn) := by
      rw [(hl p it).2 h2]
      exact (accessor_iff env g it _).2 ⟨fn, ast, before, after, rfl, h3, h4, h5, h6⟩
    simp only [hd, he, finish]

/-- **C60, exact.** For every file in which no methodmap inherits from itself, and every use in the body of a function, method or accessor: the name is looked up in the
function that the names around it lead to, where the first declaration of a name at the top level and the last one in an enum struct or methodmap count. -/
theorem picked_iff (env : Env) (ha : Acyclic env) (ho : Methodmap.Spec.Iterates env.order) (ancestors : List Node) (h : InBody ancestors) (f : Fn) :
    env.findDef ancestors = .inside f true ↔ Picked env ancestors f := by
  constructor
  · intro hd
    cases h with
    | function inner n hi =>
      rw [function_answer env inner hi n] at hd
      cases hf : env.first n with
      | none => simp [hf] at hd
      | some d =>
        simp only [hf] at hd
        by_cases hk : d.kind = .function
        · simp only [hk, if_true, Answer.inside.injEq, and_true] at hd
          subst hd
          exact .function inner n d.id hi (hk ▸ (first_iff env n d).1 hf)
        · simp [hk] at hd
    | member inner c m hi =>
      rcases (member_answer env ha ho inner hi c m f).1 hd with ⟨id, idx, rfl, h1, h2⟩ | ⟨id, it, fn, ast, more, rfl, h1, h2, h3, h4⟩
      · exact .es inner c m id idx hi h1 h2
      · exact .mm inner c m id fn ast it more hi h1 h2 h3 h4
    | accessor inner c p g hi =>
      obtain ⟨id, it, fn, ast, before, after, rfl, h1, h2, h3, h4, h5, h6⟩ := (accessor_answer env ha ho inner hi c p g f).1 hd
      exact .accessor inner c p g id fn ast it before after hi h1 h2 h3 h4 h5 h6
  · intro hp
    cases hp with
    | function inner n id hi h1 =>
      rw [function_answer env inner hi n, (first_iff env n ⟨.function, id⟩).2 h1]
      rfl
    | es inner c m id idx hi h1 h2 => exact (member_answer env ha ho inner hi c m _).2 (.inl ⟨id, idx, rfl, h1, h2⟩)
    | mm inner c m id fn ast it more hi h1 h2 h3 h4 => exact (member_answer env ha ho inner hi c m _).2 (.inr ⟨id, it, fn, ast, more, rfl, h1, h2, h3, h4⟩)
    | accessor inner c p g id fn ast it before after hi h1 h2 h3 h4 h5 h6 =>
      exact (accessor_answer env ha ho inner hi c p g _).2 ⟨id, it, fn, ast, before, after, rfl, h1, h2, h3, h4, h5, h6⟩

/-- **C60: panics.** The request panics exactly in the bodies of functions whose name the file first declares as something else. -/
theorem crash_iff (env : Env) (ha : Acyclic env) (ho : Methodmap.Spec.Iterates env.order) (ancestors : List Node) (h : InBody ancestors) :
    env.findDef ancestors = .crash ↔
      ∃ inner n k id, Plain inner ∧ ancestors = inner ++ [.function (some n) .block, .sourceFile] ∧ First env n k id ∧ k ≠ .function := by
  constructor
  · intro hd
    cases h with
    | function inner n hi =>
      rw [function_answer env inner hi n] at hd
      cases hf : env.first n with
      | none => simp [hf] at hd
      | some d =>
        simp only [hf] at hd
        by_cases hk : d.kind = .function
        · simp [hk] at hd
        · exact ⟨inner, n, d.kind, d.id, hi, rfl, (first_iff env n d).1 hf, hk⟩
    | member inner c m hi =>
      rw [FindDef.findDef_plain env inner hi _ _ _ rfl] at hd
      simp only [Env.dispatch, Env.methodNode, List.head?_cons] at hd
      cases hf : env.first c with
      | none => simp [hf] at hd
      | some d =>
        obtain ⟨data, hdt, -⟩ := data_iff env ha ho d.id
        simp only [hf, hdt] at hd
        split at hd
        · split at hd <;> simp [finish] at hd
        · split at hd
          · split at hd <;> simp [finish] at hd
          · cases hd
    | accessor inner c p g hi =>
      rw [FindDef.findDef_plain env inner hi _ _ _ rfl] at hd
      simp only [Env.dispatch, Env.accessorNode] at hd
      cases hf : env.first c with
      | none => simp [hf] at hd
      | some d =>
        obtain ⟨k, id⟩ := d
        obtain ⟨data, hdt, -⟩ := data_iff env ha ho id
        cases k <;> simp only [hf, hdt, reduceCtorEq] at hd
        split at hd <;> simp [finish] at hd
  · rintro ⟨inner, n, k, id, hi, rfl, h1, h2⟩
    rw [function_answer env inner hi n, (first_iff env n ⟨k, id⟩).2 h1]
    simp [h2]

/-- The file of `forward_refuted`: the declaration is picked. -/
example : Picked FindDef.forwarded [.other, .function (some ['f']) .block, .sourceFile] (.top 1) :=
  .function [.other] ['f'] 1 (by simp [Plain]) ⟨by decide, [], [⟨.function, some ['f'], 2⟩], rfl, by simp⟩

/-- In a file with a second function of the name of a method, the method is still found: what else the file declares does not matter. -/
example : (let env := { FindDef.sample with items := FindDef.sample.items ++ [⟨.function, some ['m'], 2⟩, ⟨.function, some ['S'], 3⟩] }
    Picked env [.other, .member (some ['m']) .block, .container (some ['S']), .sourceFile] (.es 0 1)) :=
  .es [.other] ['S'] ['m'] 0 1 (by simp [Plain])
    ⟨by decide, [⟨.function, some ['f'], 1⟩], [⟨.methodmap, some ['M'], 0⟩, ⟨.function, some ['m'], 2⟩, ⟨.function, some ['S'], 3⟩], rfl, by decide⟩
    ⟨⟨11, rfl⟩, fun j mem hj hm => by
      have := (List.getElem?_eq_some_iff.1 hm).1
      simp [FindDef.sample] at this
      omega⟩

example : InBody [.other, .member (some ['m']) .block, .container (some ['S']), .sourceFile] := .member [.other] ['S'] ['m'] (by simp [Plain])

end Verif.Props.Picked
