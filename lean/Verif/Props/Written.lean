import Verif.Hir.Written
import Verif.Hir.Pretty

/-!
C99: the words before a name are kept as they are written.
-/

namespace Verif.Props.Written

open Verif.Hir Verif.Hir.Written Verif.Hir.Written.Spec

theorem trim_one {x : Infer.Name} {c : Char} (h : c ≠ ':') : trimColons (x ++ [c] ++ [':']) = x ++ [c] := by
  simp [trimColons, h]

theorem toStr_node {n : Part} (h : Plain n) (hf : n.kind ≠ .float_) : toStr (fromNode n) = n.text := by
  unfold Plain at h
  unfold fromNode
  cases hk : n.kind <;> simp only [hk] at h <;> (try exact absurd hk hf) <;> simp only [toStr] <;> (try exact h.symm)
  obtain ⟨x, c, h, hc⟩ := h
  rw [h, trim_one hc]

theorem loop_dims {ns : List Part} (h : ∀ n ∈ ns, isDimension n) : ∀ t k, typeLoop ns (t, k) = (t, k + ns.length) := by
  induction ns with
  | nil => intro t k; rfl
  | cons n ns ih =>
    intro t k
    have ih := ih (fun m hm => h m (List.mem_cons_of_mem _ hm)) t (k + 1)
    rcases h n List.mem_cons_self with hk | hk <;> simp only [typeLoop, hk, List.length_cons, ih] <;> rw [Nat.add_right_comm, Nat.add_assoc]

theorem loop_append (xs ys : List Part) : ∀ r, typeLoop (xs ++ ys) r = typeLoop ys (typeLoop xs r) := by
  induction xs with
  | nil => intro r; rfl
  | cons n ns ih =>
    rintro ⟨t, k⟩
    simp only [List.cons_append, typeLoop]
    split <;> exact ih _

theorem loop_base {n : Part} (h : ¬ isDimension n) (ns : List Part) (t : Option Infer.TypeRef) (k : Nat) :
    typeLoop (n :: ns) (t, k) = typeLoop ns (some (fromNode n), k) := by
  simp only [typeLoop]
  split
  · next hk => exact absurd (.inl hk) h
  · next hk => exact absurd (.inr hk) h
  · rfl

/-- **C99 for types, all but the word `Float`**: the type shown is the one that is written, with an empty pair of brackets for every dimension. -/
theorem type_shown_partial {before after : List Part} {n : Part} (hb : ∀ d ∈ before ++ after, isDimension d) (hn : ¬ isDimension n) (hp : Plain n)
    (hf : n.kind ≠ .float_) :
    (fromReturnType (before ++ n :: after)).map toStr = some (n.text ++ (List.replicate (before.length + after.length) ['[', ']']).flatten) := by
  have hbr : ∀ k, brackets k = (List.replicate k ['[', ']']).flatten := by
    intro k
    induction k with
    | zero => rfl
    | succ k ih => simp [brackets, ih, List.replicate_succ]
  have hl : typeLoop (before ++ n :: after) (none, 0) = (some (fromNode n), before.length + after.length) := by
    rw [loop_append, loop_dims (fun d hd => hb d (List.mem_append_left _ hd)), loop_base hn, loop_dims (fun d hd => hb d (List.mem_append_right _ hd)),
      Nat.zero_add]
  rw [fromReturnType, hl]
  simp only
  split
  · simp [toStr, toStr_node hp hf, hbr]
  · next h =>
    have : before.length + after.length = 0 := by omega
    simp [toStr_node hp hf, this]

/-- There is a type exactly if one is written. -/
theorem type_iff (ns : List Part) : (∃ t, fromReturnType ns = some t) ↔ ∃ n ∈ ns, ¬ isDimension n := by
  have key : ∀ (ns : List Part) r, (typeLoop ns r).1.isSome ↔ r.1.isSome ∨ ∃ n ∈ ns, ¬ isDimension n := by
    intro ns
    induction ns with
    | nil => intro r; simp [typeLoop]
    | cons n ns ih =>
      rintro ⟨t, k⟩
      by_cases hn : isDimension n
      · have : typeLoop (n :: ns) (t, k) = typeLoop ns (t, k + 1) := by rcases hn with hk | hk <;> simp [typeLoop, hk]
        rw [this, ih]
        simp [hn]
      · rw [loop_base hn, ih]
        simp [hn]
  have := key ns (none, 0)
  simp only [Option.isSome_none, Bool.false_eq_true, false_or] at this
  rw [← this, fromReturnType]
  rcases h : typeLoop ns (none, 0) with ⟨_ | t, k⟩
  · simp
  · by_cases hk : k > 0 <;> simp [hk]

/-- **C99 is violated** by the word `Float`, which is shown as `float`. -/
theorem type_refuted : ∃ n, Plain n ∧ n.text = "Float".toList ∧ (fromReturnType [n]).map toStr = some "float".toList :=
  ⟨⟨.float_, "Float".toList⟩, rfl, rfl, by decide⟩

/-- `Foo` with two dimensions. -/
example : (fromReturnType [⟨.type, "Foo".toList⟩, ⟨.dimension, "[]".toList⟩, ⟨.fixedDimension, "[10]".toList⟩]).map toStr = some "Foo[][]".toList :=
  type_shown_partial (before := []) (n := ⟨.type, "Foo".toList⟩) (after := [⟨.dimension, "[]".toList⟩, ⟨.fixedDimension, "[10]".toList⟩])
    (by simp [isDimension]) (by simp [isDimension]) trivial (by simp)

/-- `Handle:` -/
example : (fromReturnType [⟨.oldType, "Handle:".toList⟩]).map toStr = some "Handle:".toList :=
  type_shown_partial (before := []) (n := ⟨.oldType, "Handle:".toList⟩) (after := []) (by simp) (by simp [isDimension])
    ⟨"Handl".toList, 'e', by decide, by decide⟩ (by simp)

/-! ### Kind and visibility -/

/-- **C99 for the visibility**: a function or variable is public, stock or static exactly if the word is written. -/
theorem visibility_written (ns : Option (List Part)) :
    ((visibility ns).pub = true ↔ ∃ l, ns = some l ∧ ∃ n ∈ l, n.kind = .«public») ∧
    ((visibility ns).stock = true ↔ ∃ l, ns = some l ∧ ∃ n ∈ l, n.kind = .stock) ∧
    ((visibility ns).static = true ↔ ∃ l, ns = some l ∧ ∃ n ∈ l, n.kind = .static) := by
  have key : ∀ (l : List Part) (v : Items.Vis),
      ((visLoop l v).pub = true ↔ v.pub = true ∨ ∃ n ∈ l, n.kind = .«public») ∧
      ((visLoop l v).stock = true ↔ v.stock = true ∨ ∃ n ∈ l, n.kind = .stock) ∧
      ((visLoop l v).static = true ↔ v.static = true ∨ ∃ n ∈ l, n.kind = .static) := by
    intro l
    induction l with
    | nil => intro v; simp [visLoop]
    | cons n ns ih =>
      intro v
      cases hk : n.kind <;> simp [visLoop, hk, ih]
  cases ns with
  | none => simp [visibility]
  | some l => simpa [visibility] using key l {}

/-- **C99 for the kind**: a function is a forward, a native or a definition according to the first such word that is written, a definition without one. -/
theorem kind_written (ns : Option (List Part)) :
    (fnKind ns = .forward ↔ ∃ l a n b, ns = some l ∧ l = a ++ n :: b ∧ n.kind = .forward ∧ ∀ m ∈ a, m.kind ≠ .native) ∧
    (fnKind ns = .native ↔ ∃ l a n b, ns = some l ∧ l = a ++ n :: b ∧ n.kind = .native ∧ ∀ m ∈ a, m.kind ≠ .forward) ∧
    (fnKind ns = .definition ↔ ∀ l, ns = some l → ∀ n ∈ l, n.kind ≠ .forward ∧ n.kind ≠ .native) := by
  have loop : ∀ l : List Part,
      (kindLoop l = .forward ↔ ∃ a n b, l = a ++ n :: b ∧ n.kind = .forward ∧ ∀ m ∈ a, m.kind ≠ .native) ∧
      (kindLoop l = .native ↔ ∃ a n b, l = a ++ n :: b ∧ n.kind = .native ∧ ∀ m ∈ a, m.kind ≠ .forward) ∧
      (kindLoop l = .definition ↔ ∀ n ∈ l, n.kind ≠ .forward ∧ n.kind ≠ .native) := by
    intro l
    induction l with
    | nil => simp [kindLoop]
    | cons n ns ih =>
      have cons : ∀ (P Q : Part → Prop), (∃ a m b, n :: ns = a ++ m :: b ∧ P m ∧ ∀ x ∈ a, Q x) ↔ P n ∨ Q n ∧ ∃ a m b, ns = a ++ m :: b ∧ P m ∧ ∀ x ∈ a, Q x := by
        intro P Q
        constructor
        · rintro ⟨a, m, b, h, hp, hq⟩
          cases a with
          | nil => simp only [List.nil_append, List.cons.injEq] at h; exact .inl (h.1 ▸ hp)
          | cons x a =>
            simp only [List.cons_append, List.cons.injEq] at h
            obtain ⟨rfl, h⟩ := h
            exact .inr ⟨hq _ List.mem_cons_self, a, m, b, h, hp, fun y hy => hq y (List.mem_cons_of_mem _ hy)⟩
        · rintro (hp | ⟨hq, a, m, b, h, hp, hq'⟩)
          · exact ⟨[], n, ns, rfl, hp, by simp⟩
          · refine ⟨n :: a, m, b, by simp [h], hp, fun x hx => ?_⟩
            rcases List.mem_cons.1 hx with rfl | hx
            · exact hq
            · exact hq' x hx
      obtain ⟨i1, i2, i3⟩ := ih
      rw [cons (fun m => m.kind = .forward) (fun m => m.kind ≠ .native), cons (fun m => m.kind = .native) (fun m => m.kind ≠ .forward), ← i1, ← i2]
      cases hk : n.kind <;> simp [kindLoop, hk, i3]
  cases ns with
  | none => simp [fnKind]
  | some l => simpa [fnKind] using loop l

/-- `public native` -/
example : fnKind (some [⟨.«public», "public".toList⟩, ⟨.native, "native".toList⟩]) = .native ∧ (visibility (some [⟨.stock, "stock".toList⟩, ⟨.static, "static".toList⟩])) = ⟨false, true, true⟩ := by
  decide

end Verif.Props.Written
