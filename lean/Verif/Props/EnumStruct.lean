import Verif.Hir.EnumStruct
/-!
# C46, C58: going to the members of an enum struct
-/

namespace Verif.Props.EnumStruct
open Verif.Hir.EnumStruct Verif.Hir.EnumStruct.Spec

theorem data_items (ms : List Member) : ∀ d : Data, (ms.foldl Data.add d).items = d.items ++ ms := by
  induction ms with
  | nil => intro d; simp
  | cons m ms ih => intro d; rw [List.foldl_cons, ih]; simp [Data.add]

theorem items_eq (ms : List Member) : (data ms).items = ms := by simpa [data] using data_items ms {}

theorem childSource_append (a b : List Member) : childSource (a ++ b) = childSource a ++ childSource b := by
  induction a with
  | nil => rfl
  | cons m a ih => cases m <;> simp [childSource, ih]

theorem childSource_sub (ms : List Member) : (childSource ms).Sublist (ms.map Member.ptr) := by
  induction ms with
  | nil => exact List.Sublist.refl _
  | cons m ms ih =>
    cases m with
    | field n p => simpa [childSource, Member.ptr] using ih
    | method n p => exact List.Sublist.cons _ ih

theorem mem_childSource {ms : List Member} {n : Name} {p : Nat} (h : .field n p ∈ ms) : p ∈ childSource ms := by
  induction ms with
  | nil => simp at h
  | cons m ms ih =>
    rcases List.mem_cons.1 h with rfl | h'
    · simp [childSource]
    · have := ih h'
      cases m <;> simp [childSource, this]

/-- The first loop never leaves the arena: it meets as many fields as there are nodes left. -/
theorem firstLoop_some (src : List Nat) : ∀ (ms : List Member) (idx k : Nat) (acc : List (Nat × Nat)),
    k + (childSource ms).length ≤ src.length → ∃ m, firstLoop src idx k ms acc = some m := by
  intro ms
  induction ms with
  | nil => intro idx k acc _; exact ⟨acc, rfl⟩
  | cons m ms ih =>
    intro idx k acc h
    cases m with
    | field n p =>
      simp only [childSource, List.length_cons] at h
      have : src[k]? = some (src[k]'(by omega)) := List.getElem?_eq_getElem _
      simp only [firstLoop, this]
      exact ih _ _ _ (by omega)
    | method n p => exact ih _ _ _ h

theorem secondLoop_lookup (p : Nat) : ∀ (ps : List Nat) (k : Nat) (acc : List (Nat × Nat)), ps.Nodup → ∀ i, ps[i]? = some p →
    (secondLoop k ps acc).lookup p = some (k + i) := by
  have out : ∀ (ps : List Nat) (k : Nat) (acc : List (Nat × Nat)), p ∉ ps → (secondLoop k ps acc).lookup p = acc.lookup p := by
    intro ps
    induction ps with
    | nil => intro k acc _; rfl
    | cons q ps ih =>
      intro k acc h
      rw [List.mem_cons, not_or] at h
      rw [secondLoop, ih _ _ h.2]
      have : (p == q) = false := by simpa using h.1
      simp [List.lookup, this]
  intro ps
  induction ps with
  | nil => intro k acc _ i h; simp at h
  | cons q ps ih =>
    intro k acc hnd i h
    rw [List.nodup_cons] at hnd
    cases i with
    | zero =>
      simp only [List.getElem?_cons_zero, Option.some.injEq] at h
      subst h
      rw [secondLoop, out _ _ _ hnd.1]
      simp [List.lookup]
    | succ i =>
      simp only [List.getElem?_cons_succ] at h
      rw [secondLoop, ih _ _ hnd.2 i h]
      congr 1; omega

theorem fieldMap_some (ms : List Member) : ∃ m, fieldMap ms = some (secondLoop 0 (childSource ms) m) := by
  obtain ⟨m, hm⟩ := firstLoop_some (childSource ms) ms 0 0 [] (by omega)
  exact ⟨m, by rw [fieldMap, items_eq, hm]; rfl⟩

/-- **C46.** Going to the definition from the declaration of a field gives that field, whatever the order of fields and methods. -/
theorem field_to_itself (ms : List Member) (hd : Distinct ms) (n : Name) (p : Nat) (h : .field n p ∈ ms) : gotoFromField ms p = .node p := by
  obtain ⟨m, hm⟩ := fieldMap_some ms
  obtain ⟨i, hi⟩ := List.getElem?_of_mem (mem_childSource h)
  have := secondLoop_lookup p (childSource ms) 0 m (List.Nodup.sublist (childSource_sub ms) hd) i hi
  rw [Nat.zero_add] at this
  simp only [gotoFromField, hm, this, fieldSource, hi]

theorem functionMap_lookup (p : Nat) : ∀ (ms : List Member) (k : Nat) (acc : List (Nat × Nat)), (ms.map Member.ptr).Nodup → ∀ i n,
    ms[i]? = some (.method n p) → (functionMap k ms acc).lookup p = some (k + i) := by
  have out : ∀ (ms : List Member) (k : Nat) (acc : List (Nat × Nat)), p ∉ ms.map Member.ptr → (functionMap k ms acc).lookup p = acc.lookup p := by
    intro ms
    induction ms with
    | nil => intro k acc _; rfl
    | cons m ms ih =>
      intro k acc h
      rw [List.map_cons, List.mem_cons, not_or] at h
      cases m with
      | field n q => exact ih _ _ h.2
      | method n q =>
        rw [functionMap, ih _ _ h.2]
        have : (p == q) = false := by simpa [Member.ptr] using h.1
        simp [List.lookup, this]
  intro ms
  induction ms with
  | nil => intro k acc _ i n h; simp at h
  | cons m ms ih =>
    intro k acc hnd i n h
    rw [List.map_cons, List.nodup_cons] at hnd
    cases i with
    | zero =>
      simp only [List.getElem?_cons_zero, Option.some.injEq] at h
      subst h
      rw [functionMap, out _ _ _ hnd.1]
      simp [List.lookup]
    | succ i =>
      simp only [List.getElem?_cons_succ] at h
      cases m <;> (rw [functionMap, ih _ _ hnd.2 i n h]; congr 1; omega)

/-- The same for methods. -/
theorem method_to_itself (ms : List Member) (hd : Distinct ms) (n : Name) (p : Nat) (h : .method n p ∈ ms) : gotoFromMethod ms p = .node p := by
  obtain ⟨m, hm⟩ := fieldMap_some ms
  obtain ⟨i, hi⟩ := List.getElem?_of_mem h
  have := functionMap_lookup p ms 0 [] hd i n hi
  rw [Nat.zero_add] at this
  simp only [gotoFromMethod, hm, items_eq, this, methodSource, hi]

/-- A lookup by name finds the member, if no other has its name. -/
theorem itemsMap_lookup (ms : List Member) (hu : Unique ms) (i : Nat) (m : Member) (h : ms[i]? = some m) : (data ms).itemsMap.lookup m.name = some i := by
  have out : ∀ (ms : List Member) (d : Data), m.name ∉ ms.map Member.name → (ms.foldl Data.add d).itemsMap.lookup m.name = d.itemsMap.lookup m.name := by
    intro ms
    induction ms with
    | nil => intro d _; rfl
    | cons q ms ih =>
      intro d h
      rw [List.map_cons, List.mem_cons, not_or] at h
      rw [List.foldl_cons, ih _ h.2]
      have : (m.name == q.name) = false := by simpa using h.1
      simp [Data.add, List.lookup, this]
  have key : ∀ (ms : List Member) (d : Data), (ms.map Member.name).Nodup → ∀ i, ms[i]? = some m →
      (ms.foldl Data.add d).itemsMap.lookup m.name = some (d.items.length + i) := by
    intro ms
    induction ms with
    | nil => intro d _ i h; simp at h
    | cons q ms ih =>
      intro d hnd i h
      rw [List.map_cons, List.nodup_cons] at hnd
      cases i with
      | zero =>
        simp only [List.getElem?_cons_zero, Option.some.injEq] at h
        subst h
        rw [List.foldl_cons, out _ _ hnd.1]
        simp [Data.add, List.lookup]
      | succ i =>
        simp only [List.getElem?_cons_succ] at h
        rw [List.foldl_cons, ih _ hnd.2 i h]
        simp [Data.add]; omega
  simpa [data] using key ms {} hu i h

/-- Where a use of a field leads: to the field whose number among the fields is the number of the used field among all members. -/
theorem use_leads (ms : List Member) (hu : Unique ms) (i : Nat) (n : Name) (p : Nat) (h : ms[i]? = some (.field n p)) :
    gotoFromUse ms n = fieldSource ms i := by
  have := itemsMap_lookup ms hu i _ h
  rw [show (Member.field n p).name = n from rfl] at this
  simp only [gotoFromUse, this, items_eq, h]

theorem fieldsFirst_source : ∀ (ms : List Member) (i : Nat) (n : Name) (p : Nat), FieldsFirst ms i → ms[i]? = some (.field n p) →
    (childSource ms)[i]? = some p := by
  intro ms
  induction ms with
  | nil => intro i n p _ h; simp at h
  | cons m ms ih =>
    intro i n p hf h
    cases i with
    | zero =>
      simp only [List.getElem?_cons_zero, Option.some.injEq] at h
      subst h
      simp [childSource]
    | succ i =>
      obtain ⟨n', p', h0⟩ := hf 0 (by omega)
      simp only [List.getElem?_cons_zero, Option.some.injEq] at h0
      subst h0
      simp only [List.getElem?_cons_succ] at h
      simp only [childSource, List.getElem?_cons_succ]
      refine ih i n p (fun j hj => ?_) h
      simpa using hf (j + 1) (by omega)

/-- **C58**, for fields that no method precedes: a use of the field leads to its declaration. -/
theorem use_partial (ms : List Member) (hu : Unique ms) (i : Nat) (n : Name) (p : Nat) (h : ms[i]? = some (.field n p)) (hf : FieldsFirst ms i) :
    gotoFromUse ms n = .node p := by
  rw [use_leads ms hu i n p h, fieldSource, fieldsFirst_source ms i n p hf h]

/-- A call of a method leads to its declaration, whatever the order. -/
theorem call_leads (ms : List Member) (hu : Unique ms) (n : Name) (p : Nat) (h : .method n p ∈ ms) : gotoFromCall ms n = .node p := by
  obtain ⟨i, hi⟩ := List.getElem?_of_mem h
  have := itemsMap_lookup ms hu i _ hi
  rw [show (Member.method n p).name = n from rfl] at this
  simp only [gotoFromCall, this, items_eq, hi, methodSource]

/-- `enum struct S { int a; void m() {} int b; int c; }` -/
def mixed : List Member := [.field ['a'] 0, .method ['m'] 1, .field ['b'] 2, .field ['c'] 3]

/-- C58 does not hold for a field after a method: a use of `b` leads to the declaration of `c`, and a use of `c` panics. -/
theorem use_refuted : Distinct mixed ∧ Unique mixed ∧ .field ['b'] 2 ∈ mixed ∧ gotoFromUse mixed ['b'] = .node 3 ∧ gotoFromUse mixed ['c'] = .crash := by
  refine ⟨by decide, by decide, by decide, by decide, by decide⟩

/-! ## The hypotheses are met -/

example : gotoFromField mixed 2 = .node 2 := field_to_itself mixed (by decide) ['b'] 2 (by decide)
example : gotoFromMethod mixed 1 = .node 1 := method_to_itself mixed (by decide) ['m'] 1 (by decide)
example : gotoFromCall mixed ['m'] = .node 1 := call_leads mixed (by decide) ['m'] 1 (by decide)
example : FieldsFirst mixed 0 := fun j hj => absurd hj (by omega)
example : gotoFromUse [.field ['a'] 0, .field ['b'] 2, .method ['m'] 1] ['b'] = .node 2 :=
  use_partial _ (by decide) 1 ['b'] 2 rfl fun j hj => by
    obtain rfl : j = 0 := by omega
    exact ⟨_, _, rfl⟩

end Verif.Props.EnumStruct
