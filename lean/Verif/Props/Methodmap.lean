import Verif.Hir.Methodmap
/-!
# C45, C59: members of methodmaps
-/

namespace Verif.Props.Methodmap
open Verif.Hir.Methodmap Verif.Hir.Methodmap.Spec

/-! ## The hash map -/

def Keys (m : List (Name × Nat)) : List Name := m.map (·.1)

theorem insert_lookup (n k : Name) (i : Nat) (m : List (Name × Nat)) : (put n i m).lookup k = if k = n then some i else m.lookup k := by
  induction m with
  | nil =>
    by_cases h : k = n
    · subst h; simp [put, List.lookup]
    · have hb : (k == n) = false := by simpa using h
      simp [put, List.lookup, hb, h]
  | cons p rest ih =>
    obtain ⟨m, j⟩ := p
    rw [put]
    by_cases hm : m = n
    · subst hm
      rw [if_pos rfl]
      by_cases h : k = m
      · subst h; simp [List.lookup]
      · have hb : (k == m) = false := by simpa using h
        simp [List.lookup, hb, h]
    · rw [if_neg hm]
      by_cases h : k = m
      · subst h; simp [List.lookup, hm]
      · have hb : (k == m) = false := by simpa using h
        simp only [List.lookup, hb, ih]

theorem mem_insert_keys (n k : Name) (i : Nat) (m : List (Name × Nat)) : k ∈ Keys (put n i m) ↔ k = n ∨ k ∈ Keys m := by
  induction m with
  | nil => simp [put, Keys]
  | cons p rest ih =>
    obtain ⟨m, j⟩ := p
    rw [put]
    by_cases hm : m = n
    · subst hm; simp [Keys]
    · rw [if_neg hm]
      simp only [Keys, List.map_cons, List.mem_cons] at ih ⊢
      rw [ih]
      constructor
      · rintro (h | h | h) <;> simp [h]
      · rintro (h | h | h) <;> simp [h]

theorem insert_nodup (n : Name) (i : Nat) (m : List (Name × Nat)) (h : (Keys m).Nodup) : (Keys (put n i m)).Nodup := by
  induction m with
  | nil => simp [put, Keys]
  | cons p rest ih =>
    obtain ⟨m, j⟩ := p
    rw [put]
    simp only [Keys, List.map_cons, List.nodup_cons] at h
    by_cases hm : m = n
    · subst hm; simpa [Keys] using h
    · rw [if_neg hm]
      simp only [Keys, List.map_cons, List.nodup_cons]
      refine ⟨fun hk => ?_, ih h.2⟩
      rcases (mem_insert_keys n m i rest).1 hk with h' | h'
      · exact hm h'
      · exact h.1 h'

theorem mem_of_mem_insert (n : Name) (i : Nat) (m : List (Name × Nat)) (p : Name × Nat) (h : p ∈ put n i m) : p = (n, i) ∨ p ∈ m := by
  induction m with
  | nil => simpa [put] using h
  | cons q rest ih =>
    obtain ⟨k, j⟩ := q
    rw [put] at h
    by_cases hm : k = n
    · rw [if_pos hm, List.mem_cons] at h
      rcases h with h | h
      · exact .inl h
      · exact .inr (List.mem_cons_of_mem _ h)
    · rw [if_neg hm, List.mem_cons] at h
      rcases h with h | h
      · exact .inr (by simp [h])
      · rcases ih h with h | h
        · exact .inl h
        · exact .inr (List.mem_cons_of_mem _ h)

theorem lookup_of_mem {α : Type} (m : List (Name × α)) (hn : (m.map (·.1)).Nodup) (k : Name) (i : α) (h : (k, i) ∈ m) : m.lookup k = some i := by
  induction m with
  | nil => simp at h
  | cons p rest ih =>
    obtain ⟨n, j⟩ := p
    simp only [List.map_cons, List.nodup_cons] at hn
    rcases List.mem_cons.1 h with h' | h'
    · obtain ⟨rfl, rfl⟩ := Prod.mk.inj h'; simp [List.lookup]
    · have : k ≠ n := by
        rintro rfl
        exact hn.1 (List.mem_map.2 ⟨(k, i), h', rfl⟩)
      have hb : (k == n) = false := by simpa using this
      simp only [List.lookup, hb]
      exact ih hn.2 h'

theorem mem_of_lookup {α : Type} (m : List (Name × α)) (k : Name) (i : α) (h : m.lookup k = some i) : (k, i) ∈ m := by
  induction m with
  | nil => simp at h
  | cons p rest ih =>
    obtain ⟨n, j⟩ := p
    by_cases hk : k = n
    · subst hk
      simp only [List.lookup, beq_self_eq_true, Option.some.injEq] at h
      subst h; simp
    · have hb : (k == n) = false := by simpa using hk
      simp only [List.lookup, hb] at h
      exact List.mem_cons_of_mem _ (ih h)

/-! ## The arena and its map -/

structure Good (d : Data) : Prop where
  keys : (Keys d.itemsMap).Nodup
  range : ∀ p ∈ d.itemsMap, p.2 < d.items.length

theorem good_empty : Good {} := ⟨by simp [Keys], by simp⟩

theorem good_add (d : Data) (p : Name × Item) (h : Good d) : Good (d.addPair p) := by
  refine ⟨insert_nodup _ _ _ h.keys, ?_⟩
  intro q hq
  simp only [Data.addPair, Data.add, List.length_append, List.length_singleton] at hq ⊢
  rcases mem_of_mem_insert _ _ _ _ hq with rfl | hq
  · simp
  · have := h.range q hq; omega

theorem lookup_add (d : Data) (p : Name × Item) (h : Good d) (k : Name) : (d.addPair p).lookup k = if k = p.1 then some p.2 else d.lookup k := by
  simp only [Data.lookup, Data.addPair, Data.add, insert_lookup]
  by_cases hk : k = p.1
  · simp [hk]
  · rw [if_neg hk, if_neg hk]
    cases hl : d.itemsMap.lookup k with
    | none => rfl
    | some i =>
      have := h.range _ (mem_of_lookup _ _ _ hl)
      simp only [Option.bind_some]
      exact List.getElem?_append_left this

/-- The last pair with that name. -/
def last (l : List (Name × Item)) (k : Name) : Option Item := (l.reverse.find? (·.1 = k)).map (·.2)

theorem last_cons (p : Name × Item) (l : List (Name × Item)) (k : Name) : last (p :: l) k = (last l k).or (if p.1 = k then some p.2 else none) := by
  simp only [last, List.reverse_cons, List.find?_append]
  cases h : l.reverse.find? (fun x => decide (x.1 = k)) with
  | some x => simp
  | none =>
    by_cases hp : p.1 = k
    · simp [hp]
    · simp [hp]

theorem foldl_good (l : List (Name × Item)) : ∀ d : Data, Good d → Good (l.foldl Data.addPair d) ∧
    (∀ k, (l.foldl Data.addPair d).lookup k = (last l k).or (d.lookup k)) ∧ (l.foldl Data.addPair d).items = d.items ++ l.map (·.2) := by
  induction l with
  | nil => intro d h; exact ⟨h, fun k => by simp [last], by simp⟩
  | cons p l ih =>
    intro d h
    obtain ⟨h1, h2, h3⟩ := ih (d.addPair p) (good_add d p h)
    refine ⟨h1, fun k => ?_, ?_⟩
    · rw [List.foldl_cons, h2, lookup_add d p h, last_cons]
      cases last l k with
      | some x => simp
      | none =>
        by_cases hp : p.1 = k
        · simp [hp]
        · simp [hp, Ne.symm hp]
    · rw [List.foldl_cons, h3]; simp [Data.addPair, Data.add]

theorem inherited_spec (d : Data) (m : List (Name × Nat)) (h : ∀ p ∈ m, p.2 < d.items.length) :
    ∃ l, inherited d m = some l ∧ l.map (·.1) = m.map (·.1) ∧ (∀ k it, (k, it) ∈ l → ∃ i, (k, i) ∈ m ∧ d.items[i]? = some it) := by
  induction m with
  | nil => exact ⟨[], rfl, rfl, by simp⟩
  | cons p m ih =>
    obtain ⟨n, i⟩ := p
    obtain ⟨l, h1, h2, h3⟩ := ih fun q hq => h q (List.mem_cons_of_mem _ hq)
    have hi : d.items[i]? = some (d.items[i]'(h (n, i) (by simp))) := List.getElem?_eq_getElem _
    refine ⟨_, by rw [inherited, hi, h1], by simp [h2], ?_⟩
    intro k it hk
    rcases List.mem_cons.1 hk with hk | hk
    · obtain ⟨rfl, rfl⟩ := Prod.mk.inj hk
      exact ⟨i, by simp, hi⟩
    · obtain ⟨j, hj, hj'⟩ := h3 k it hk
      exact ⟨j, List.mem_cons_of_mem _ hj, hj'⟩

theorem last_unique (l : List (Name × Item)) (hn : (l.map (·.1)).Nodup) (k : Name) : last l k = l.lookup k := by
  induction l with
  | nil => simp [last]
  | cons p l ih =>
    obtain ⟨n, it⟩ := p
    simp only [List.map_cons, List.nodup_cons] at hn
    rw [last_cons, ih hn.2]
    by_cases h : n = k
    · subst h
      have : l.lookup n = none := by
        cases hl : l.lookup n with
        | none => rfl
        | some x => exact absurd (List.mem_map.2 ⟨_, mem_of_lookup l n x hl, rfl⟩) hn.1
      simp [this, List.lookup]
    · have hb : (k == n) = false := by simpa using Ne.symm h
      simp [h, List.lookup, hb]

/-- Inheriting gives exactly the members of the parent. -/
theorem inherited_lookup (d : Data) (hd : Good d) (m : List (Name × Nat)) (hm : m.Perm d.itemsMap) :
    ∃ l, inherited d m = some l ∧ (∀ k, last l k = d.lookup k) ∧ ∀ p ∈ l, p.2 ∈ d.items := by
  obtain ⟨l, h1, h2, h3⟩ := inherited_spec d m fun p hp => hd.range p (hm.mem_iff.1 hp)
  have hmk : (m.map (·.1)).Nodup := (hm.map Prod.fst).nodup_iff.2 hd.keys
  have hlk : (l.map (·.1)).Nodup := by rw [h2]; exact hmk
  refine ⟨l, h1, fun k => ?_, ?_⟩
  · rw [last_unique l hlk]
    cases hl : l.lookup k with
    | some it =>
      obtain ⟨i, hi, hi'⟩ := h3 k it (mem_of_lookup l k it hl)
      have := lookup_of_mem d.itemsMap hd.keys k i (hm.mem_iff.1 hi)
      simp [Data.lookup, this, hi']
    | none =>
      have hk : k ∉ m.map (·.1) := by
        rw [← h2]
        intro hk
        obtain ⟨⟨k', it⟩, hk1, rfl⟩ := List.mem_map.1 hk
        rw [lookup_of_mem l hlk k' it hk1] at hl
        simp at hl
      have : d.itemsMap.lookup k = none := by
        cases hl' : d.itemsMap.lookup k with
        | none => rfl
        | some i => exact absurd (List.mem_map.2 ⟨_, hm.mem_iff.2 (mem_of_lookup _ _ _ hl'), rfl⟩) hk
      simp [Data.lookup, this]
  · rintro ⟨k, it⟩ hp
    obtain ⟨i, _, hi⟩ := h3 k it hp
    exact List.mem_of_getElem? hi

/-! ## The property -/

theorem own_eq (m : Methodmap) (n : Name) : own m n = last m.items n := rfl

/-- Everything about the data of a methodmap whose ancestors end. -/
theorem data_spec (mms : Nat → Methodmap) (order : Nat → List (Name × Nat) → List (Name × Nat)) (ho : Iterates order) (id : Nat) (chain : List Nat)
    (hc : Chain mms id chain) : ∀ fuel, chain.length ≤ fuel → ∃ d, data mms order fuel id = some d ∧ Good d ∧
      (∀ n, d.lookup n = member mms chain n) ∧
      ∃ inh, d.items = inh ++ (mms id).items.map (·.2) ∧ (∀ it ∈ inh, ∃ a ∈ chain.tail, it ∈ (mms a).items.map (·.2)) := by
  induction hc with
  | last id h =>
    intro fuel hf
    obtain ⟨fuel, rfl⟩ : ∃ f, fuel = f + 1 := ⟨fuel - 1, by simp at hf; omega⟩
    obtain ⟨h1, h2, h3⟩ := foldl_good (mms id).items {} good_empty
    refine ⟨_, by rw [data, h], h1, fun n => ?_, [], by simpa using h3, by simp⟩
    rw [h2]
    simp only [member, List.findSome?_cons, List.findSome?_nil, own_eq]
    cases last (mms id).items n <;> simp [Data.lookup]
  | step id p l h t ih =>
    intro fuel hf
    obtain ⟨fuel, rfl⟩ : ∃ f, fuel = f + 1 := ⟨fuel - 1, by simp at hf; omega⟩
    obtain ⟨pd, e1, e2, e3, inh', e4, e5⟩ := ih fuel (by simp at hf; omega)
    obtain ⟨inh, i1, i2, i3⟩ := inherited_lookup pd e2 _ (ho p pd.itemsMap)
    obtain ⟨g1, g2, g3⟩ := foldl_good inh {} good_empty
    obtain ⟨h1, h2, h3⟩ := foldl_good (mms id).items _ g1
    refine ⟨_, by rw [data, h]; simp only [e1, i1], h1, fun n => ?_, inh.map (·.2), by rw [h3, g3]; simp, ?_⟩
    · rw [h2, g2, i2, e3]
      simp only [member, List.findSome?_cons, own_eq]
      cases last (mms id).items n with
      | some x => simp
      | none => simp [Data.lookup]
    · intro it hit
      obtain ⟨q, hq, rfl⟩ := List.mem_map.1 hit
      have hpl : p ∈ l := by cases t <;> simp
      have := i3 q hq
      rw [e4, List.mem_append] at this
      simp only [List.tail_cons]
      rcases this with hm | hm
      · obtain ⟨a, ha, hm⟩ := e5 _ hm
        exact ⟨a, List.mem_of_mem_tail ha, hm⟩
      · exact ⟨p, hpl, hm⟩

/-- **C45**, the lookup: looking up a name in a methodmap gives its own (last) member of that name if it declares one, else the one of the
nearest ancestor that does, else nothing; whatever the order in which hash maps are iterated. -/
theorem lookup_member (mms : Nat → Methodmap) (order : Nat → List (Name × Nat) → List (Name × Nat)) (ho : Iterates order) (id : Nat) (chain : List Nat)
    (hc : Chain mms id chain) : ∃ d, (∀ fuel, chain.length ≤ fuel → data mms order fuel id = some d) ∧ ∀ n, d.lookup n = member mms chain n := by
  obtain ⟨d, h1, _, h2, _⟩ := data_spec mms order ho id chain hc chain.length (Nat.le_refl _)
  refine ⟨d, ?_, h2⟩
  have mono : ∀ fuel id d, data mms order fuel id = some d → ∀ k, data mms order (fuel + k) id = some d := by
    intro fuel
    induction fuel with
    | zero => intro id d h; simp [data] at h
    | succ fuel ih =>
      intro id d h k
      rw [show fuel + 1 + k = (fuel + k) + 1 by omega]
      rw [data] at h ⊢
      cases hp : (mms id).parent with
      | none => rw [hp] at h; exact h
      | some p =>
        rw [hp] at h
        simp only at h ⊢
        cases hd : data mms order fuel p with
        | none => rw [hd] at h; simp at h
        | some pd => rw [hd] at h; rw [ih p pd hd k]; exact h
  intro fuel hf
  obtain ⟨k, rfl⟩ : ∃ k, fuel = chain.length + k := ⟨fuel - chain.length, by omega⟩
  exact mono _ _ _ h1 k

/-- The data exist exactly if the chain of ancestors ends. -/
theorem data_iff (mms : Nat → Methodmap) (order : Nat → List (Name × Nat) → List (Name × Nat)) (ho : Iterates order) (id : Nat) :
    (∃ fuel d, data mms order fuel id = some d) ↔ ∃ chain, Chain mms id chain := by
  constructor
  · rintro ⟨fuel, d, h⟩
    induction fuel generalizing id d with
    | zero => simp [data] at h
    | succ fuel ih =>
      rw [data] at h
      cases hp : (mms id).parent with
      | none => exact ⟨[id], .last id hp⟩
      | some p =>
        rw [hp] at h
        simp only at h
        cases hd : data mms order fuel p with
        | none => rw [hd] at h; simp at h
        | some pd =>
          obtain ⟨l, hl⟩ := ih p pd hd
          exact ⟨id :: l, .step id p l hp hl⟩
  · rintro ⟨chain, hc⟩
    obtain ⟨d, h, _⟩ := lookup_member mms order ho id chain hc
    exact ⟨_, d, h _ (Nat.le_refl _)⟩

/-- **C45**, the constructor, if no ancestor declares one: construction uses the methodmap's own. -/
theorem constructor_partial (mms : Nat → Methodmap) (order : Nat → List (Name × Nat) → List (Name × Nat)) (ho : Iterates order) (id : Nat)
    (chain : List Nat) (hc : Chain mms id chain) (hno : ∀ a ∈ chain.tail, ownConstructor (mms a) = none) :
    ∃ d, data mms order chain.length id = some d ∧ d.constructor = ownConstructor (mms id) := by
  obtain ⟨d, h1, _, _, inh, h2, h3⟩ := data_spec mms order ho id chain hc chain.length (Nat.le_refl _)
  refine ⟨d, h1, ?_⟩
  rw [Data.constructor, h2, List.find?_append]
  have : inh.find? Item.isConstructor = none := by
    rw [List.find?_eq_none]
    intro it hit
    obtain ⟨a, ha, hm⟩ := h3 it hit
    exact List.find?_eq_none.1 (hno a ha) it hm
  rw [this]; rfl

def idOrder : Nat → List (Name × Nat) → List (Name × Nat) := fun _ m => m

/-- `methodmap P { public P(); public int f(); } methodmap Q < P { public Q(); }` -/
def two : Nat → Methodmap
  | 0 => ⟨0, none, [(['P'], ⟨.constructor, [(0, 1)], none⟩), (['f'], ⟨.method, [(1, 2)], none⟩)]⟩
  | 1 => ⟨0, some 0, [(['Q'], ⟨.constructor, [(2, 4)], none⟩), (['f'], ⟨.method, [(3, 5)], none⟩)]⟩
  | _ => ⟨0, none, []⟩

/-- C45 does not hold for constructors in general: `new Q()` uses the constructor of the parent, although `Q` declares its own. -/
theorem constructor_refuted : ownConstructor (two 1) = some ⟨.constructor, [(2, 4)], none⟩ ∧
    (data two idOrder 2 1).bind Data.constructor = some ⟨.constructor, [(0, 1)], none⟩ := by
  refine ⟨by decide, by decide⟩

/-- `methodmap A < B {} methodmap B < A {}` -/
def cyclic : Nat → Methodmap
  | 0 => ⟨0, some 1, []⟩
  | _ => ⟨0, some 0, []⟩

/-- C45 does not hold for a cyclic chain: there is no result, the query panics. -/
theorem cycle_refuted (order : Nat → List (Name × Nat) → List (Name × Nat)) : ∀ fuel, data cyclic order fuel 0 = none := by
  have : ∀ fuel id, data cyclic order fuel id = none := by
    intro fuel
    induction fuel with
    | zero => intro id; rfl
    | succ fuel ih =>
      intro id
      have : ∃ p, (cyclic id).parent = some p := by
        unfold cyclic; split <;> exact ⟨_, rfl⟩
      obtain ⟨p, hp⟩ := this
      rw [data, hp]; simp only [ih]
  exact fun fuel => this fuel 0

/-! ## From a declaration to the function -/

theorem insertFns_spec (arena : List Nat) (ha : arena.Nodup) : ∀ (l : List (Nat × Nat)) (acc : List (Nat × Nat)), (∀ p ∈ l, p.2 < arena.length) →
    ∃ m, insertFns arena l acc = some m ∧ (∀ ptr, (∀ p ∈ l, arena[p.2]? ≠ some ptr) → m.lookup ptr = acc.lookup ptr) ∧
      ((l.map (·.2)).Nodup → ∀ p ∈ l, ∀ ptr, arena[p.2]? = some ptr → m.lookup ptr = some p.1) := by
  intro l
  induction l with
  | nil => intro acc _; exact ⟨acc, rfl, fun _ _ => rfl, fun _ => by simp⟩
  | cons p l ih =>
    obtain ⟨fn, ast⟩ := p
    intro acc h
    have hx : ast < arena.length := h (fn, ast) (by simp)
    have hi : arena[ast]? = some (arena[ast]'hx) := List.getElem?_eq_getElem _
    obtain ⟨m, h1, h2, h3⟩ := ih ((arena[ast]'hx, fn) :: acc) fun q hq => h q (List.mem_cons_of_mem _ hq)
    refine ⟨m, by rw [insertFns, hi]; exact h1, ?_, ?_⟩
    · intro ptr hp
      rw [h2 ptr fun q hq => hp q (List.mem_cons_of_mem _ hq)]
      have : ptr ≠ arena[ast]'hx := by
        intro e
        exact hp (fn, ast) (by simp) (by rw [hi, e])
      have hb : (ptr == arena[ast]'hx) = false := by simpa using this
      simp [List.lookup, hb]
    · intro hn q hq ptr hptr
      simp only [List.map_cons, List.nodup_cons] at hn
      rcases List.mem_cons.1 hq with rfl | hq
      · rw [h2 ptr]
        · rw [hi] at hptr
          obtain rfl := Option.some.inj hptr
          simp [List.lookup]
        · intro q hq he
          apply hn.1
          have e : ast = q.2 := by
            have hq' : q.2 < arena.length := h q (List.mem_cons_of_mem _ hq)
            exact (List.getElem?_inj hx ha).1 (hptr.trans he.symm)
          rw [e]
          exact List.mem_map.2 ⟨q, hq, rfl⟩
      · exact h3 hn.2 q hq ptr hptr

theorem functionMap_spec (arena : List Nat) (ha : arena.Nodup) : ∀ (its : List Item) (acc : List (Nat × Nat)), (∀ it ∈ its, InRange arena it) →
    ∃ m, functionMap arena its acc = some m ∧
      (∀ ptr, (∀ p ∈ its.flatMap Item.fns, arena[p.2]? ≠ some ptr) → m.lookup ptr = acc.lookup ptr) ∧
      (((its.flatMap Item.fns).map (·.2)).Nodup → ∀ p ∈ its.flatMap Item.fns, ∀ ptr, arena[p.2]? = some ptr → m.lookup ptr = some p.1) := by
  intro its
  induction its with
  | nil => intro acc _; exact ⟨acc, rfl, fun _ _ => rfl, fun _ => by simp⟩
  | cons it its ih =>
    intro acc h
    have hr := h it (by simp)
    obtain ⟨m1, i1, i2, i3⟩ := insertFns_spec arena ha it.fns acc hr.1
    obtain ⟨m2, j1, j2, j3⟩ := ih m1 fun q hq => h q (List.mem_cons_of_mem _ hq)
    have hm : functionMap arena (it :: its) acc = some m2 := by
      rw [functionMap, i1]
      simp only
      cases hp : it.prop with
      | none => exact j1
      | some p =>
        have : arena[p.2]? = some (arena[p.2]'(hr.2 p hp)) := List.getElem?_eq_getElem _
        simp only [this]; exact j1
    refine ⟨m2, hm, ?_, ?_⟩
    · intro ptr hp
      rw [List.flatMap_cons] at hp
      rw [j2 ptr fun q hq => hp q (List.mem_append_right _ hq), i2 ptr fun q hq => hp q (List.mem_append_left _ hq)]
    · intro hn q hq ptr hptr
      rw [List.flatMap_cons, List.map_append] at hn
      rw [List.nodup_append] at hn
      rw [List.flatMap_cons, List.mem_append] at hq
      rcases hq with hq | hq
      · rw [j2 ptr]
        · exact i3 hn.1 q hq ptr hptr
        · intro r hr' he
          have e : q.2 = r.2 := (List.getElem?_inj (hr.1 q hq) ha).1 (hptr.trans he.symm)
          exact hn.2.2 _ (List.mem_map.2 ⟨q, hq, rfl⟩) _ (List.mem_map.2 ⟨r, hr', rfl⟩) e
      · exact j3 hn.2.1 q hq ptr hptr

theorem functionMap_append (arena : List Nat) : ∀ (a b : List Item) (acc : List (Nat × Nat)),
    functionMap arena (a ++ b) acc = (functionMap arena a acc).bind (functionMap arena b) := by
  intro a
  induction a with
  | nil => intro b acc; rfl
  | cons it a ih =>
    intro b acc
    rw [List.cons_append, functionMap, functionMap]
    cases insertFns arena it.fns acc with
    | none => rfl
    | some acc' =>
      simp only
      cases it.prop with
      | none => exact ih b acc'
      | some p =>
        simp only
        cases arena[p.2]? with
        | none => rfl
        | some _ => exact ih b acc'

/-- **C59**, if the indices of the inherited members, which count nodes of the file of the ancestor, exist in the file of the methodmap as
well: asking for the function declared at a node of the methodmap gives that function. -/
theorem function_to_itself_partial (mms : Nat → Methodmap) (order : Nat → List (Name × Nat) → List (Name × Nat)) (ho : Iterates order) (id : Nat)
    (chain : List Nat) (hc : Chain mms id chain) (arena : List Nat) (ha : arena.Nodup)
    (hown : ∀ p ∈ (mms id).items, InRange arena p.2) (hn : ((((mms id).items.map (·.2)).flatMap Item.fns).map (·.2)).Nodup)
    (hinh : ∀ a ∈ chain.tail, ∀ p ∈ (mms a).items, InRange arena p.2)
    (q : Name × Item) (hq : q ∈ (mms id).items) (fn ast ptr : Nat) (hf : (fn, ast) ∈ q.2.fns) (hp : arena[ast]? = some ptr) :
    ∃ d, data mms order chain.length id = some d ∧ fnToDef arena d ptr = .function fn := by
  obtain ⟨d, h1, _, _, inh, h2, h3⟩ := data_spec mms order ho id chain hc chain.length (Nat.le_refl _)
  refine ⟨d, h1, ?_⟩
  obtain ⟨m1, i1, _, _⟩ := functionMap_spec arena ha inh [] fun it hit => by
    obtain ⟨a, ha', hm⟩ := h3 it hit
    obtain ⟨p, hp, rfl⟩ := List.mem_map.1 hm
    exact hinh a ha' p hp
  obtain ⟨m2, j1, _, j3⟩ := functionMap_spec arena ha ((mms id).items.map (·.2)) m1 fun it hit => by
    obtain ⟨p, hp, rfl⟩ := List.mem_map.1 hit
    exact hown p hp
  have := j3 hn (fn, ast) (List.mem_flatMap.2 ⟨q.2, List.mem_map.2 ⟨q, hq, rfl⟩, hf⟩) ptr hp
  simp only [fnToDef, h2, functionMap_append, i1, Option.bind_some, j1, this]

/-- A methodmap in a short file that inherits from one in a long file. -/
def twoFiles : Nat → Methodmap
  | 0 => ⟨0, none, [(['f'], ⟨.method, [(0, 7)], none⟩)]⟩
  | 1 => ⟨1, some 0, [(['g'], ⟨.method, [(1, 1)], none⟩)]⟩
  | _ => ⟨0, none, []⟩

/-- C59 does not hold in general: the index of the inherited method, 7, is looked up in the file with three nodes, which panics. -/
theorem function_to_itself_refuted : (data twoFiles idOrder 2 1).map (fnToDef [10, 20, 30] · 20) = some .crash := by decide

/-! ## The hypotheses are met -/

theorem idOrder_iterates : Iterates idOrder := fun _ _ => List.Perm.refl _

theorem two_chain : Chain two 1 [1, 0] := .step 1 0 [0] rfl (.last 0 rfl)

example : ∃ d, (∀ fuel, 2 ≤ fuel → data two idOrder fuel 1 = some d) ∧ d.lookup ['f'] = some ⟨.method, [(3, 5)], none⟩ ∧
    d.lookup ['P'] = some ⟨.constructor, [(0, 1)], none⟩ ∧ d.lookup ['x'] = none := by
  obtain ⟨d, h1, h2⟩ := lookup_member two idOrder idOrder_iterates 1 [1, 0] two_chain
  exact ⟨d, h1, by rw [h2]; decide, by rw [h2]; decide, by rw [h2]; decide⟩

example : ∃ d, data two idOrder 1 0 = some d ∧ d.constructor = some ⟨.constructor, [(0, 1)], none⟩ :=
  constructor_partial two idOrder idOrder_iterates 0 [0] (.last 0 rfl) (by simp)

example : ∃ d, data two idOrder 2 1 = some d ∧ fnToDef [10, 20, 30, 40, 50, 60] d 60 = .function 3 := by
  refine function_to_itself_partial two idOrder idOrder_iterates 1 [1, 0] two_chain [10, 20, 30, 40, 50, 60] (by decide) ?_ (by decide) ?_
    (['f'], ⟨.method, [(3, 5)], none⟩) (by decide) 3 5 60 (by decide) rfl
  · intro p hp
    simp only [two, List.mem_cons, List.not_mem_nil, or_false] at hp
    rcases hp with rfl | rfl <;> exact ⟨by simp, by simp⟩
  · intro a ha p hp
    simp only [List.tail_cons, List.mem_singleton] at ha
    subst ha
    simp only [two, List.mem_cons, List.not_mem_nil, or_false] at hp
    rcases hp with rfl | rfl <;> exact ⟨by simp, by simp⟩

end Verif.Props.Methodmap
