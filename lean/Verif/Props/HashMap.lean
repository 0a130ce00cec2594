import Verif.Stdx.HashMap
import Mathlib.Data.List.Forall2
import Mathlib.Data.List.Perm.Subperm
/-!
# C48: macro tables hash by content
-/

namespace Verif.Props.HashMap
open Verif.Stdx Verif.Stdx.Spec

variable {K V H : Type}

theorem sorted_of (le : K → K → Bool) (ho : IsOrder le) (l : List (K × V)) :
    ((l.mergeSort fun a b => le a.1 b.1).map (·.1)).Pairwise (fun a b => le a b = true) := by
  rw [List.pairwise_map]
  exact List.pairwise_mergeSort (le := fun a b : K × V => le a.1 b.1) (fun a b c => ho.trans _ _ _) (fun a b => by simpa using ho.total a.1 b.1) l

theorem lookup_iff [DecidableEq K] (l : List (K × V)) (hn : (l.map (·.1)).Nodup) (k : K) (v : V) : l.lookup k = some v ↔ (k, v) ∈ l := by
  induction l with
  | nil => simp
  | cons p l ih =>
    obtain ⟨a, b⟩ := p
    simp only [List.map_cons, List.nodup_cons] at hn
    rw [List.lookup_cons]
    by_cases h : k = a
    · subst h
      simp only [beq_self_eq_true]
      constructor
      · intro e; simp only [Option.some.injEq] at e; subst e; simp
      · intro e
        rcases List.mem_cons.1 e with e | e
        · simp only [Prod.mk.injEq, true_and] at e; simp [e]
        · exact absurd (List.mem_map.2 ⟨_, e, rfl⟩) hn.1
    · have : (k == a) = false := by simpa using h
      simp only [this, ih hn.2, List.mem_cons, Prod.mk.injEq, h, false_and, false_or]

theorem lookup_none [DecidableEq K] (l : List (K × V)) (k : K) : l.lookup k = none ↔ k ∉ l.map (·.1) := by
  induction l with
  | nil => simp
  | cons p l ih =>
    obtain ⟨a, b⟩ := p
    rw [List.lookup_cons]
    by_cases h : k = a
    · subst h; simp
    · have : (k == a) = false := by simpa using h
      simp only [this, ih, List.map_cons, List.mem_cons, h, false_or]

theorem eq_of_sorted (le : K → K → Bool) (ho : IsOrder le) : ∀ (a b : List K), a.Perm b → a.Pairwise (fun x y => le x y = true) →
    b.Pairwise (fun x y => le x y = true) → a = b := by
  intro a b hp ha hb
  exact hp.eq_of_pairwise (fun x y _ _ h1 h2 => ho.antisymm x y h1 h2) ha hb

theorem pairs_related (R : V → V → Prop) : ∀ (a b : List (K × V)), a.map (·.1) = b.map (·.1) → (a.map (·.1)).Nodup →
    (∀ k v w, (k, v) ∈ a → (k, w) ∈ b → R v w) → List.Forall₂ (fun p q => p.1 = q.1 ∧ R p.2 q.2) a b := by
  intro a
  induction a with
  | nil => intro b h _ _; cases b with
    | nil => exact .nil
    | cons => simp at h
  | cons p a ih =>
    intro b h hn hr
    cases b with
    | nil => simp at h
    | cons q b =>
      simp only [List.map_cons, List.cons.injEq] at h
      obtain ⟨h1, h2⟩ := h
      obtain ⟨k, v⟩ := p
      obtain ⟨k', w⟩ := q
      dsimp only at h1
      subst h1
      simp only [List.map_cons, List.nodup_cons] at hn
      exact .cons ⟨rfl, hr k v w (by simp) (by simp)⟩ (ih b h2 hn.2 fun k v w hv hw => hr k v w (by simp [hv]) (by simp [hw]))

/-- Equal maps hash alike, if their values do. -/
theorem hash_equal [DecidableEq K] (le : K → K → Bool) (ho : IsOrder le) (hk : K → H → H) (hv : V → H → H) (veq : V → V → Prop) (a b : HMap K V)
    (va : HMap.Valid a) (vb : HMap.Valid b) (he : HMap.Equal veq a b)
    (hveq : ∀ v w h, (∃ k, (k, v) ∈ a.entries) → (∃ k, (k, w) ∈ b.entries) → veq v w → hv v h = hv w h) (h : H) : a.hash le hk hv h = b.hash le hk hv h := by
  have pa := List.mergeSort_perm a.entries fun x y => le x.1 y.1
  have pb := List.mergeSort_perm b.entries fun x y => le x.1 y.1
  have hmem : ∀ k, k ∈ a.entries.map (·.1) ↔ k ∈ b.entries.map (·.1) := by
    intro k
    have e := he k
    have l1 := lookup_none a.entries k
    have l2 := lookup_none b.entries k
    unfold HMap.get at e
    cases h1 : a.entries.lookup k with
    | none =>
      cases h2 : b.entries.lookup k with
      | none => exact ⟨fun hh => absurd hh (l1.1 h1), fun hh => absurd hh (l2.1 h2)⟩
      | some w => simp [h1, h2] at e
    | some v =>
      cases h2 : b.entries.lookup k with
      | none => simp [h1, h2] at e
      | some w =>
        constructor
        · intro _; apply Decidable.byContradiction; intro hh; rw [l2.2 hh] at h2; cases h2
        · intro _; apply Decidable.byContradiction; intro hh; rw [l1.2 hh] at h1; cases h1
  have hperm : (a.entries.map (·.1)).Perm (b.entries.map (·.1)) := (List.perm_ext_iff_of_nodup va vb).2 hmem
  have hkeys := eq_of_sorted le ho _ _ (((pa.map _).trans hperm).trans (pb.map _).symm) (sorted_of le ho a.entries) (sorted_of le ho b.entries)
  have hrel := pairs_related (fun v w => veq v w ∧ (∃ k, (k, v) ∈ a.entries) ∧ (∃ k, (k, w) ∈ b.entries)) _ _ hkeys ((pa.map Prod.fst).nodup_iff.2 va) (by
    intro k v w hv1 hw1
    have hv1 := pa.mem_iff.1 hv1
    have hw1 := pb.mem_iff.1 hw1
    have e := he k
    unfold HMap.get at e
    rw [(lookup_iff _ va k v).2 hv1, (lookup_iff _ vb k w).2 hw1] at e
    exact ⟨e, ⟨k, hv1⟩, ⟨k, hw1⟩⟩)
  unfold HMap.hash
  generalize (a.entries.mergeSort fun x y => le x.1 y.1) = la at hrel
  generalize (b.entries.mergeSort fun x y => le x.1 y.1) = lb at hrel
  induction hrel generalizing h with
  | nil => rfl
  | cons hpq _ ih =>
    obtain ⟨h1, h2, h3, h4⟩ := hpq
    simp only [List.foldl_cons]
    rw [h1, hveq _ _ _ h3 h4 h2]
    exact ih _

/-- Equal sets hash alike. -/
theorem hash_equal_set (le : K → K → Bool) (ho : IsOrder le) (hk : K → H → H) (a b : HSet K) (va : a.elems.Nodup) (vb : b.elems.Nodup)
    (he : ∀ k, k ∈ a.elems ↔ k ∈ b.elems) (h : H) : a.hash le hk h = b.hash le hk h := by
  have hperm := (List.perm_ext_iff_of_nodup va vb).2 he
  have := eq_of_sorted le ho _ _ (((List.mergeSort_perm a.elems le).trans hperm).trans (List.mergeSort_perm b.elems le).symm)
    (List.pairwise_mergeSort (le := le) (fun a b c => ho.trans _ _ _) (fun a b => by simpa using ho.total a b) a.elems)
    (List.pairwise_mergeSort (le := le) (fun a b c => ho.trans _ _ _) (fun a b => by simpa using ho.total a b) b.elems)
  unfold HSet.hash
  rw [this]

theorem nat_order : IsOrder (fun a b : Nat => decide (a ≤ b)) :=
  ⟨fun a b => by simpa using Nat.le_total a b, fun a b c => by simpa using Nat.le_trans, fun a b => by simpa using Nat.le_antisymm⟩

/-- **C48 for the keys of the preprocessing queries**: equal parameters hash alike, whatever the iteration orders of the maps and sets in
them. -/
theorem equal_params_hash (leStr : List Char → List Char → Bool) (ho : IsOrder leStr) (hs : List Char → H → H) (hm : MacroData → H → H)
    (hf : Nat → H → H) (a b : Params) (va : Params.Valid a) (vb : Params.Valid b) (he : Params.Equal a b) (h : H) :
    a.hash leStr hs hm hf h = b.hash leStr hs hm hf h := by
  obtain ⟨a1, a2, a3, a4⟩ := va
  obtain ⟨b1, b2, b3, b4⟩ := vb
  obtain ⟨e1, e2, e3⟩ := he
  unfold Params.hash
  rw [hash_equal leStr ho hs hm (· = ·) _ _ a1 b1 e1 (by intro v w h _ _ e; rw [e])]
  rw [hash_equal _ nat_order hf (HMap.hash leStr hs hm) (HMap.Equal (· = ·)) _ _ a2 b2 e2 (by
    intro v w h ⟨k, hv⟩ ⟨k', hw⟩ e
    exact hash_equal leStr ho hs hm (· = ·) _ _ (a3 _ hv) (b3 _ hw) e (by intro v w h _ _ e; rw [e]) h)]
  exact hash_equal_set _ nat_order hf _ _ a4 b4 e3 _

theorem filter_keys [DecidableEq K] (l : List (K × V)) (k : K) : (l.filter (·.1 ≠ k)).map (·.1) = (l.map (·.1)).filter (· ≠ k) := by
  induction l with
  | nil => rfl
  | cons p l ih =>
    simp only [List.filter_cons, List.map_cons]
    by_cases h : p.1 = k
    · simpa [h] using ih
    · simpa [h] using ih

theorem valid_remove [DecidableEq K] (m : HMap K V) (hv : HMap.Valid m) (k : K) : HMap.Valid (m.remove k) := by
  unfold HMap.Valid HMap.remove at *
  rw [filter_keys]
  exact List.Pairwise.filter _ hv

theorem insert_perm [DecidableEq K] (m : HMap K V) (pos : Nat) (k : K) (v : V) : (m.insert pos k v).entries.Perm ((k, v) :: m.entries.filter (·.1 ≠ k)) := by
  have := List.perm_middle (l₁ := (m.entries.filter (·.1 ≠ k)).take pos) (l₂ := (m.entries.filter (·.1 ≠ k)).drop pos) (a := (k, v))
  rw [List.take_append_drop] at this
  exact this

theorem valid_insert [DecidableEq K] (m : HMap K V) (hv : HMap.Valid m) (pos : Nat) (k : K) (v : V) : HMap.Valid (m.insert pos k v) := by
  unfold HMap.Valid
  rw [((insert_perm m pos k v).map (·.1)).nodup_iff, List.map_cons, filter_keys, List.nodup_cons]
  exact ⟨by simp, List.Pairwise.filter _ hv⟩

theorem get_iff [DecidableEq K] (m : HMap K V) (hv : HMap.Valid m) (k : K) (v : V) : m.get k = some v ↔ (k, v) ∈ m.entries := lookup_iff _ hv k v

theorem option_ext {o o' : Option V} (h : ∀ v, o = some v ↔ o' = some v) : o = o' := by
  cases o with
  | some v => exact ((h v).1 rfl).symm
  | none =>
    cases o' with
    | none => rfl
    | some v => exact (h v).2 rfl

theorem get_insert [DecidableEq K] (m : HMap K V) (hv : HMap.Valid m) (pos : Nat) (k : K) (v : V) (k' : K) :
    (m.insert pos k v).get k' = if k = k' then some v else m.get k' := by
  apply option_ext
  intro w
  rw [get_iff _ (valid_insert m hv pos k v), (insert_perm m pos k v).mem_iff]
  by_cases h : k = k'
  · subst h; simp [eq_comm]
  · have h' : k' ≠ k := fun e => h e.symm
    rw [if_neg h, get_iff _ hv]
    simp [h']

theorem get_remove [DecidableEq K] (m : HMap K V) (hv : HMap.Valid m) (k k' : K) : (m.remove k).get k' = if k = k' then none else m.get k' := by
  apply option_ext
  intro w
  rw [get_iff _ (valid_remove m hv k)]
  by_cases h : k = k'
  · subst h; simp [HMap.remove]
  · have h' : k' ≠ k := fun e => h e.symm
    rw [if_neg h, get_iff _ hv]
    simp [HMap.remove, h']

theorem build_get [DecidableEq K] (ops : List (Op K V)) : HMap.Valid (HMap.build ops) ∧ ∀ k, (HMap.build ops).get k = lastWrite k ops none := by
  unfold HMap.build
  have : ∀ (m : HMap K V) (r : K → Option V), HMap.Valid m → (∀ k, m.get k = r k) →
      HMap.Valid (ops.foldl (fun m o => match o with
        | .insert pos k v => m.insert pos k v
        | .remove k => m.remove k) m) ∧ ∀ k, (ops.foldl (fun m o => match o with
        | .insert pos k v => m.insert pos k v
        | .remove k => m.remove k) m).get k = lastWrite k ops (r k) := by
    induction ops with
    | nil => intro m r hv hr; exact ⟨hv, hr⟩
    | cons o ops ih =>
      intro m r hv hr
      rw [List.foldl_cons]
      cases o with
      | insert pos k v =>
        exact ih (m.insert pos k v) (fun k' => if k = k' then some v else r k') (valid_insert m hv pos k v) (fun k' => by rw [get_insert m hv, hr])
      | remove k =>
        exact ih (m.remove k) (fun k' => if k = k' then none else r k') (valid_remove m hv k) (fun k' => by rw [get_remove m hv, hr])
  exact this ⟨[]⟩ (fun _ => none) (by simp [HMap.Valid]) (fun _ => rfl)

/-- **C48**: tables in which every key has the same value hash alike, whatever the histories of updates by which they were made and
wherever the map put the entries. -/
theorem hash_by_content [DecidableEq K] (le : K → K → Bool) (ho : IsOrder le) (hk : K → H → H) (hv : V → H → H) (ops ops' : List (Op K V))
    (he : ∀ k, lastWrite k ops none = lastWrite k ops' none) (h : H) :
    (HMap.build ops).hash le hk hv h = (HMap.build ops').hash le hk hv h := by
  obtain ⟨v1, g1⟩ := build_get ops
  obtain ⟨v2, g2⟩ := build_get ops'
  refine hash_equal le ho hk hv (· = ·) _ _ v1 v2 ?_ (by intro v w h _ _ e; rw [e]) h
  intro k
  rw [g1, g2, he]
  cases lastWrite k ops' none <;> simp

/-- Two histories of one table; the iteration orders differ. -/
example : let ops : List (Op Nat String) := [.insert 0 1 "a", .insert 0 2 "b", .insert 1 3 "c", .remove 3]
    let ops' : List (Op Nat String) := [.insert 0 2 "x", .insert 1 1 "a", .insert 0 2 "b", .insert 9 7 "z", .remove 7, .insert 5 1 "a"]
    (∀ k, lastWrite k ops none = lastWrite k ops' none) ∧ (HMap.build ops).entries ≠ (HMap.build (ops' ++ [.insert 9 2 "b"])).entries ∧
    HMap.hash (fun a b => a ≤ b) (fun k h => h ++ [toString k]) (fun v h => h ++ [v]) (HMap.build ops) [] = ["1", "a", "2", "b"] := by
  refine ⟨fun k => ?_, by decide, by simp [HMap.build, HMap.hash, HMap.insert, HMap.remove, List.mergeSort]; decide⟩
  simp only [lastWrite]
  by_cases h1 : 1 = k
  · subst h1; rfl
  · by_cases h2 : 2 = k
    · subst h2; rfl
    · by_cases h3 : 3 = k
      · subst h3; rfl
      · by_cases h7 : 7 = k
        · subst h7; rfl
        · simp [h1, h2, h3, h7]

/-- Parameters that are equal and not the same lists. -/
example : let m : MacroData := ⟨0, 0, none, 0, []⟩
    let a : Params := ⟨⟨[(['A'], m), (['B'], m)]⟩, ⟨[(0, ⟨[(['A'], m)]⟩), (1, ⟨[]⟩)]⟩, ⟨[0, 1]⟩⟩
    let b : Params := ⟨⟨[(['B'], m), (['A'], m)]⟩, ⟨[(1, ⟨[]⟩), (0, ⟨[(['A'], m)]⟩)]⟩, ⟨[1, 0]⟩⟩
    Params.Valid a ∧ Params.Valid b ∧ Params.Equal a b := by
  refine ⟨⟨by simp [HMap.Valid], by simp [HMap.Valid], by simp [HMap.Valid], by decide⟩, ⟨by simp [HMap.Valid], by simp [HMap.Valid], by simp [HMap.Valid], by decide⟩, ?_, ?_, ?_⟩
  · intro k
    simp only [HMap.get]
    by_cases h1 : k = ['A']
    · subst h1; exact rfl
    · by_cases h2 : k = ['B']
      · subst h2; exact rfl
      · rw [(lookup_none _ k).2 (by simp [h1, h2]), (lookup_none _ k).2 (by simp [h1, h2])]; trivial
  · intro k
    simp only [HMap.get, List.lookup_cons, List.lookup_nil]
    by_cases h1 : k = 0
    · subst h1
      intro x
      cases h : (HMap.get ⟨[(['A'], (⟨0, 0, none, 0, []⟩ : MacroData))]⟩ x) <;> simp [h]
    · by_cases h2 : k = 1
      · subst h2; intro x; simp [HMap.get]
      · have e1 : (k == 0) = false := by simpa using h1
        have e2 : (k == 1) = false := by simpa using h2
        simp [e1, e2]
  · intro f; simp [or_comm]

end Verif.Props.HashMap
