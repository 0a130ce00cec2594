import Verif.Hir.Scope
/-!
# C41: local names resolve to the innermost visible declaration
-/

namespace Verif.Props.Scope
open Verif.Hir.Scope Verif.Hir.Scope.Spec

def pair (d : Decl) : Name × Nat := (d.name, d.id)

def addEntries (ds : List Decl) (sc : ScopeData) : ScopeData := { sc with entries := (ds.map pair).reverse ++ sc.entries }

theorem addEntries_nil (sc : ScopeData) : addEntries [] sc = sc := rfl

theorem addEntries_append (a b : List Decl) (sc : ScopeData) : addEntries b (addEntries a sc) = addEntries (a ++ b) sc := by
  simp [addEntries]

/-- The effect of a computation in scope `k`: declarations `ds` are added to it, the entries `es` are recorded, everything else stays. -/
structure Effect (k : Nat) (ds : List Decl) (es : List (Range × Nat)) (s s' : Scopes) : Prop where
  le : s.scopes.length ≤ s'.scopes.length
  cur : s'.scopes[k]? = (s.scopes[k]?).map (addEntries ds)
  old : ∀ j, j < s.scopes.length → j ≠ k → s'.scopes[j]? = s.scopes[j]?
  recorded : s'.byExpr = es ++ s.byExpr

theorem effect_refl (k : Nat) (s : Scopes) : Effect k [] [] s s :=
  ⟨Nat.le_refl _, by cases s.scopes[k]? <;> simp [addEntries_nil], fun _ _ _ => rfl, rfl⟩

theorem effect_trans {k : Nat} {ds ds' : List Decl} {bs bs' : List (Range × Nat)} {s s' s'' : Scopes} (h : Effect k ds bs s s') (h' : Effect k ds' bs' s' s'') :
    Effect k (ds ++ ds') (bs' ++ bs) s s'' := by
  refine ⟨Nat.le_trans h.le h'.le, ?_, ?_, ?_⟩
  · rw [h'.cur, h.cur]
    cases s.scopes[k]? with
    | none => rfl
    | some sc => simp [addEntries_append]
  · intro j hj hk
    rw [h'.old j (Nat.lt_of_lt_of_le hj h.le) hk, h.old j hj hk]
  · rw [h'.recorded, h.recorded, List.append_assoc]

theorem insert_effect (k : Nat) (s : Scopes) (d : Decl) : Effect k [d] [] s (s.insert k d) := by
  refine ⟨by simp [Scopes.insert], ?_, ?_, rfl⟩
  · simp only [Scopes.insert, List.getElem?_modify, if_true]
    rfl
  · intro j _ hj
    have : k ≠ j := fun e => hj e.symm
    simp [Scopes.insert, List.getElem?_modify, this]

theorem record_effect (k j : Nat) (s : Scopes) (r : Range) : Effect j [] [(r, k)] s (s.record r k) :=
  ⟨Nat.le_refl _, by simp only [Scopes.record]; cases s.scopes[j]? <;> simp [addEntries_nil], fun _ _ _ => rfl, rfl⟩

theorem effect_rec {k : Nat} {s s' : Scopes} {r : Range} {ds : List Decl} {es : List (Range × Nat)} (h : Effect k ds es (s.record r k) s') :
    Effect k ds (es ++ [(r, k)]) s s' := effect_trans (record_effect k k s r) h

theorem inserts_effect (k : Nat) (ds : List Decl) : ∀ s : Scopes, Effect k ds [] s (ds.foldl (·.insert k ·) s) := by
  induction ds with
  | nil => intro s; exact effect_refl k s
  | cons d ds ih =>
    intro s
    have := effect_trans (insert_effect k s d) (ih (s.insert k d))
    simpa using this

theorem binds_effect (k : Nat) (ds : List Decl) : ∀ s : Scopes, Effect k ds (ds.map fun d => (d.range, k)).reverse s (ds.foldl (Scopes.bind k) s) := by
  induction ds with
  | nil => intro s; exact effect_refl k s
  | cons d ds ih =>
    intro s
    have := effect_trans (effect_trans (record_effect k k s d.range) (insert_effect k _ d)) (ih (s.bind k d))
    simpa using this

/-- What a statement records: every entry is within the statement; it has the scope of the statement or is within one of its blocks. -/
def Entries (k : Nat) (r : Range) (bs : List Range) (es : List (Range × Nat)) : Prop :=
  ∀ e ∈ es, Within e.1 r ∧ (e.2 = k ∨ ∃ b ∈ bs, Within e.1 b)

theorem within_trans {a b c : Range} (h : Within a b) (h' : Within b c) : Within a c := ⟨Nat.le_trans h'.1 h.1, Nat.le_trans h.2 h'.2⟩

theorem within_refl (a : Range) : Within a a := ⟨Nat.le_refl _, Nat.le_refl _⟩

/-- What a list of statements records. -/
def EntriesAll (k : Nat) (ss : List Stmt) (bs : List Range) (es : List (Range × Nat)) : Prop :=
  ∀ e ∈ es, (∃ s ∈ ss, Within e.1 s.range) ∧ (e.2 = k ∨ ∃ b ∈ bs, Within e.1 b)

theorem entriesAll_inside {k : Nat} {ss : List Stmt} {bs : List Range} {es : List (Range × Nat)} {r : Range} (h : EntriesAll k ss bs es) (hi : Inside r ss) : Entries k r bs es := by
  intro e he
  obtain ⟨⟨s, h1, h2⟩, h3⟩ := h e he
  have := hi.1 s h1
  exact ⟨within_trans h2 ⟨by omega, this.2⟩, h3⟩

theorem entriesAll_append {k : Nat} {ss ss' : List Stmt} {bs bs' : List Range} {es es' : List (Range × Nat)} (h : EntriesAll k ss bs es) (h' : EntriesAll k ss' bs' es') :
    EntriesAll k (ss ++ ss') (bs ++ bs') (es' ++ es) := by
  intro e he
  rcases List.mem_append.1 he with he | he
  · obtain ⟨⟨s, h1, h2⟩, h3⟩ := h' e he
    refine ⟨⟨s, by simp [h1], h2⟩, ?_⟩
    rcases h3 with h3 | ⟨b, h3, h4⟩
    · exact .inl h3
    · exact .inr ⟨b, by simp [h3], h4⟩
  · obtain ⟨⟨s, h1, h2⟩, h3⟩ := h e he
    refine ⟨⟨s, by simp [h1], h2⟩, ?_⟩
    rcases h3 with h3 | ⟨b, h3, h4⟩
    · exact .inl h3
    · exact .inr ⟨b, by simp [h3], h4⟩

theorem entriesAll_single {k : Nat} {s : Stmt} {bs : List Range} {es : List (Range × Nat)} (h : Entries k s.range bs es) : EntriesAll k [s] bs es := by
  intro e he
  exact ⟨⟨s, by simp, (h e he).1⟩, (h e he).2⟩

theorem entries_own {k : Nat} {r : Range} {bs : List Range} {es : List (Range × Nat)} (h : Entries k r bs es) : Entries k r bs (es ++ [(r, k)]) := by
  intro e he
  rcases List.mem_append.1 he with he | he
  · exact h e he
  · rw [List.mem_singleton] at he
    subst he
    exact ⟨within_refl r, .inl rfl⟩

mutual
theorem compute_effect : ∀ (st : Stmt) (k : Nat) (s : Scopes), Full st → Laid st → k < s.scopes.length →
    ∃ es, Effect k (region st) es s (compute k s (lower st)) ∧ Entries k st.range (blockRanges st) es
  | .simple r none, k, s, _, _, _ => by
    simp only [lower, compute, region]
    exact ⟨[], effect_refl k s, fun e he => by simp at he⟩
  | .simple r (some q), k, s, _, hl, _ => by
    simp only [lower, compute, region]
    refine ⟨_, record_effect k k s q, fun e he => ?_⟩
    rw [List.mem_singleton] at he
    subst he
    simp only [Laid, Option.some.injEq, forall_eq'] at hl
    exact ⟨hl, .inl rfl⟩
  | .decl r ds, k, s, _, hl, _ => by
    simp only [lower, compute, region]
    refine ⟨_, effect_rec (binds_effect k ds _), entries_own ?_⟩
    intro e he
    simp only [List.mem_reverse, List.mem_map] at he
    obtain ⟨d, hd, rfl⟩ := he
    exact ⟨hl d hd, .inl rfl⟩
  | .block r ss, k, s, hf, hl, hk => by
    simp only [lower, compute, region, blockRanges, Full, Laid] at hf hl ⊢
    have hlen : (s.newBlock r k).scopes.length = s.scopes.length + 1 := by simp [Scopes.newBlock]
    obtain ⟨es, h, hes⟩ := computeAll_effect ss s.scopes.length (s.newBlock r k) hf hl.2 (by rw [hlen]; omega)
    refine ⟨es ++ [(r, s.scopes.length)], ⟨by have := h.le; omega, ?_, ?_, ?_⟩, ?_⟩
    · rw [h.old k (by omega) (by omega)]
      simp only [Scopes.newBlock]
      rw [List.getElem?_append_left hk]
      cases s.scopes[k]? <;> simp [addEntries_nil]
    · intro j hj _
      rw [h.old j (by omega) (by omega)]
      simp only [Scopes.newBlock]
      rw [List.getElem?_append_left hj]
    · rw [h.recorded]; simp [Scopes.newBlock]
    · intro e he
      have hw : Within e.1 r := by
        rcases List.mem_append.1 he with he | he
        · exact (entriesAll_inside hes hl.1 e he).1
        · rw [List.mem_singleton] at he; subst he; exact within_refl r
      exact ⟨hw, .inr ⟨r, by simp, hw⟩⟩
  | .for_ r init full body, k, s, hf, hl, hk => by
    simp only [Full, Laid] at hf hl
    simp only [lower, hf.1, if_true, compute, region, blockRanges, Stmt.range]
    obtain ⟨e1, h1, w1⟩ := computeAll_effect init k (s.record r k) hf.2.1 hl.2.1 hk
    obtain ⟨e2, h2, w2⟩ := compute_effect body k _ hf.2.2 hl.2.2 (Nat.lt_of_lt_of_le hk h1.le)
    have h := effect_rec (effect_trans h1 h2)
    exact ⟨_, h, entries_own (entriesAll_inside (entriesAll_append w1 (entriesAll_single w2)) hl.1)⟩
  | .while_ r body, k, s, hf, hl, hk => by
    simp only [Full, Laid] at hf hl
    simp only [lower, compute, computeAll, region, blockRanges, Stmt.range]
    obtain ⟨e1, h1, w1⟩ := compute_effect body k (s.record r k) hf hl.2 hk
    exact ⟨_, effect_rec h1, entries_own (entriesAll_inside (entriesAll_single w1) hl.1)⟩
  | .if_ r t none, k, s, hf, hl, hk => by
    simp only [Full, Laid] at hf hl
    simp only [lower, compute, region, blockRanges, Stmt.range]
    obtain ⟨e1, h1, w1⟩ := compute_effect t k (s.record r k) hf hl.2 hk
    exact ⟨_, effect_rec h1, entries_own (entriesAll_inside (entriesAll_single w1) hl.1)⟩
  | .if_ r t (some e), k, s, hf, hl, hk => by
    simp only [Full, Laid] at hf hl
    simp only [lower, compute, region, blockRanges, Stmt.range]
    obtain ⟨e1, h1, w1⟩ := compute_effect t k (s.record r k) hf.1 hl.2.1 hk
    obtain ⟨e2, h2, w2⟩ := compute_effect e k _ hf.2 hl.2.2 (Nat.lt_of_lt_of_le hk h1.le)
    have h := effect_rec (effect_trans h1 h2)
    exact ⟨_, h, entries_own (entriesAll_inside (entriesAll_append (entriesAll_single w1) (entriesAll_single w2)) hl.1)⟩
  | .switch r cs, k, s, hf, hl, hk => by
    simp only [Full, Laid] at hf hl
    simp only [lower, compute, region, blockRanges, Stmt.range]
    obtain ⟨e1, h1, w1⟩ := computeAll_effect cs k (s.record r k) hf hl.2 hk
    exact ⟨_, effect_rec h1, entries_own (entriesAll_inside w1 hl.1)⟩
theorem computeAll_effect : ∀ (ss : List Stmt) (k : Nat) (s : Scopes), FullAll ss → LaidAll ss → k < s.scopes.length →
    ∃ es, Effect k (regionAll ss) es s (computeAll k s (lowerAll ss)) ∧ EntriesAll k ss (blockRangesAll ss) es
  | [], k, s, _, _, _ => by
    simp only [lowerAll, computeAll, regionAll]
    exact ⟨[], effect_refl k s, fun e he => by simp at he⟩
  | st :: ss, k, s, hf, hl, hk => by
    simp only [FullAll, LaidAll] at hf hl
    simp only [lowerAll, computeAll, regionAll, blockRangesAll]
    obtain ⟨e1, h1, w1⟩ := compute_effect st k s hf.1 hl.1 hk
    obtain ⟨e2, h2, w2⟩ := computeAll_effect ss k _ hf.2 hl.2 (Nat.lt_of_lt_of_le hk h1.le)
    exact ⟨_, effect_trans h1 h2, entriesAll_append (entriesAll_single w1) w2⟩
end

/-- The blocks among the layers. -/
def blk : Layer → Option (Range × List Stmt)
  | .block r ss => some (r, ss)
  | .loop _ => none

def blks (ls : List Layer) : List (Range × List Stmt) := ls.filterMap blk

theorem blks_loop (init : List Stmt) (ls : List Layer) : blks (.loop init :: ls) = blks ls := rfl

theorem blks_append (a b : List Layer) : blks (a ++ b) = blks a ++ blks b := by simp [blks]

theorem blks_snoc_loop (ls : List Layer) (init : List Stmt) : blks (ls ++ [.loop init]) = blks ls := by rw [blks_append]; simp [blks, blk]

theorem blks_snoc_block (ls : List Layer) (r : Range) (ss : List Stmt) : blks (ls ++ [.block r ss]) = blks ls ++ [(r, ss)] := by rw [blks_append]; rfl

/-- From scope `j` up to scope `k` there are the scopes of the blocks `bs`, with all their declarations; all numbers are at least `n`. -/
def ChainTo (n : Nat) (s : Scopes) (k : Nat) : Nat → List (Range × List Stmt) → Prop
  | j, [] => j = k
  | j, (_, ss) :: bs => ∃ p, n ≤ j ∧ s.scopes[j]? = some ⟨some p, ((regionAll ss).map pair).reverse⟩ ∧ p < j ∧ ChainTo n s k p bs

theorem chain_mono {n m : Nat} (hnm : m ≤ n) {s : Scopes} {k : Nat} : ∀ (bs : List (Range × List Stmt)) (j : Nat), ChainTo n s k j bs → ChainTo m s k j bs := by
  intro bs
  induction bs with
  | nil => intro j h; exact h
  | cons b bs ih =>
    intro j h
    obtain ⟨p, h1, h2, h3, h4⟩ := h
    exact ⟨p, by omega, h2, h3, ih p h4⟩

theorem chain_stable {n : Nat} {s s' : Scopes} {k : Nat} (hs : ∀ j, n ≤ j → j < s.scopes.length → s'.scopes[j]? = s.scopes[j]?) :
    ∀ (bs : List (Range × List Stmt)) (j : Nat), ChainTo n s k j bs → ChainTo n s' k j bs := by
  intro bs
  induction bs with
  | nil => intro j h; exact h
  | cons b bs ih =>
    intro j h
    obtain ⟨p, h1, h2, h3, h4⟩ := h
    have : j < s.scopes.length := by
      rw [List.getElem?_eq_some_iff] at h2
      exact h2.1
    exact ⟨p, h1, by rw [hs j h1 this, h2], h3, ih p h4⟩

theorem chain_snoc {n : Nat} {s : Scopes} {m k : Nat} {b : Range × List Stmt} (hm : s.scopes[m]? = some ⟨some k, ((regionAll b.2).map pair).reverse⟩) (hk : k < m)
    (hn : n ≤ m) : ∀ (bs : List (Range × List Stmt)) (j : Nat), ChainTo n s m j bs → ChainTo n s k j (bs ++ [b]) := by
  intro bs
  induction bs with
  | nil => intro j h; obtain rfl : j = m := h; exact ⟨k, hn, hm, hk, rfl⟩
  | cons c bs ih =>
    intro j h
    obtain ⟨p, h1, h2, h3, h4⟩ := h
    exact ⟨p, h1, h2, h3, ih p h4⟩

/-! ## The scope at an offset -/

/-- A recorded node that is considered for `p`. -/
def Touches (p : Nat) (r : Range) : Prop := r.start ≤ p ∧ p ≤ r.stop

/-- Of the entries `es` that touch `p`, those that are not longer than the innermost block have the scope of that block (`k` if there is
none), which is recorded and has the right chain. -/
def Best (n k p : Nat) (s : Scopes) (es : List (Range × Nat)) : List (Range × List Stmt) → Prop
  | [] => ∀ e ∈ es, Touches p e.1 → e.2 = k
  | b :: bs => ∃ j, (b.1, j) ∈ es ∧ b.1.start < p ∧ p < b.1.stop ∧ ChainTo n s k j (b :: bs) ∧ ∀ e ∈ es, Touches p e.1 → e.2 = j ∨ b.1.len < e.1.len

theorem best_stable {n k p : Nat} {s s' : Scopes} (hs : ∀ j, n ≤ j → j < s.scopes.length → s'.scopes[j]? = s.scopes[j]?) {es : List (Range × Nat)}
    {bs : List (Range × List Stmt)} (h : Best n k p s es bs) : Best n k p s' es bs := by
  cases bs with
  | nil => exact h
  | cons b bs =>
    obtain ⟨j, h1, h2, h3, h4, h5⟩ := h
    exact ⟨j, h1, h2, h3, chain_stable hs _ _ h4, h5⟩

theorem best_mono {n m k p : Nat} (hnm : m ≤ n) {s : Scopes} {es : List (Range × Nat)} {bs : List (Range × List Stmt)} (h : Best n k p s es bs) : Best m k p s es bs := by
  cases bs with
  | nil => exact h
  | cons b bs =>
    obtain ⟨j, h1, h2, h3, h4, h5⟩ := h
    exact ⟨j, h1, h2, h3, chain_mono hnm _ _ h4, h5⟩

/-- Other entries: those that touch `p` have the scope `k`, or are longer than the innermost block; and there is no block if one of them
has the scope `k` and is not longer. -/
def Others (k p : Nat) (bs : List (Range × List Stmt)) (es : List (Range × Nat)) : Prop :=
  ∀ e ∈ es, Touches p e.1 → match bs with
    | [] => e.2 = k
    | b :: _ => b.1.len < e.1.len

theorem best_add {n k p : Nat} {s : Scopes} {es es' : List (Range × Nat)} {bs : List (Range × List Stmt)} (h : Best n k p s es bs) (ho : Others k p bs es') :
    Best n k p s (es' ++ es) bs ∧ Best n k p s (es ++ es') bs := by
  cases bs with
  | nil =>
    refine ⟨?_, ?_⟩ <;> intro e he ht <;> rcases List.mem_append.1 he with he | he
    · exact ho e he ht
    · exact h e he ht
    · exact h e he ht
    · exact ho e he ht
  | cons b bs =>
    obtain ⟨j, h1, h2, h3, h4, h5⟩ := h
    refine ⟨⟨j, by simp [h1], h2, h3, h4, ?_⟩, ⟨j, by simp [h1], h2, h3, h4, ?_⟩⟩ <;> intro e he ht <;> rcases List.mem_append.1 he with he | he
    · exact .inr (ho e he ht)
    · exact h5 e he ht
    · exact h5 e he ht
    · exact .inr (ho e he ht)

mutual
theorem blocks_within : ∀ (st : Stmt), Laid st → ∀ r ∈ blockRanges st, Within r st.range
  | .simple r none, _ => by simp [blockRanges]
  | .simple r (some q), _ => by simp [blockRanges]
  | .decl r ds, _ => by simp [blockRanges]
  | .block r ss, hl => by
    simp only [Laid] at hl
    intro q hq
    simp only [blockRanges, List.mem_cons] at hq
    rcases hq with rfl | hq
    · exact within_refl _
    · obtain ⟨s, h1, h2⟩ := blocksAll_within ss hl.2 q hq
      have := hl.1.1 s h1
      exact within_trans h2 ⟨Nat.le_of_lt this.1, this.2⟩
  | .for_ r init full body, hl => by
    simp only [Laid] at hl
    intro q hq
    simp only [blockRanges, List.mem_append] at hq
    rcases hq with hq | hq
    · obtain ⟨s, h1, h2⟩ := blocksAll_within init hl.2.1 q hq
      have := hl.1.1 s (by simp [h1])
      exact within_trans h2 ⟨Nat.le_of_lt this.1, this.2⟩
    · have := hl.1.1 body (by simp)
      exact within_trans (blocks_within body hl.2.2 q hq) ⟨Nat.le_of_lt this.1, this.2⟩
  | .while_ r body, hl => by
    simp only [Laid] at hl
    intro q hq
    have := hl.1.1 body (by simp)
    exact within_trans (blocks_within body hl.2 q (by simpa [blockRanges] using hq)) ⟨Nat.le_of_lt this.1, this.2⟩
  | .if_ r t none, hl => by
    simp only [Laid] at hl
    intro q hq
    have := hl.1.1 t (by simp)
    exact within_trans (blocks_within t hl.2 q (by simpa [blockRanges] using hq)) ⟨Nat.le_of_lt this.1, this.2⟩
  | .if_ r t (some e), hl => by
    simp only [Laid] at hl
    intro q hq
    simp only [blockRanges, List.mem_append] at hq
    rcases hq with hq | hq
    · have := hl.1.1 t (by simp)
      exact within_trans (blocks_within t hl.2.1 q hq) ⟨Nat.le_of_lt this.1, this.2⟩
    · have := hl.1.1 e (by simp)
      exact within_trans (blocks_within e hl.2.2 q hq) ⟨Nat.le_of_lt this.1, this.2⟩
  | .switch r cs, hl => by
    simp only [Laid] at hl
    intro q hq
    obtain ⟨s, h1, h2⟩ := blocksAll_within cs hl.2 q (by simpa [blockRanges] using hq)
    have := hl.1.1 s h1
    exact within_trans h2 ⟨Nat.le_of_lt this.1, this.2⟩
theorem blocksAll_within : ∀ (ss : List Stmt), LaidAll ss → ∀ r ∈ blockRangesAll ss, ∃ s ∈ ss, Within r s.range
  | [], _ => by simp [blockRangesAll]
  | s :: ss, hl => by
    simp only [LaidAll] at hl
    intro q hq
    simp only [blockRangesAll, List.mem_append] at hq
    rcases hq with hq | hq
    · exact ⟨s, by simp, blocks_within s hl.1 q hq⟩
    · obtain ⟨t, h1, h2⟩ := blocksAll_within ss hl.2 q hq
      exact ⟨t, by simp [h1], h2⟩
end

theorem mem_blocksAll {ss : List Stmt} {s : Stmt} {r : Range} (h : s ∈ ss) (hr : r ∈ blockRanges s) : r ∈ blockRangesAll ss := by
  induction ss with
  | nil => simp at h
  | cons t ss ih =>
    simp only [blockRangesAll, List.mem_append]
    rcases List.mem_cons.1 h with h' | h'
    · exact .inl (h' ▸ hr)
    · exact .inr (ih h')

/-- A statement that contains no part of `p` to the right of its start: what it records and touches `p` has its scope. -/
theorem outside_entries {k p : Nat} {st : Stmt} {es : List (Range × Nat)} (he : Entries k st.range (blockRanges st) es) (hl : Laid st) (hn : NoTouch p st) (hp : ¬ Has st.range p) :
    ∀ e ∈ es, Touches p e.1 → e.2 = k ∧ st.range.stop = p := by
  intro e h ht
  obtain ⟨h1, h2⟩ := he e h
  have hstop : st.range.stop = p := by
    have := h1.1; have := h1.2; have := ht.1; have := ht.2
    have hp' : ¬ (st.range.start ≤ p ∧ p < st.range.stop) := hp
    omega
  refine ⟨?_, hstop⟩
  rcases h2 with h2 | ⟨b, hb, hw⟩
  · exact h2
  · exfalso
    have := blocks_within st hl b hb
    have := this.2; have := hw.2; have := ht.2
    exact hn b hb (by omega)

/-- What is to be shown for a statement. -/
def Pos (p : Nat) (st : Stmt) (ls : List Layer) : Prop :=
  Laid st → Has st.range p ∧ (∀ b ∈ blks ls, Within b.1 st.range) ∧
  ∀ (k : Nat) (s : Scopes), Full st → NoTouch p st → k < s.scopes.length → ∃ es, Effect k (region st) es s (compute k s (lower st)) ∧
    Best s.scopes.length k p (compute k s (lower st)) es (blks ls)

theorem full_mem {ss : List Stmt} (h : FullAll ss) : ∀ s ∈ ss, Full s := by
  induction ss with
  | nil => simp
  | cons t ss ih =>
    simp only [FullAll] at h
    intro s hs
    rcases List.mem_cons.1 hs with h' | h'
    · exact h' ▸ h.1
    · exact ih h.2 s h'

theorem laid_mem {ss : List Stmt} (h : LaidAll ss) : ∀ s ∈ ss, Laid s := by
  induction ss with
  | nil => simp
  | cons t ss ih =>
    simp only [LaidAll] at h
    intro s hs
    rcases List.mem_cons.1 hs with h' | h'
    · exact h' ▸ h.1
    · exact ih h.2 s h'

/-- What a sibling records does not come into question. -/
theorem sibling_others {k p : Nat} {st : Stmt} {es : List (Range × Nat)} {bs : List (Range × List Stmt)} (he : Entries k st.range (blockRanges st) es) (hl : Laid st)
    (hn : NoTouch p st) (hp : ¬ Has st.range p) (hb : ∀ b ∈ bs.head?, st.range.stop ≤ b.1.start ∧ b.1.start < p) : Others k p bs es := by
  intro e h ht
  obtain ⟨h1, h2⟩ := outside_entries he hl hn hp e h ht
  cases bs with
  | nil => exact h1
  | cons b bs =>
    have := hb b (by simp)
    omega

/-- A list of statements one of which is the place of `p`. -/
theorem pos_all {p : Nat} {st : Stmt} {ls : List Layer} (hp : Pos p st ls) : ∀ (ss : List Stmt) (k : Nat) (s : Scopes), st ∈ ss → FullAll ss → LaidAll ss →
    ss.Pairwise (fun a b => a.range.stop ≤ b.range.start) → (∀ t ∈ ss, NoTouch p t) → k < s.scopes.length →
    ∃ es, Effect k (regionAll ss) es s (computeAll k s (lowerAll ss)) ∧ Best s.scopes.length k p (computeAll k s (lowerAll ss)) es (blks ls) := by
  intro ss
  induction ss with
  | nil => intro k s h; simp at h
  | cons t ss ih =>
    intro k s h hf hl ho hn hk
    simp only [FullAll, LaidAll] at hf hl
    simp only [lowerAll, computeAll, regionAll]
    rw [List.pairwise_cons] at ho
    rcases List.mem_cons.1 h with h' | h'
    · subst h'
      obtain ⟨p1, p2, p3⟩ := hp hl.1
      obtain ⟨e1, h1, b1⟩ := p3 k s hf.1 (hn _ (by simp)) hk
      obtain ⟨e2, h2, w2⟩ := computeAll_effect ss k _ hf.2 hl.2 (Nat.lt_of_lt_of_le hk h1.le)
      refine ⟨_, effect_trans h1 h2, (best_add (best_stable (fun j hj hl => h2.old j hl (by omega)) b1) ?_).1⟩
      intro e he ht
      exfalso
      obtain ⟨⟨u, hu, hw⟩, -⟩ := w2 e he
      have := ho.1 u hu
      have := hw.1; have := ht.1; have := p1.2
      omega
    · obtain ⟨e1, h1, w1⟩ := compute_effect t k s hf.1 hl.1 hk
      have hk' := Nat.lt_of_lt_of_le hk h1.le
      obtain ⟨e2, h2, b2⟩ := ih k _ h' hf.2 hl.2 ho.2 (fun u hu => hn u (by simp [hu])) hk'
      refine ⟨_, effect_trans h1 h2, (best_add (best_mono h1.le b2) ?_).2⟩
      obtain ⟨p1, p2, -⟩ := hp (laid_mem hl.2 st h')
      have := ho.1 st h'
      have := p1.1
      refine sibling_others w1 hl.1 (hn t (by simp)) (by unfold Has; omega) ?_
      intro b hb
      cases hbs : blks ls with
      | nil => rw [hbs] at hb; simp at hb
      | cons c bs =>
        rw [hbs] at hb p2 b2
        simp only [List.head?_cons, Option.mem_def, Option.some.injEq] at hb
        subst hb
        obtain ⟨_, _, h3, _⟩ := b2
        have := (p2 c (by simp)).1
        omega

/-- A list of statements none of which contains `p`. -/
theorem head_all {p k : Nat} {ss : List Stmt} : ∀ {s : Scopes}, FullAll ss → LaidAll ss → (∀ t ∈ ss, NoTouch p t) → (∀ t ∈ ss, ¬ Has t.range p) →
    k < s.scopes.length → ∃ es, Effect k (regionAll ss) es s (computeAll k s (lowerAll ss)) ∧ ∀ e ∈ es, Touches p e.1 → e.2 = k := by
  induction ss with
  | nil => intro s _ _ _ _ _; exact ⟨[], effect_refl k s, by simp⟩
  | cons t ss ih =>
    intro s hf hl hn hp hk
    simp only [FullAll, LaidAll] at hf hl
    simp only [lowerAll, computeAll, regionAll]
    obtain ⟨e1, h1, w1⟩ := compute_effect t k s hf.1 hl.1 hk
    obtain ⟨e2, h2, w2⟩ := ih hf.2 hl.2 (fun u hu => hn u (by simp [hu])) (fun u hu => hp u (by simp [hu])) (Nat.lt_of_lt_of_le hk h1.le)
    refine ⟨_, effect_trans h1 h2, fun e he ht => ?_⟩
    rcases List.mem_append.1 he with he | he
    · exact w2 e he ht
    · exact (outside_entries w1 hl.1 (hn t (by simp)) (hp t (by simp)) e he ht).1

theorem head_one {p k : Nat} {t : Stmt} {s : Scopes} (hf : Full t) (hl : Laid t) (hn : NoTouch p t) (hp : ¬ Has t.range p) (hk : k < s.scopes.length) :
    ∃ es, Effect k (region t) es s (compute k s (lower t)) ∧ ∀ e ∈ es, Touches p e.1 → e.2 = k := by
  obtain ⟨e1, h1, w1⟩ := compute_effect t k s hf hl hk
  exact ⟨e1, h1, fun e he ht => (outside_entries w1 hl hn hp e he ht).1⟩

/-- The entry of the statement itself. -/
theorem own_best {n k p : Nat} {r : Range} {s : Scopes} {es : List (Range × Nat)} {bs : List (Range × List Stmt)} (hb : Best n k p s es bs)
    (hlen : ∀ b ∈ bs, r.start < b.1.start ∧ b.1.stop ≤ r.stop) : Best n k p s (es ++ [(r, k)]) bs := by
  refine (best_add hb ?_).2
  intro e he ht
  rw [List.mem_singleton] at he
  subst he
  cases bs with
  | nil => rfl
  | cons b bs =>
    have := hlen b (by simp)
    obtain ⟨_, _, h1, h2, _⟩ := hb
    simp only [Range.len]
    omega

/-- The blocks of a statement inside of another one. -/
theorem sub_within {r : Range} {ss : List Stmt} {st : Stmt} {bs : List (Range × List Stmt)} (hi : Inside r ss) (hs : st ∈ ss) (hb : ∀ b ∈ bs, Within b.1 st.range) :
    ∀ b ∈ bs, r.start < b.1.start ∧ b.1.stop ≤ r.stop := by
  intro b h
  have := hb b h
  have := hi.1 st hs
  exact ⟨Nat.lt_of_lt_of_le (by omega) ‹Within b.1 st.range›.1, Nat.le_trans ‹Within b.1 st.range›.2 this.2⟩

theorem sub_has {r : Range} {ss : List Stmt} {st : Stmt} {p : Nat} (hi : Inside r ss) (hs : st ∈ ss) (hp : Has st.range p) : Has r p := by
  have := hi.1 st hs
  have := hp.1; have := hp.2
  unfold Has
  omega

theorem weak {r : Range} {bs : List (Range × List Stmt)} (h : ∀ b ∈ bs, r.start < b.1.start ∧ b.1.stop ≤ r.stop) : ∀ b ∈ bs, Within b.1 r :=
  fun b hb => ⟨Nat.le_of_lt (h b hb).1, (h b hb).2⟩

theorem pos_of {p : Nat} {st : Stmt} {ls : List Layer} (h : In p st ls) : Pos p st ls := by
  induction h with
  | @simple r node hp =>
    intro hl
    refine ⟨hp, by simp [blks], fun k s _ _ hk => ?_⟩
    cases node with
    | none => exact ⟨[], by simpa only [lower, compute, region] using effect_refl k s, fun e he => by simp at he⟩
    | some q =>
      refine ⟨_, by simpa only [lower, compute, region] using record_effect k k s q, fun e he _ => ?_⟩
      rw [List.mem_singleton] at he
      rw [he]
  | @decl r ds hp =>
    intro hl
    refine ⟨hp, by simp [blks], fun k s _ _ hk => ?_⟩
    refine ⟨_, by simpa only [lower, compute, region] using effect_rec (binds_effect k ds _), fun e he _ => ?_⟩
    simp only [List.mem_append, List.mem_reverse, List.mem_map, List.mem_singleton] at he
    rcases he with ⟨d, -, rfl⟩ | rfl <;> rfl
  | @block r ss st ls hs hin ih =>
    intro hl
    simp only [Laid] at hl
    have hls := laid_mem hl.2 st hs
    obtain ⟨p1, p2, -⟩ := ih hls
    have hsub := sub_within hl.1 hs p2
    rw [blks_snoc_block]
    refine ⟨sub_has hl.1 hs p1, ?_, fun k s hf hn hk => ?_⟩
    · intro b hb
      rcases List.mem_append.1 hb with hb | hb
      · exact weak hsub b hb
      · rw [List.mem_singleton] at hb; rw [hb]; exact within_refl _
    · simp only [Full] at hf
      simp only [lower, compute, region]
      have hlen : (s.newBlock r k).scopes.length = s.scopes.length + 1 := by simp [Scopes.newBlock]
      have hn' : ∀ t ∈ ss, NoTouch p t := fun t ht q hq => hn q (by simp only [blockRanges, List.mem_cons]; exact .inr (mem_blocksAll ht hq))
      obtain ⟨es, he, hb⟩ := pos_all ih ss s.scopes.length (s.newBlock r k) hs hf hl.2 hl.1.2 hn' (by omega)
      have hcur : (computeAll s.scopes.length (s.newBlock r k) (lowerAll ss)).scopes[s.scopes.length]? =
          some ⟨some k, ((regionAll ss).map pair).reverse⟩ := by
        rw [he.cur]
        simp [Scopes.newBlock, addEntries]
      refine ⟨es ++ [(r, s.scopes.length)], ⟨by have := he.le; omega, ?_, ?_, ?_⟩, ?_⟩
      · rw [he.old k (by omega) (by omega)]
        simp only [Scopes.newBlock]
        rw [List.getElem?_append_left hk]
        cases s.scopes[k]? <;> simp [addEntries_nil]
      · intro j hj _
        rw [he.old j (by omega) (by omega)]
        simp only [Scopes.newBlock]
        rw [List.getElem?_append_left hj]
      · rw [he.recorded]; simp [Scopes.newBlock]
      · have hb' := own_best (r := r) (best_mono (m := s.scopes.length) (by omega) hb) hsub
        cases hbs : blks ls with
        | nil =>
          rw [hbs] at hb'
          have := hl.1.1 st hs
          have := p1.1; have := p1.2
          refine ⟨s.scopes.length, by simp, by show r.start < p; omega, by show p < r.stop; omega, chain_snoc (b := (r, ss)) hcur hk (Nat.le_refl _) [] _ rfl, ?_⟩
          intro e h1 h2
          exact .inl (hb' e h1 h2)
        | cons b bs =>
          rw [hbs] at hb'
          obtain ⟨j, h1, h2, h3, h4, h5⟩ := hb'
          exact ⟨j, h1, h2, h3, chain_snoc (b := (r, ss)) hcur hk (Nat.le_refl _) _ _ h4, h5⟩
  | @forHead r init full body hp h1 h2 =>
    intro hl
    simp only [Laid] at hl
    refine ⟨hp, by simp [blks, blk], fun k s hf hn hk => ?_⟩
    simp only [Full] at hf
    simp only [lower, hf.1, if_true, compute, region]
    have hn1 : ∀ t ∈ init, NoTouch p t := fun t ht q hq => hn q (by simp only [blockRanges, List.mem_append]; exact .inl (mem_blocksAll ht hq))
    have hn2 : NoTouch p body := fun q hq => hn q (by simp only [blockRanges, List.mem_append]; exact .inr hq)
    obtain ⟨e1, f1, w1⟩ := head_all (k := k) (s := s.record r k) hf.2.1 hl.2.1 hn1 h1 hk
    obtain ⟨e2, f2, w2⟩ := head_one (k := k) hf.2.2 hl.2.2 hn2 h2 (Nat.lt_of_lt_of_le hk f1.le)
    refine ⟨_, effect_rec (effect_trans f1 f2), ?_⟩
    intro e he ht
    rcases List.mem_append.1 he with he | he
    · rcases List.mem_append.1 he with he | he
      · exact w2 e he ht
      · exact w1 e he ht
    · rw [List.mem_singleton] at he; rw [he]
  | @forInit r init full body st ls hs hin ih =>
    intro hl
    simp only [Laid] at hl
    obtain ⟨p1, p2, -⟩ := ih (laid_mem hl.2.1 st hs)
    have hsub := sub_within hl.1 (by simp [hs]) p2
    rw [blks_snoc_loop]
    refine ⟨sub_has hl.1 (by simp [hs]) p1, weak hsub, fun k s hf hn hk => ?_⟩
    simp only [Full] at hf
    simp only [lower, hf.1, if_true, compute, region]
    have hn1 : ∀ t ∈ init, NoTouch p t := fun t ht q hq => hn q (by simp only [blockRanges, List.mem_append]; exact .inl (mem_blocksAll ht hq))
    have hpw := List.pairwise_append.1 hl.1.2
    obtain ⟨e1, f1, b1⟩ := pos_all ih init k (s.record r k) hs hf.2.1 hl.2.1 hpw.1 hn1 hk
    obtain ⟨e2, f2, w2⟩ := compute_effect body k _ hf.2.2 hl.2.2 (Nat.lt_of_lt_of_le hk f1.le)
    refine ⟨_, effect_rec (effect_trans f1 f2), own_best ?_ hsub⟩
    refine (best_add (best_stable (fun j hj hl => f2.old j hl (by have : (s.record r k).scopes.length = s.scopes.length := rfl; omega)) b1) ?_).1
    intro e he ht
    exfalso
    have := hpw.2.2 st hs body (by simp)
    have := (w2 e he).1.1; have := ht.1; have := p1.2
    omega
  | @forBody r init full body ls hin ih =>
    intro hl
    simp only [Laid] at hl
    obtain ⟨p1, p2, p3⟩ := ih hl.2.2
    have hsub := sub_within hl.1 (by simp) p2
    rw [blks_snoc_loop]
    refine ⟨sub_has hl.1 (by simp) p1, weak hsub, fun k s hf hn hk => ?_⟩
    simp only [Full] at hf
    simp only [lower, hf.1, if_true, compute, region]
    have hn1 : ∀ t ∈ init, NoTouch p t := fun t ht q hq => hn q (by simp only [blockRanges, List.mem_append]; exact .inl (mem_blocksAll ht hq))
    have hn2 : NoTouch p body := fun q hq => hn q (by simp only [blockRanges, List.mem_append]; exact .inr hq)
    have hpw := List.pairwise_append.1 hl.1.2
    obtain ⟨e0, f0, w0⟩ := computeAll_effect init k (s.record r k) hf.2.1 hl.2.1 hk
    obtain ⟨e1, f1, w1⟩ := head_all (k := k) (s := s.record r k) hf.2.1 hl.2.1 hn1 (fun t ht hh => by
      have := hpw.2.2 t ht body (by simp)
      have := hh.2; have := p1.1
      omega) hk
    obtain ⟨e2, f2, b2⟩ := p3 k _ hf.2.2 hn2 (Nat.lt_of_lt_of_le hk f1.le)
    refine ⟨_, effect_rec (effect_trans f1 f2), own_best ((best_add (best_mono f1.le b2) ?_).2) hsub⟩
    have hee : e0 = e1 := List.append_cancel_right (f0.recorded.symm.trans f1.recorded)
    subst hee
    intro e he ht
    cases hbs : blks ls with
    | nil => exact w1 e he ht
    | cons b bs =>
      rw [hbs] at b2 p2
      obtain ⟨_, _, h3, _⟩ := b2
      obtain ⟨⟨t, ht1, ht2⟩, -⟩ := w0 e he
      have := hpw.2.2 t ht1 body (by simp)
      have := ht2.2; have := ht.2; have := (p2 b (by simp)).1
      omega
  | @whileHead r body hp h1 =>
    intro hl
    simp only [Laid] at hl
    refine ⟨hp, by simp [blks], fun k s hf hn hk => ?_⟩
    simp only [Full] at hf
    simp only [lower, compute, computeAll, region]
    obtain ⟨e1, f1, w1⟩ := head_one (k := k) (s := s.record r k) hf hl.2 (by simpa [NoTouch, blockRanges] using hn) h1 hk
    refine ⟨_, effect_rec f1, fun e he ht => ?_⟩
    rcases List.mem_append.1 he with he | he
    · exact w1 e he ht
    · rw [List.mem_singleton] at he; rw [he]
  | @whileBody r body ls hin ih =>
    intro hl
    simp only [Laid] at hl
    obtain ⟨p1, p2, p3⟩ := ih hl.2
    have hsub := sub_within hl.1 (by simp) p2
    refine ⟨sub_has hl.1 (by simp) p1, weak hsub, fun k s hf hn hk => ?_⟩
    simp only [Full] at hf
    simp only [lower, compute, computeAll, region]
    obtain ⟨e1, f1, b1⟩ := p3 k (s.record r k) hf (by simpa [NoTouch, blockRanges] using hn) hk
    exact ⟨_, effect_rec f1, own_best b1 hsub⟩
  | @ifHead r t e hp h1 h2 =>
    intro hl
    refine ⟨hp, by simp [blks], fun k s hf hn hk => ?_⟩
    cases e with
    | none =>
      simp only [Laid, Full] at hl hf
      simp only [lower, compute, region]
      obtain ⟨e1, f1, w1⟩ := head_one (k := k) (s := s.record r k) hf hl.2 (by simpa [NoTouch, blockRanges] using hn) h1 hk
      refine ⟨_, effect_rec f1, fun e he ht => ?_⟩
      rcases List.mem_append.1 he with he | he
      · exact w1 e he ht
      · rw [List.mem_singleton] at he; rw [he]
    | some e =>
      simp only [Laid, Full] at hl hf
      simp only [lower, compute, region]
      have hn1 : NoTouch p t := fun q hq => hn q (by simp only [blockRanges, List.mem_append]; exact .inl hq)
      have hn2 : NoTouch p e := fun q hq => hn q (by simp only [blockRanges, List.mem_append]; exact .inr hq)
      obtain ⟨e1, f1, w1⟩ := head_one (k := k) (s := s.record r k) hf.1 hl.2.1 hn1 h1 hk
      obtain ⟨e2, f2, w2⟩ := head_one (k := k) hf.2 hl.2.2 hn2 (h2 e rfl) (Nat.lt_of_lt_of_le hk f1.le)
      refine ⟨_, effect_rec (effect_trans f1 f2), fun e he ht => ?_⟩
      rcases List.mem_append.1 he with he | he
      · rcases List.mem_append.1 he with he | he
        · exact w2 e he ht
        · exact w1 e he ht
      · rw [List.mem_singleton] at he; rw [he]
  | @ifThen r t e ls hin ih =>
    intro hl
    cases e with
    | none =>
      simp only [Laid] at hl
      obtain ⟨p1, p2, p3⟩ := ih hl.2
      have hsub := sub_within hl.1 (by simp) p2
      refine ⟨sub_has hl.1 (by simp) p1, weak hsub, fun k s hf hn hk => ?_⟩
      simp only [Full] at hf
      simp only [lower, compute, region]
      obtain ⟨e1, f1, b1⟩ := p3 k (s.record r k) hf (by simpa [NoTouch, blockRanges] using hn) hk
      exact ⟨_, effect_rec f1, own_best b1 hsub⟩
    | some e =>
      simp only [Laid] at hl
      obtain ⟨p1, p2, p3⟩ := ih hl.2.1
      have hsub := sub_within hl.1 (by simp) p2
      refine ⟨sub_has hl.1 (st := t) (by simp) p1, weak hsub, fun k s hf hn hk => ?_⟩
      simp only [Full] at hf
      simp only [lower, compute, region]
      have hn1 : NoTouch p t := fun q hq => hn q (by simp only [blockRanges, List.mem_append]; exact .inl hq)
      obtain ⟨e1, f1, b1⟩ := p3 k (s.record r k) hf.1 hn1 hk
      obtain ⟨e2, f2, w2⟩ := compute_effect e k _ hf.2 hl.2.2 (Nat.lt_of_lt_of_le hk f1.le)
      refine ⟨_, effect_rec (effect_trans f1 f2), own_best ?_ hsub⟩
      refine (best_add (best_stable (fun j hj hl => f2.old j hl (by have : (s.record r k).scopes.length = s.scopes.length := rfl; omega)) b1) ?_).1
      intro n he ht
      exfalso
      have := hl.1.2
      simp only [List.pairwise_cons, List.mem_singleton, forall_eq] at this
      have := this.1
      have := (w2 n he).1.1; have := ht.1; have := p1.2
      omega
  | @ifElse r t e ls hin ih =>
    intro hl
    simp only [Laid] at hl
    obtain ⟨p1, p2, p3⟩ := ih hl.2.2
    have hsub := sub_within hl.1 (by simp) p2
    refine ⟨sub_has hl.1 (st := e) (by simp) p1, weak hsub, fun k s hf hn hk => ?_⟩
    simp only [Full] at hf
    simp only [lower, compute, region]
    have hn1 : NoTouch p t := fun q hq => hn q (by simp only [blockRanges, List.mem_append]; exact .inl hq)
    have hn2 : NoTouch p e := fun q hq => hn q (by simp only [blockRanges, List.mem_append]; exact .inr hq)
    have hord := hl.1.2
    simp only [List.pairwise_cons, List.mem_singleton, forall_eq] at hord
    obtain ⟨e1, f1, w1⟩ := compute_effect t k (s.record r k) hf.1 hl.2.1 hk
    obtain ⟨e2, f2, b2⟩ := p3 k _ hf.2 hn2 (Nat.lt_of_lt_of_le hk f1.le)
    refine ⟨_, effect_rec (effect_trans f1 f2), own_best ((best_add (best_mono f1.le b2) ?_).2) hsub⟩
    have := hord.1; have := p1.1
    refine sibling_others w1 hl.2.1 hn1 (by unfold Has; omega) ?_
    intro b hb
    cases hbs : blks ls with
    | nil => rw [hbs] at hb; simp at hb
    | cons c bs =>
      rw [hbs] at hb p2 b2
      simp only [List.head?_cons, Option.mem_def, Option.some.injEq] at hb
      subst hb
      obtain ⟨_, _, h3, _⟩ := b2
      have := (p2 c (by simp)).1
      omega
  | @switchHead r cs hp h1 =>
    intro hl
    simp only [Laid] at hl
    refine ⟨hp, by simp [blks], fun k s hf hn hk => ?_⟩
    simp only [Full] at hf
    simp only [lower, compute, region]
    have hn1 : ∀ t ∈ cs, NoTouch p t := fun t ht q hq => hn q (by simp only [blockRanges]; exact mem_blocksAll ht hq)
    obtain ⟨e1, f1, w1⟩ := head_all (k := k) (s := s.record r k) hf hl.2 hn1 h1 hk
    refine ⟨_, effect_rec f1, fun e he ht => ?_⟩
    rcases List.mem_append.1 he with he | he
    · exact w1 e he ht
    · rw [List.mem_singleton] at he; rw [he]
  | @switchCase r cs st ls hs hin ih =>
    intro hl
    simp only [Laid] at hl
    obtain ⟨p1, p2, -⟩ := ih (laid_mem hl.2 st hs)
    have hsub := sub_within hl.1 hs p2
    refine ⟨sub_has hl.1 hs p1, weak hsub, fun k s hf hn hk => ?_⟩
    simp only [Full] at hf
    simp only [lower, compute, region]
    have hn1 : ∀ t ∈ cs, NoTouch p t := fun t ht q hq => hn q (by simp only [blockRanges]; exact mem_blocksAll ht hq)
    obtain ⟨e1, f1, b1⟩ := pos_all ih cs k (s.record r k) hs hf hl.2 hl.1.2 hn1 hk
    exact ⟨_, effect_rec f1, own_best b1 hsub⟩

theorem shortest_spec : ∀ (l : List (Range × Nat)), (∀ e, shortest l = some e → e ∈ l ∧ ∀ e' ∈ l, e.1.len ≤ e'.1.len) ∧ (shortest l = none → l = []) := by
  intro l
  induction l with
  | nil => simp [shortest]
  | cons a l ih =>
    simp only [shortest]
    cases h : shortest l with
    | none =>
      have := ih.2 h
      subst this
      simp
    | some b =>
      obtain ⟨h1, h2⟩ := ih.1 b h
      simp only
      refine ⟨?_, fun hh => by split at hh <;> simp at hh⟩
      intro e he
      split at he
      · rename_i hab
        simp only [Option.some.injEq] at he
        subst he
        refine ⟨by simp, fun e' he' => ?_⟩
        rcases List.mem_cons.1 he' with h' | h'
        · rw [h']; exact Nat.le_refl _
        · exact Nat.le_trans hab (h2 e' h')
      · rename_i hab
        simp only [Option.some.injEq] at he
        subst he
        refine ⟨by simp [h1], fun e' he' => ?_⟩
        rcases List.mem_cons.1 he' with h' | h'
        · rw [h']; omega
        · exact h2 e' h'

/-- The lookup finds the scope of the innermost block, in whatever order the entries come. -/
theorem scopeForOffset_best {n k p : Nat} {s : Scopes} {es order : List (Range × Nat)} {b : Range × List Stmt} {bs : List (Range × List Stmt)} (hb : Best n k p s es (b :: bs))
    (ho : order.Perm es) : ∃ j, scopeForOffset order p = some j ∧ ChainTo n s k j (b :: bs) := by
  obtain ⟨j, h1, h2, h3, h4, h5⟩ := hb
  refine ⟨j, ?_, h4⟩
  unfold scopeForOffset
  have hmem : (b.1, j) ∈ order.filter fun e => decide (e.1.start ≤ p ∧ p ≤ e.1.stop) :=
    List.mem_filter.2 ⟨ho.mem_iff.2 h1, by simp only [decide_eq_true_eq]; omega⟩
  cases hs : shortest (order.filter fun e => decide (e.1.start ≤ p ∧ p ≤ e.1.stop)) with
  | none =>
    rw [(shortest_spec _).2 hs] at hmem
    simp at hmem
  | some e =>
    obtain ⟨a1, a2⟩ := (shortest_spec _).1 e hs
    have hlen := a2 _ hmem
    rw [List.mem_filter] at a1
    have := h5 e (ho.mem_iff.1 a1.1) (by simpa [Touches] using a1.2)
    rcases this with h | h
    · simp [h]
    · simp only at hlen; omega

/-! ## The lookup -/

/-- The last declaration of a name in a list. -/
def lastOf (x : Name) (ds : List Decl) : Option Nat := ((ds.map pair).reverse).lookup x

/-- What the code finds: the last declaration in the innermost block that holds one outside of inner blocks, then the parameters. -/
def found (x : Name) (ps : List Decl) : List (Range × List Stmt) → Option Nat
  | [] => lastOf x ps
  | b :: bs => (lastOf x (regionAll b.2)).or (found x ps bs)

theorem chain_eq {s : Scopes} {ps : List Decl} (h0 : s.scopes[0]? = some ⟨none, (ps.map pair).reverse⟩) {n : Nat} (hn : 0 < n) (x : Name) :
    ∀ (bs : List (Range × List Stmt)) (j fuel : Nat), ChainTo n s 0 j bs → j < fuel →
      ((s.chain fuel j).findSome? fun i => (s.scopes[i]?).bind fun sc => sc.entries.lookup x) = found x ps bs := by
  intro bs
  induction bs with
  | nil =>
    intro j fuel h hj
    obtain rfl : j = 0 := h
    cases fuel with
    | zero => omega
    | succ fuel =>
      simp only [Scopes.chain, h0]
      simp only [List.findSome?_cons, h0, Option.bind_some, List.findSome?_nil, found, lastOf]
      cases List.lookup x (ps.map pair).reverse <;> rfl
  | cons b bs ih =>
    intro j fuel h hj
    obtain ⟨p, h1, h2, h3, h4⟩ := h
    cases fuel with
    | zero => omega
    | succ fuel =>
      simp only [Scopes.chain, h2, List.findSome?_cons, Option.bind_some, found]
      have := ih p fuel h4 (by omega)
      cases hl : List.lookup x ((regionAll b.2).map pair).reverse with
      | some i => simp [lastOf, hl]
      | none => simpa [lastOf, hl] using this

theorem chain_members {s : Scopes} {ps : List Decl} (h0 : s.scopes[0]? = some ⟨none, (ps.map pair).reverse⟩) {n : Nat} (hn : 0 < n) (x : Name) :
    ∀ (bs : List (Range × List Stmt)) (j fuel : Nat), ChainTo n s 0 j bs → j < fuel → found x ps bs = none → s.scopes.length ≥ fuel →
      ∀ {G : Type} (g : Name → Option G) (tail : List RScope), s.resolveIdent g x ((s.chain fuel j).map s.rscope ++ tail) = s.resolveIdent g x (.global :: tail) := by
  intro bs
  induction bs with
  | nil =>
    intro j fuel h hj _ _ G g tail
    obtain rfl : j = 0 := h
    cases fuel with
    | zero => omega
    | succ fuel => simp [Scopes.chain, h0, Scopes.rscope]
  | cons b bs ih =>
    intro j fuel h hj hnone hfl G g tail
    have hr := chain_eq h0 hn x (b :: bs) j s.scopes.length h (by omega)
    obtain ⟨p, h1, h2, h3, h4⟩ := h
    cases fuel with
    | zero => omega
    | succ fuel =>
      have hrest : found x ps bs = none := by
        simp only [found, Option.or_eq_none_iff] at hnone
        exact hnone.2
      have hres : s.resolve j x = none := by
        unfold Scopes.resolve
        rw [hr, hnone]
      simp only [Scopes.chain, h2, List.map_cons, Scopes.rscope, List.cons_append, Scopes.resolveIdent, hres]
      exact ih p fuel h4 (by omega) hrest (by omega) g tail

theorem root_effect (f : Func) : Effect 0 f.params [] { scopes := [⟨none, []⟩] } f.root := inserts_effect 0 f.params _

theorem root_pos (f : Func) : 0 < f.root.scopes.length := by
  have := (root_effect f).le
  simp at this
  omega

theorem scopes_root (f : Func) (r : Range) (ss : List Stmt) (hb : f.body = .block r ss) (hf : Full f.body) (hl : Laid f.body) :
    f.scopes.scopes[0]? = some ⟨none, (f.params.map pair).reverse⟩ := by
  unfold Func.scopes
  have e1 := root_effect f
  obtain ⟨_, e2, -⟩ := compute_effect f.body 0 f.root hf hl (root_pos f)
  rw [e2.cur, e1.cur, hb]
  simp [region, addEntries]

/-- What an identifier without a local declaration stands for. -/
def outside {G : Type} (method : Bool) (g : Name → Option G) (x : Name) : Option (Target G) :=
  match g x with
  | some v => some (.global v)
  | none => if method = true ∧ x = "this".toList then some .this else none

/-- The circumstances of a use: the body of the function is a block in which no `for` leaves out a part, its ranges are those of a syntax
tree, the identifier starts at `p` between the scopes `ls`, no block ends exactly there, and the entries are looked through in any order. -/
structure Use (f : Func) (p : Nat) (ls : List Layer) (order : List (Range × Nat)) : Prop where
  block : ∃ r ss, f.body = .block r ss
  full : Full f.body
  laid : Laid f.body
  place : In p f.body ls
  apart : NoTouch p f.body
  order : order.Perm f.scopes.byExpr

/-- **What the code does**, for every body in which no `for` leaves out a part: the last declaration of the name in the innermost block
around the use that holds one outside of inner blocks, then the last parameter of that name, then the names outside of the function. -/
theorem resolve_exact {G : Type} {f : Func} {p : Nat} {ls : List Layer} {order : List (Range × Nat)} (u : Use f p ls order) (method : Bool) (g : Name → Option G) (x : Name) :
    f.resolve order method g p x = ((found x f.params (blks ls)).map Target.local_).or (outside method g x) := by
  obtain ⟨⟨r, ss, hb⟩, hf, hla, hi, hn, ho⟩ := u
  have h0 := scopes_root f r ss hb hf hla
  have hpos := root_pos f
  obtain ⟨es, he, hl⟩ := (pos_of hi hla).2.2 0 f.root hf hn hpos
  have hes : f.scopes.byExpr = es := by
    have := he.recorded
    rw [(root_effect f).recorded] at this
    simpa [Func.scopes] using this
  have hne : ∃ b bs, blks ls = b :: bs := by
    rw [hb] at hi
    cases hi with
    | @block _ _ s ls' _ _ =>
      rw [blks_append]
      cases hx : blks ls' with
      | nil => exact ⟨_, _, rfl⟩
      | cons b bs => exact ⟨_, _, rfl⟩
  obtain ⟨b, bs, hbs⟩ := hne
  rw [hbs] at hl
  obtain ⟨j, hsc, h2⟩ := scopeForOffset_best hl (hes ▸ ho)
  have h2 : ChainTo _ f.scopes 0 j (b :: bs) := h2
  have hj : j < f.scopes.scopes.length := by
    obtain ⟨p, _, h3, _⟩ := h2
    rw [List.getElem?_eq_some_iff] at h3
    exact h3.1
  have hr := chain_eq h0 hpos x (b :: bs) j f.scopes.scopes.length h2 hj
  unfold Func.resolve
  rw [hsc, hbs]
  simp only [Scopes.resolver]
  cases hfd : found x f.params (b :: bs) with
  | none =>
    rw [List.append_assoc, chain_members h0 hpos x (b :: bs) j _ h2 hj hfd (Nat.le_refl _) g]
    simp only [Scopes.resolveIdent, Option.map_none, Option.none_or, outside]
    cases hg : g x with
    | some v => rfl
    | none =>
      cases method with
      | false => simp [Scopes.resolveIdent, hg]
      | true =>
        by_cases hx : x = "this".toList
        · simp [Scopes.resolveIdent, hx]
        · simp [Scopes.resolveIdent, hg, hx]
  | some i =>
    have hres : f.scopes.resolve j x = some i := by unfold Scopes.resolve; rw [hr, hfd]
    obtain ⟨m, hm⟩ : ∃ m, f.scopes.scopes.length = m + 1 := ⟨f.scopes.scopes.length - 1, by omega⟩
    obtain ⟨p, _, h3, _⟩ := h2
    rw [hm]
    simp only [Scopes.chain, h3, List.map_cons, Scopes.rscope, List.cons_append, Scopes.resolveIdent, hres, Option.map_some, Option.some_or]

/-! ## The rule of the language -/

theorem lookup_rev (x : Name) : ∀ (l : List (Name × Nat)) (i : Nat), l.lookup x = some i → (x, i) ∈ l := by
  intro l
  induction l with
  | nil => intro i h; simp at h
  | cons p l ih =>
    intro i h
    obtain ⟨a, b⟩ := p
    rw [List.lookup_cons] at h
    cases hb : x == a with
    | true => rw [hb] at h; simp only [Option.some.injEq] at h; simp at hb; subst hb; subst h; simp
    | false => rw [hb] at h; exact List.mem_cons_of_mem _ (ih i h)

theorem lookup_miss (x : Name) : ∀ (l : List (Name × Nat)), l.lookup x = none → ∀ i, (x, i) ∉ l := by
  intro l
  induction l with
  | nil => intro _ i h; simp at h
  | cons p l ih =>
    intro h i hi
    obtain ⟨a, b⟩ := p
    rw [List.lookup_cons] at h
    cases hb : x == a with
    | true => rw [hb] at h; simp at h
    | false =>
      rw [hb] at h
      rcases List.mem_cons.1 hi with e | hi
      · simp only [Prod.mk.injEq] at e
        simp [e.1] at hb
      · exact ih h i hi

theorem lastOf_mem {x : Name} {ds : List Decl} {i : Nat} (h : lastOf x ds = some i) : ∃ d ∈ ds, d.name = x ∧ d.id = i := by
  have := lookup_rev x _ i h
  simp only [List.mem_reverse, List.mem_map, pair, Prod.mk.injEq] at this
  obtain ⟨d, h1, h2, h3⟩ := this
  exact ⟨d, h1, h2, h3⟩

theorem lastOf_none {x : Name} {ds : List Decl} (h : lastOf x ds = none) : ∀ d ∈ ds, d.name ≠ x := by
  intro d hd e
  refine lookup_miss x _ h d.id ?_
  simp only [List.mem_reverse, List.mem_map, pair]
  exact ⟨d, hd, by rw [e]⟩

theorem lastOf_eq_none {x : Name} {ds : List Decl} (h : ∀ d ∈ ds, d.name ≠ x) : lastOf x ds = none := by
  cases hl : lastOf x ds with
  | none => rfl
  | some i =>
    obtain ⟨d, h1, h2, -⟩ := lastOf_mem hl
    exact absurd h2 (h d h1)

theorem direct_region : ∀ (ss : List Stmt), ∀ d ∈ direct ss, d ∈ regionAll ss := by
  intro ss
  induction ss with
  | nil => intro d h; simp [direct] at h
  | cons s ss ih =>
    intro d h
    simp only [regionAll, List.mem_append]
    cases s with
    | decl ds =>
      simp only [direct, List.mem_append] at h
      rcases h with h | h
      · exact .inl (by simpa [region] using h)
      · exact .inr (ih d h)
    | simple | block | for_ | while_ | if_ | switch => exact .inr (ih d (by simpa [direct] using h))

/-- The layers end with a block. -/
def EndsInBlock : List Layer → Prop
  | [] => False
  | [.block _ _] => True
  | _ :: ls => EndsInBlock ls

theorem ends_snoc (ls : List Layer) (id : Range) (ss : List Stmt) : EndsInBlock (ls ++ [.block id ss]) := by
  induction ls with
  | nil => trivial
  | cons l ls ih =>
    cases ls with
    | nil => cases l <;> exact trivial
    | cons m ls => cases l <;> exact ih

theorem found_around (x : Name) (ps : List Decl) : ∀ (ls : List Layer) (around : List Decl), EndsInBlock ls → NoLeak x around ls → (∃ d ∈ around, d.name = x) →
    ∃ d ∈ around, d.name = x ∧ found x ps (blks ls) = some d.id := by
  intro ls
  induction ls with
  | nil => intro around h; exact h.elim
  | cons l ls ih =>
    intro around he hl hx
    cases l with
    | loop init =>
      simp only [NoLeak] at hl
      obtain ⟨d, hd, hdx⟩ := hx
      have he' : EndsInBlock ls := by
        cases ls with
        | nil => exact he.elim
        | cons m ls => exact he
      obtain ⟨d', h1, h2, h3⟩ := ih (around ++ direct init) he' hl ⟨d, by simp [hd], hdx⟩
      -- the loops around the use hold only one declaration of the name
      have honly : ∀ e ∈ around ++ direct init, e.name = x → e.id = d'.id := by
        clear ih h1 hd hdx
        revert hl h3
        generalize around ++ direct init = ar
        intro hl h3
        clear he
        induction ls generalizing ar with
        | nil => exact he'.elim
        | cons m ls ih2 =>
          cases m with
          | loop init2 =>
            have he2 : EndsInBlock ls := by
              cases ls with
              | nil => exact he'.elim
              | cons m ls => exact he'
            intro e he3 hex
            exact ih2 he2 (ar ++ direct init2) (by simpa [NoLeak] using hl) (by rwa [blks_loop] at h3) e (by simp [he3]) hex
          | block id ss =>
            simp only [NoLeak] at hl
            intro e he3 hex
            rcases hl.1 with ⟨-, hl⟩ | ⟨d2, hl1, hl2⟩
            · exact absurd hex (hl e he3)
            · have m1 : e ∈ ar.filter (·.name = x) := List.mem_filter.2 ⟨he3, by simpa using hex⟩
              rw [hl1, List.mem_singleton] at m1
              have hreg : lastOf x (regionAll ss) = some d2.id := by
                cases hlast : lastOf x (regionAll ss) with
                | none =>
                  have m2 : d2 ∈ (regionAll ss).filter (·.name = x) := by rw [hl2]; simp
                  rw [List.mem_filter] at m2
                  exact absurd (by simpa using m2.2) (lastOf_none hlast d2 m2.1)
                | some i =>
                  obtain ⟨d3, a1, a2, a3⟩ := lastOf_mem hlast
                  have m2 : d3 ∈ (regionAll ss).filter (·.name = x) := List.mem_filter.2 ⟨a1, by simpa using a2⟩
                  rw [hl2, List.mem_singleton] at m2
                  rw [← a3, m2]
              simp only [blks, List.filterMap_cons, blk, found, hreg, Option.some_or, Option.some.injEq] at h3
              rw [m1, h3]
      exact ⟨d, hd, hdx, by
        have : blks (Layer.loop init :: ls) = blks ls := rfl
        rw [this, h3, honly d (by simp [hd]) hdx]⟩
    | block id ss =>
      simp only [NoLeak] at hl
      obtain ⟨d, hd, hdx⟩ := hx
      rcases hl.1 with ⟨-, hl⟩ | ⟨d2, hl1, hl2⟩
      · exact absurd hdx (hl d hd)
      · have m1 : d ∈ around.filter (·.name = x) := List.mem_filter.2 ⟨hd, by simpa using hdx⟩
        rw [hl1, List.mem_singleton] at m1
        subst m1
        refine ⟨d, hd, hdx, ?_⟩
        have hreg : lastOf x (regionAll ss) = some d.id := by
          cases hlast : lastOf x (regionAll ss) with
          | none =>
            have m2 : d ∈ (regionAll ss).filter (·.name = x) := by rw [hl2]; simp
            rw [List.mem_filter] at m2
            exact absurd hdx (lastOf_none hlast d m2.1)
          | some i =>
            obtain ⟨d3, a1, a2, a3⟩ := lastOf_mem hlast
            have m2 : d3 ∈ (regionAll ss).filter (·.name = x) := List.mem_filter.2 ⟨a1, by simpa using a2⟩
            rw [hl2, List.mem_singleton] at m2
            rw [← a3, m2]
        simp [blks, blk, found, hreg]

theorem found_declares (x : Name) (ps : List Decl) : ∀ (ls : List Layer) (around : List Decl), (ls = [] ∨ EndsInBlock ls) → NoLeak x around ls → (∀ d ∈ around, d.name ≠ x) →
    match found x ps (blks ls) with
    | some i => Declares x ls ps i
    | none => NoLocal x ls ps := by
  intro ls
  induction ls with
  | nil =>
    intro around _ _ _
    simp only [blks, List.filterMap_nil, found]
    cases h : lastOf x ps with
    | some i =>
      obtain ⟨d, h1, h2, h3⟩ := lastOf_mem h
      subst h3
      exact .param h1 h2
    | none => exact ⟨by simp, lastOf_none h⟩
  | cons l ls ih =>
    intro around he hl hx
    have he : EndsInBlock (l :: ls) := by
      rcases he with he | he
      · simp at he
      · exact he
    cases l with
    | loop init =>
      have he' : EndsInBlock ls := by
        cases ls with
        | nil => exact he.elim
        | cons m ls => exact he
      simp only [NoLeak] at hl
      have hb : blks (Layer.loop init :: ls) = blks ls := rfl
      rw [hb]
      by_cases hd : ∃ d ∈ direct init, d.name = x
      · obtain ⟨d, hd1, hd2⟩ := hd
        obtain ⟨d', h1, h2, h3⟩ := found_around x ps ls (around ++ direct init) he' hl ⟨d, by simp [hd1], hd2⟩
        rw [h3]
        have : d' ∈ direct init := by
          rcases List.mem_append.1 h1 with h | h
          · exact absurd h2 (hx d' h)
          · exact h
        exact .here (l := .loop init) this h2
      · have hno : ∀ d ∈ direct init, d.name ≠ x := fun d h1 h2 => hd ⟨d, h1, h2⟩
        have := ih (around ++ direct init) (.inr he') hl (by
          intro d h
          rcases List.mem_append.1 h with h | h
          · exact hx d h
          · exact hno d h)
        cases hf : found x ps (blks ls) with
        | some i => rw [hf] at this; exact .outer (l := .loop init) hno this
        | none =>
          rw [hf] at this
          refine ⟨?_, this.2⟩
          intro l hl
          rcases List.mem_cons.1 hl with rfl | hl
          · exact hno
          · exact this.1 l hl
    | block id ss =>
      simp only [NoLeak] at hl
      have hb : blks (Layer.block id ss :: ls) = (id, ss) :: blks ls := by simp [blks, blk]
      rw [hb]
      rcases hl.1 with ⟨hl1, -⟩ | ⟨d2, hl1, -⟩
      · simp only [found]
        cases hlast : lastOf x (regionAll ss) with
        | some i =>
          obtain ⟨d, a1, a2, a3⟩ := lastOf_mem hlast
          subst a3
          exact .here (l := .block id ss) (hl1 d a1 a2) a2
        | none =>
          have hno : ∀ d ∈ direct ss, d.name ≠ x := fun d h => lastOf_none hlast d (direct_region ss d h)
          have he' : ls = [] ∨ EndsInBlock ls := by
            cases ls with
            | nil => exact .inl rfl
            | cons m ls => exact .inr he
          have := ih [] he' hl.2 (by simp)
          rw [Option.none_or]
          cases hf : found x ps (blks ls) with
          | some i => rw [hf] at this; exact .outer (l := .block id ss) hno this
          | none =>
            rw [hf] at this
            refine ⟨?_, this.2⟩
            intro l hl
            rcases List.mem_cons.1 hl with rfl | hl
            · exact hno
            · exact this.1 l hl
      · have : d2 ∈ around.filter (·.name = x) := by rw [hl1]; simp
        rw [List.mem_filter] at this
        exact absurd (by simpa using this.2) (hx d2 this.1)

theorem declares_not_none {x : Name} {ls : List Layer} {ps : List Decl} {i : Nat} (h : Declares x ls ps i) : ¬ NoLocal x ls ps := by
  induction h with
  | here h1 h2 => intro hn; exact hn.1 _ (by simp) _ h1 h2
  | outer _ _ ih => intro hn; exact ih ⟨fun l hl => hn.1 l (by simp [hl]), hn.2⟩
  | param h1 h2 => intro hn; exact hn.2 _ h1 h2

/-- **C41** for functions whose body is a block in which no `for` leaves out its condition or iteration, for identifiers that do not start
exactly where a block ends (see `Use`), and for names that do not leak out of the header of a `for` (see `NoLeak`): an identifier that
resolves to a local is declared in the innermost scope around it that declares the name, or else is a parameter; if there is such a
declaration, a local is found; and if not, the names outside the function are consulted. Missing: the cases of the `refuted` theorems
below. -/
theorem local_names_partial {G : Type} {f : Func} {p : Nat} {ls : List Layer} {order : List (Range × Nat)} (u : Use f p ls order) (method : Bool) (g : Name → Option G)
    (x : Name) (hl : NoLeak x [] ls) :
    (∀ i, f.resolve order method g p x = some (.local_ i) → Declares x ls f.params i) ∧
    ((∃ i, Declares x ls f.params i) → ∃ i, f.resolve order method g p x = some (.local_ i)) ∧
    (NoLocal x ls f.params → f.resolve order method g p x = outside method g x) := by
  have he : EndsInBlock ls := by
    obtain ⟨r, ss, hb⟩ := u.block
    have hi := u.place
    rw [hb] at hi
    cases hi with
    | block => exact ends_snoc _ _ _
  have hfd := found_declares x f.params ls [] (.inr he) hl (by simp)
  rw [resolve_exact u method g x]
  cases h : found x f.params (blks ls) with
  | some i =>
    rw [h] at hfd
    simp only [Option.map_some, Option.some_or, Option.some.injEq, Target.local_.injEq, exists_eq']
    exact ⟨fun j e => e ▸ hfd, fun _ => trivial, fun hno => absurd hno (declares_not_none hfd)⟩
  | none =>
    rw [h] at hfd
    simp only [Option.map_none, Option.none_or]
    refine ⟨fun i hi => ?_, fun ⟨i, hi⟩ => absurd hfd (declares_not_none hi), fun _ => trivial⟩
    exfalso
    unfold outside at hi
    split at hi
    · cases hi
    · split at hi <;> cases hi

theorem found_mem (x : Name) (ps : List Decl) (i : Nat) : ∀ ls : List Layer, found x ps (blks ls) = some i →
    (∃ id ss, Layer.block id ss ∈ ls ∧ ∃ d ∈ regionAll ss, d.name = x ∧ d.id = i) ∨ ∃ d ∈ ps, d.name = x ∧ d.id = i := by
  intro ls
  induction ls with
  | nil => intro h; exact .inr (lastOf_mem h)
  | cons l ls ih =>
    intro h
    cases l with
    | loop init =>
      rw [blks_loop] at h
      rcases ih h with ⟨id, ss, h1, h2⟩ | h
      · exact .inl ⟨id, ss, by simp [h1], h2⟩
      · exact .inr h
    | block id ss =>
      have hb : blks (Layer.block id ss :: ls) = (id, ss) :: blks ls := rfl
      rw [hb, found] at h
      cases hlast : lastOf x (regionAll ss) with
      | some j =>
        rw [hlast, Option.some_or, Option.some.injEq] at h
        subst h
        exact .inl ⟨id, ss, by simp, lastOf_mem hlast⟩
      | none =>
        rw [hlast, Option.none_or] at h
        rcases ih h with ⟨id, ss, h1, h2⟩ | h
        · exact .inl ⟨id, ss, by simp [h1], h2⟩
        · exact .inr h

/-- **C41, what holds for every name**: a local that is found is declared in a block around the use, outside of inner blocks, or is a
parameter. -/
theorem never_from_other_block {G : Type} {f : Func} {p : Nat} {ls : List Layer} {order : List (Range × Nat)} (u : Use f p ls order) (method : Bool) (g : Name → Option G)
    (x : Name) (i : Nat) (h : f.resolve order method g p x = some (.local_ i)) :
    (∃ r ss, Layer.block r ss ∈ ls ∧ ∃ d ∈ regionAll ss, d.name = x ∧ d.id = i) ∨ ∃ d ∈ f.params, d.name = x ∧ d.id = i := by
  rw [resolve_exact u method g x] at h
  refine found_mem x f.params i ls ?_
  cases hfd : found x f.params (blks ls) with
  | some j =>
    rw [hfd] at h
    simpa using h
  | none =>
    rw [hfd] at h
    simp only [Option.map_none, Option.none_or, outside] at h
    split at h
    · cases h
    · split at h <;> cases h

/-- `void f(int a) {int x; {int x; use;} for (int i; c; s) {use;}}`; the positions count from the first brace. -/
def sample : Func := ⟨[⟨['a'], 1, ⟨0, 0⟩⟩], .block ⟨0, 47⟩ [.decl ⟨1, 7⟩ [⟨['x'], 3, ⟨5, 6⟩⟩],
  .block ⟨8, 21⟩ [.decl ⟨9, 15⟩ [⟨['x'], 5, ⟨13, 14⟩⟩], .simple ⟨16, 20⟩ (some ⟨16, 19⟩)],
  .for_ ⟨22, 46⟩ [.decl ⟨27, 32⟩ [⟨['i'], 6, ⟨31, 32⟩⟩]] true (.block ⟨40, 46⟩ [.simple ⟨41, 45⟩ (some ⟨41, 44⟩)])]⟩

/-- In the loop of the sample (offset 41) `i` is the loop variable, `x` the outer variable and `a` the parameter; in the block (offset 16) `x` is
the inner one. -/
example : (∃ ls, Use sample 41 ls sample.scopes.byExpr ∧ NoLeak ['i'] [] ls ∧ NoLeak ['x'] [] ls ∧ NoLeak ['a'] [] ls ∧
      Declares ['i'] ls sample.params 6 ∧ Declares ['x'] ls sample.params 3 ∧ Declares ['a'] ls sample.params 1) ∧
    (∃ ls, Use sample 16 ls sample.scopes.byExpr ∧ NoLeak ['x'] [] ls ∧ Declares ['x'] ls sample.params 5) := by
  have hfull : Full sample.body := by simp [sample, Full, FullAll]
  have hlaid : Laid sample.body := by simp [sample, Laid, LaidAll, Inside, Within, Stmt.range]
  refine ⟨⟨_, ⟨⟨_, _, rfl⟩, hfull, hlaid, .block (List.mem_of_getElem? (i := 2) rfl) (.forBody (.block (List.mem_of_getElem? (i := 0) rfl) (.simple (by decide)))), ?_, .refl _⟩, ?_, ?_, ?_, ?_, ?_, ?_⟩,
    ⟨_, ⟨⟨_, _, rfl⟩, hfull, hlaid, .block (List.mem_of_getElem? (i := 1) rfl) (.block (List.mem_of_getElem? (i := 1) rfl) (.simple (by decide))), ?_, .refl _⟩, ?_, ?_⟩⟩
  · simp [NoTouch, sample, blockRanges, blockRangesAll]
  · simp [NoLeak, regionAll, region, direct]
  · simp [NoLeak, regionAll, region, direct]
  · simp [NoLeak, regionAll, region, direct]
  · exact .outer (by simp [Layer.decls, direct]) (.here (d := ⟨['i'], 6, ⟨31, 32⟩⟩) (by simp [Layer.decls, direct]) rfl)
  · exact .outer (by simp [Layer.decls, direct]) (.outer (by simp [Layer.decls, direct]) (.here (d := ⟨['x'], 3, ⟨5, 6⟩⟩) (by simp [Layer.decls, direct]) rfl))
  · exact .outer (by simp [Layer.decls, direct]) (.outer (by simp [Layer.decls, direct]) (.outer (by simp [Layer.decls, direct]) (.param (d := ⟨['a'], 1, ⟨0, 0⟩⟩) (by simp [sample]) rfl)))
  · simp [NoTouch, sample, blockRanges, blockRangesAll]
  · simp [NoLeak, regionAll, region, direct]
  · exact .here (d := ⟨['x'], 5, ⟨13, 14⟩⟩) (by simp [Layer.decls, direct]) rfl

/-- **C41 is violated** by loop variables: after `{for (int i; c; s) {} use;}` an `i` that means the parameter resolves to the variable of
the loop. -/
theorem loop_variable_refuted : ∃ (f : Func) (p : Nat) (ls : List Layer) (x : Name), Use f p ls f.scopes.byExpr ∧
    f.resolve (G := Unit) f.scopes.byExpr false (fun _ => none) p x = some (.local_ 3) ∧ Declares x ls f.params 1 ∧ ¬ Declares x ls f.params 3 := by
  refine ⟨⟨[⟨['i'], 1, ⟨0, 0⟩⟩], .block ⟨0, 27⟩ [.for_ ⟨1, 21⟩ [.decl ⟨6, 11⟩ [⟨['i'], 3, ⟨10, 11⟩⟩]] true (.block ⟨19, 21⟩ []), .simple ⟨22, 26⟩ (some ⟨22, 25⟩)]⟩, 22, _, ['i'],
    ⟨⟨_, _, rfl⟩, by simp [Full, FullAll], by simp [Laid, LaidAll, Inside, Within, Stmt.range], .block (List.mem_of_getElem? (i := 1) rfl) (.simple (by decide)),
      by simp [NoTouch, blockRanges, blockRangesAll], .refl _⟩, by decide, .outer (by simp [Layer.decls, direct]) (.param (d := ⟨['i'], 1, ⟨0, 0⟩⟩) (by simp) rfl), ?_⟩
  intro h
  generalize hi : (3 : Nat) = i at h
  cases h with
  | here h1 h2 => simp [Layer.decls, direct] at h1
  | outer _ h =>
    cases h with
    | param h1 h2 => simp at h1; subst h1; simp at hi

/-- **C41 is violated** by two loops one after the other, `{for (int i; c; s) {use;} for (int i; c; s) {}}`: `i` in the first resolves to
the variable of the second. -/
theorem second_loop_refuted : ∃ (f : Func) (p : Nat) (ls : List Layer) (x : Name), Use f p ls f.scopes.byExpr ∧
    f.resolve (G := Unit) f.scopes.byExpr false (fun _ => none) p x = some (.local_ 5) ∧ Declares x ls f.params 2 ∧ ∀ l ∈ ls, ∀ d ∈ l.decls, d.id ≠ 5 := by
  refine ⟨⟨[], .block ⟨0, 47⟩ [.for_ ⟨1, 25⟩ [.decl ⟨6, 11⟩ [⟨['i'], 2, ⟨10, 11⟩⟩]] true (.block ⟨19, 25⟩ [.simple ⟨20, 24⟩ (some ⟨20, 23⟩)]),
    .for_ ⟨26, 46⟩ [.decl ⟨31, 36⟩ [⟨['i'], 5, ⟨35, 36⟩⟩]] true (.block ⟨44, 46⟩ [])]⟩, 20, _, ['i'],
    ⟨⟨_, _, rfl⟩, by simp [Full, FullAll], by simp [Laid, LaidAll, Inside, Within, Stmt.range],
      .block (List.mem_of_getElem? (i := 0) rfl) (.forBody (.block (List.mem_of_getElem? (i := 0) rfl) (.simple (by decide)))),
      by simp [NoTouch, blockRanges, blockRangesAll], .refl _⟩,
    by decide, .outer (by simp [Layer.decls, direct]) (.here (d := ⟨['i'], 2, ⟨10, 11⟩⟩) (by simp [Layer.decls, direct]) rfl), ?_⟩
  simp [Layer.decls, direct]

/-- **C41 is violated** in `{for (;;) {int x; use;}}`: the loop is dropped and the variables of its body are not found. -/
theorem open_loop_refuted : ∃ (f : Func) (p : Nat) (ls : List Layer) (x : Name), Laid f.body ∧ NoTouch p f.body ∧ In p f.body ls ∧ NoLeak x [] ls ∧
    f.resolve (G := Unit) f.scopes.byExpr false (fun _ => none) p x = none ∧ Declares x ls f.params 3 :=
  ⟨⟨[], .block ⟨0, 24⟩ [.for_ ⟨1, 23⟩ [] false (.block ⟨10, 23⟩ [.decl ⟨11, 17⟩ [⟨['x'], 3, ⟨15, 16⟩⟩], .simple ⟨18, 22⟩ (some ⟨18, 21⟩)])]⟩, 18, _, ['x'],
    by simp [Laid, LaidAll, Inside, Within, Stmt.range], by simp [NoTouch, blockRanges, blockRangesAll],
    .block (List.mem_of_getElem? (i := 0) rfl) (.forBody (.block (List.mem_of_getElem? (i := 1) rfl) (.simple (by decide)))), by simp [NoLeak, regionAll, region, direct], by decide,
    .here (d := ⟨['x'], 3, ⟨15, 16⟩⟩) (by simp [Layer.decls, direct]) rfl⟩

/-- **C41 is violated** in `{int b; {int b;}b = 1234567;}`, where no space separates the block from the next statement: the second `b`, which
means the outer variable, starts where the block ends, and the block is the shortest node there. -/
theorem adjacent_block_refuted : ∃ (f : Func) (p : Nat) (ls : List Layer) (x : Name), Full f.body ∧ Laid f.body ∧ In p f.body ls ∧ NoLeak x [] ls ∧
    f.resolve (G := Unit) f.scopes.byExpr false (fun _ => none) p x = some (.local_ 2) ∧ Declares x ls f.params 1 ∧ ∀ l ∈ ls, ∀ d ∈ l.decls, d.id ≠ 2 :=
  ⟨⟨[], .block ⟨0, 29⟩ [.decl ⟨1, 7⟩ [⟨['b'], 1, ⟨5, 6⟩⟩], .block ⟨8, 16⟩ [.decl ⟨9, 15⟩ [⟨['b'], 2, ⟨13, 14⟩⟩]], .simple ⟨16, 28⟩ (some ⟨16, 27⟩)]⟩, 16, _, ['b'],
    by simp [Full, FullAll], by simp [Laid, LaidAll, Inside, Within, Stmt.range], .block (List.mem_of_getElem? (i := 2) rfl) (.simple (by decide)),
    by simp [NoLeak, regionAll, region, direct], by decide, .here (d := ⟨['b'], 1, ⟨5, 6⟩⟩) (by simp [Layer.decls, direct]) rfl, by simp [Layer.decls, direct]⟩

end Verif.Props.Scope
