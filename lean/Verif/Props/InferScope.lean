import Verif.Hir.InferScope
import Verif.Props.Scope
/-!
# C89: the analysis and the navigation agree on what a name stands for
-/

namespace Verif.Props.InferScope
open Verif.Hir.Scope Verif.Hir.Scope.Spec Verif.Props.Scope

/-! ## Statements that are no blocks -/

/-- The statements a statement is made of. -/
def parts : Stmt → List Stmt
  | .for_ _ init _ body => init ++ [body]
  | .while_ _ body => [body]
  | .if_ _ t none => [t]
  | .if_ _ t (some e) => [t, e]
  | .switch _ cs => cs
  | _ => []

def Compound : Stmt → Prop
  | .for_ _ _ _ _ | .while_ _ _ | .if_ _ _ _ | .switch _ _ => True
  | _ => False

theorem lowerAll_append (a b : List Stmt) : lowerAll (a ++ b) = lowerAll a ++ lowerAll b := by
  induction a with
  | nil => rfl
  | cons x a ih => simp [lowerAll, ih]

theorem computeAll_append (k : Nat) (a b : List Expr) : ∀ s, computeAll k s (a ++ b) = computeAll k (computeAll k s a) b := by
  induction a with
  | nil => intro s; rfl
  | cons x a ih => intro s; simp [computeAll, ih]

theorem regionAll_append (a b : List Stmt) : regionAll (a ++ b) = regionAll a ++ regionAll b := by
  induction a with
  | nil => rfl
  | cons x a ih => simp [regionAll, ih]

theorem blockRangesAll_append (a b : List Stmt) : blockRangesAll (a ++ b) = blockRangesAll a ++ blockRangesAll b := by
  induction a with
  | nil => rfl
  | cons x a ih => simp [blockRangesAll, ih]

theorem fullAll_append {a b : List Stmt} (ha : FullAll a) (hb : FullAll b) : FullAll (a ++ b) := by
  induction a with
  | nil => exact hb
  | cons x a ih => simp only [List.cons_append, FullAll] at ha ⊢; exact ⟨ha.1, ih ha.2⟩

theorem laidAll_append {a b : List Stmt} (ha : LaidAll a) (hb : LaidAll b) : LaidAll (a ++ b) := by
  induction a with
  | nil => exact hb
  | cons x a ih => simp only [List.cons_append, LaidAll] at ha ⊢; exact ⟨ha.1, ih ha.2⟩

theorem inferAtAll_append (s : Scopes) (p : Nat) (res : List RScope) (a b : List Stmt) :
    inferAtAll s p res (a ++ b) = (inferAtAll s p res a).or (inferAtAll s p res b) := by
  induction a with
  | nil => simp [inferAtAll]
  | cons x a ih => simp [inferAtAll, ih, Option.or_assoc]

/-- Everything about a compound statement in terms of its parts. -/
theorem compound {st : Stmt} (hc : Compound st) (hf : Full st) (hl : Laid st) :
    (∀ k s, compute k s (lower st) = computeAll k (s.record st.range k) (lowerAll (parts st))) ∧ region st = regionAll (parts st) ∧
    blockRanges st = blockRangesAll (parts st) ∧ FullAll (parts st) ∧ LaidAll (parts st) ∧ Inside st.range (parts st) ∧
    ∀ s p res, inferAt s p res st = (inferAtAll s p res (parts st)).or (own p st.range res) := by
  match st, hc with
  | .for_ r init full body, _ =>
    simp only [Full, Laid] at hf hl
    obtain ⟨rfl, h2, h3⟩ := hf
    refine ⟨fun k s => ?_, ?_, ?_, ?_, ?_, hl.1, fun s p res => ?_⟩
    · simp [lower, compute, parts, lowerAll_append, computeAll_append, lowerAll, computeAll, Stmt.range]
    · simp [region, parts, regionAll_append, regionAll]
    · simp [blockRanges, parts, blockRangesAll_append, blockRangesAll]
    · exact fullAll_append h2 ⟨h3, trivial⟩
    · exact laidAll_append hl.2.1 ⟨hl.2.2, trivial⟩
    · simp [inferAt, parts, inferAtAll_append, inferAtAll, Stmt.range]
  | .while_ r body, _ =>
    simp only [Full, Laid] at hf hl
    exact ⟨fun k s => by simp [lower, compute, parts, lowerAll, computeAll, Stmt.range], by simp [region, parts, regionAll],
      by simp [blockRanges, parts, blockRangesAll], ⟨hf, trivial⟩, ⟨hl.2, trivial⟩, hl.1, fun s p res => by simp [inferAt, parts, inferAtAll, Stmt.range]⟩
  | .if_ r t none, _ =>
    simp only [Full, Laid] at hf hl
    exact ⟨fun k s => by simp [lower, compute, parts, lowerAll, computeAll, Stmt.range], by simp [region, parts, regionAll],
      by simp [blockRanges, parts, blockRangesAll], ⟨hf, trivial⟩, ⟨hl.2, trivial⟩, hl.1, fun s p res => by simp [inferAt, parts, inferAtAll, Stmt.range]⟩
  | .if_ r t (some e), _ =>
    simp only [Full, Laid] at hf hl
    exact ⟨fun k s => by simp [lower, compute, parts, lowerAll, computeAll, Stmt.range], by simp [region, parts, regionAll],
      by simp [blockRanges, parts, blockRangesAll], ⟨hf.1, hf.2, trivial⟩, ⟨hl.2.1, hl.2.2, trivial⟩, hl.1, fun s p res => by simp [inferAt, parts, inferAtAll, Stmt.range]⟩
  | .switch r cs, _ =>
    simp only [Full, Laid] at hf hl
    exact ⟨fun k s => by simp [lower, compute, parts, Stmt.range], by simp [region, parts],
      by simp [blockRanges, parts], hf, hl.2, hl.1, fun s p res => by simp [inferAt, parts, Stmt.range]⟩

/-! ## The scopes of the blocks -/

/-- From scope `j` up to scope `k` there are the scopes of the blocks `bs`, with all their declarations, and each is the one recorded for
its block. -/
def Good (n : Nat) (s : Scopes) (es : List (Range × Nat)) (k : Nat) : Nat → List (Range × List Stmt) → Prop
  | j, [] => j = k
  | j, (r, ss) :: bs => ∃ p, n ≤ j ∧ s.scopes[j]? = some ⟨some p, ((regionAll ss).map pair).reverse⟩ ∧ p < j ∧ (r, j) ∈ es ∧
      (∀ e ∈ es, e.1 = r → e.2 = j) ∧ Good n s es k p bs

theorem good_chain {n k : Nat} {s : Scopes} {es : List (Range × Nat)} : ∀ (bs : List (Range × List Stmt)) (j : Nat), Good n s es k j bs → ChainTo n s k j bs
  | [], _, h => h
  | (_, _) :: bs, _, ⟨p, h1, h2, h3, _, _, h6⟩ => ⟨p, h1, h2, h3, good_chain bs p h6⟩

theorem good_mono {n m k : Nat} (hnm : m ≤ n) {s : Scopes} {es : List (Range × Nat)} : ∀ (bs : List (Range × List Stmt)) (j : Nat), Good n s es k j bs → Good m s es k j bs
  | [], _, h => h
  | (_, _) :: bs, _, ⟨p, h1, h2, h3, h4, h5, h6⟩ => ⟨p, by omega, h2, h3, h4, h5, good_mono hnm bs p h6⟩

theorem good_stable {n k : Nat} {s s' : Scopes} {es : List (Range × Nat)} (hs : ∀ j, n ≤ j → j < s.scopes.length → s'.scopes[j]? = s.scopes[j]?) :
    ∀ (bs : List (Range × List Stmt)) (j : Nat), Good n s es k j bs → Good n s' es k j bs
  | [], _, h => h
  | (_, _) :: bs, j, ⟨p, h1, h2, h3, h4, h5, h6⟩ => by
    have : j < s.scopes.length := (List.getElem?_eq_some_iff.1 h2).1
    exact ⟨p, h1, by rw [hs j h1 this, h2], h3, h4, h5, good_stable hs bs p h6⟩

/-- More entries for other nodes do no harm. -/
theorem good_more {n k : Nat} {s : Scopes} {es es' : List (Range × Nat)} (hsub : ∀ e ∈ es, e ∈ es') :
    ∀ (bs : List (Range × List Stmt)) (j : Nat), (∀ e ∈ es', e ∉ es → ∀ b ∈ bs, e.1 ≠ b.1) → Good n s es k j bs → Good n s es' k j bs
  | [], _, _, h => h
  | (r, ss) :: bs, j, hn, ⟨p, h1, h2, h3, h4, h5, h6⟩ => by
    refine ⟨p, h1, h2, h3, hsub _ h4, fun e he hr => ?_, good_more hsub bs p (fun e he hne b hb => hn e he hne b (by simp [hb])) h6⟩
    by_cases hes : e ∈ es
    · exact h5 e hes hr
    · exact absurd hr (hn e he hes (r, ss) (by simp))

theorem good_snoc {n m k : Nat} {s : Scopes} {es : List (Range × Nat)} {r : Range} {ss : List Stmt} (hm : s.scopes[m]? = some ⟨some k, ((regionAll ss).map pair).reverse⟩)
    (hk : k < m) (hn : n ≤ m) (h1 : (r, m) ∈ es) (h2 : ∀ e ∈ es, e.1 = r → e.2 = m) :
    ∀ (bs : List (Range × List Stmt)) (j : Nat), Good n s es m j bs → Good n s es k j (bs ++ [(r, ss)])
  | [], _, h => by
    have h : _ = m := h
    subst h
    exact ⟨k, hn, hm, hk, h1, h2, rfl⟩
  | (_, _) :: bs, _, ⟨p, g1, g2, g3, g4, g5, g6⟩ => ⟨p, g1, g2, g3, g4, g5, good_snoc hm hk hn h1 h2 bs p g6⟩

/-- The scopes of the resolver after entering blocks, the outermost last in the list. -/
def enterAll (s : Scopes) (res : List RScope) : List (Range × List Stmt) → List RScope
  | [] => res
  | b :: bs => s.enter b.1 (enterAll s res bs)

theorem enterAll_snoc (s : Scopes) (res : List RScope) (b : Range × List Stmt) : ∀ bs, enterAll s res (bs ++ [b]) = enterAll s (s.enter b.1 res) bs
  | [] => rfl
  | c :: bs => by simp [enterAll, enterAll_snoc s res b bs]

/-- What is to be shown for a statement. -/
def Walk (p : Nat) (st : Stmt) (ls : List Layer) : Prop :=
  Full st → Laid st → Has st.range p ∧ (∀ b ∈ blks ls, Within b.1 st.range ∧ Has b.1 p) ∧
  (∀ s res, inferAt s p res st = some (enterAll s res (blks ls))) ∧
  ∀ (k : Nat) (s : Scopes), k < s.scopes.length → ∃ es, Effect k (region st) es s (compute k s (lower st)) ∧ Entries k st.range (blockRanges st) es ∧
    ∃ j, Good s.scopes.length (compute k s (lower st)) es k j (blks ls)

mutual
/-- Only what contains the place is inferred. -/
theorem infer_has {s : Scopes} {p : Nat} : ∀ (st : Stmt) (res : List RScope), Laid st → ¬ Has st.range p → inferAt s p res st = none
  | .simple r _, res, _, h => by
    have h : ¬ (r.start ≤ p ∧ p < r.stop) := h
    simp [inferAt, own, h]
  | .decl r _, res, _, h => by
    have h : ¬ (r.start ≤ p ∧ p < r.stop) := h
    simp [inferAt, own, h]
  | .block r ss, res, hl, h => by
    simp only [inferAt, Laid] at hl ⊢
    exact infer_hasAll ss _ hl.2 fun t ht hp => h (sub_has hl.1 ht hp)
  | .for_ r init full body, res, hl, h => by
    simp only [inferAt, Laid] at hl ⊢
    have h' : ¬ (r.start ≤ p ∧ p < r.stop) := h
    rw [infer_hasAll init _ hl.2.1 fun t ht hp => h (sub_has hl.1 (by simp [ht]) hp), infer_has body _ hl.2.2 fun hp => h (sub_has hl.1 (by simp) hp)]
    simp [own, h']
  | .while_ r body, res, hl, h => by
    simp only [inferAt, Laid] at hl ⊢
    have h' : ¬ (r.start ≤ p ∧ p < r.stop) := h
    rw [infer_has body _ hl.2 fun hp => h (sub_has hl.1 (by simp) hp)]
    simp [own, h']
  | .if_ r t none, res, hl, h => by
    simp only [inferAt, Laid] at hl ⊢
    have h' : ¬ (r.start ≤ p ∧ p < r.stop) := h
    rw [infer_has t _ hl.2 fun hp => h (sub_has hl.1 (by simp) hp)]
    simp [own, h']
  | .if_ r t (some e), res, hl, h => by
    simp only [inferAt, Laid] at hl ⊢
    have h' : ¬ (r.start ≤ p ∧ p < r.stop) := h
    rw [infer_has t _ hl.2.1 fun hp => h (sub_has hl.1 (by simp) hp), infer_has e _ hl.2.2 fun hp => h (sub_has hl.1 (by simp) hp)]
    simp [own, h']
  | .switch r cs, res, hl, h => by
    simp only [inferAt, Laid] at hl ⊢
    have h' : ¬ (r.start ≤ p ∧ p < r.stop) := h
    rw [infer_hasAll cs _ hl.2 fun t ht hp => h (sub_has hl.1 ht hp)]
    simp [own, h']

theorem infer_hasAll {s : Scopes} {p : Nat} : ∀ (ss : List Stmt) (res : List RScope), LaidAll ss → (∀ t ∈ ss, ¬ Has t.range p) → inferAtAll s p res ss = none
  | [], _, _, _ => rfl
  | t :: ss, res, hl, h => by
    simp only [LaidAll] at hl
    rw [inferAtAll, infer_has t res hl.1 (h t (by simp)), infer_hasAll ss res hl.2 fun u hu => h u (by simp [hu])]
    rfl
end

/-- A list of statements one of which is the place. -/
theorem walk_all {p : Nat} {st : Stmt} {ls : List Layer} (hw : Walk p st ls) : ∀ (ss : List Stmt), st ∈ ss → FullAll ss → LaidAll ss →
    ss.Pairwise (fun a b => a.range.stop ≤ b.range.start) →
    (∀ s res, inferAtAll s p res ss = some (enterAll s res (blks ls))) ∧
    ∀ (k : Nat) (s : Scopes), k < s.scopes.length → ∃ es, Effect k (regionAll ss) es s (computeAll k s (lowerAll ss)) ∧ EntriesAll k ss (blockRangesAll ss) es ∧
      ∃ j, Good s.scopes.length (computeAll k s (lowerAll ss)) es k j (blks ls)
  | [], h, _, _, _ => by simp at h
  | t :: ss, h, hf, hl, ho => by
    simp only [FullAll, LaidAll] at hf hl
    rw [List.pairwise_cons] at ho
    rcases List.mem_cons.1 h with h' | h'
    · subst h'
      obtain ⟨p1, p2, p3, p4⟩ := hw hf.1 hl.1
      refine ⟨fun s res => by simp [inferAtAll, p3], fun k s hk => ?_⟩
      obtain ⟨e1, h1, w1, j, g⟩ := p4 k s hk
      obtain ⟨e2, h2, w2⟩ := computeAll_effect ss k _ hf.2 hl.2 (Nat.lt_of_lt_of_le hk h1.le)
      simp only [lowerAll, computeAll, regionAll, blockRangesAll]
      refine ⟨_, effect_trans h1 h2, entriesAll_append (entriesAll_single w1) w2, j, ?_⟩
      refine good_more (fun e he => by simp [he]) _ _ ?_ (good_stable (fun j hj hl => h2.old j hl (by omega)) _ _ g)
      intro e he hne b hb heq
      rcases List.mem_append.1 he with he | he
      · obtain ⟨⟨u, hu, hwu⟩, -⟩ := w2 e he
        have := ho.1 u hu
        have hb' := p2 b hb
        rw [heq] at hwu
        have := hwu.1; have := hb'.1.2; have := hb'.2.1; have := hb'.2.2
        omega
      · exact hne he
    · have hlt := laid_mem hl.2 st h'
      obtain ⟨p1, p2, -, -⟩ := hw (full_mem hf.2 st h') hlt
      obtain ⟨q3, q4⟩ := walk_all hw ss h' hf.2 hl.2 ho.2
      have hts := ho.1 st h'
      refine ⟨fun s res => ?_, fun k s hk => ?_⟩
      · have hnot : ¬ Has t.range p := by
          intro hp
          have := hp.2; have := p1.1
          omega
        rw [inferAtAll, infer_has t res hl.1 hnot, q3]
        rfl
      · obtain ⟨e1, h1, w1⟩ := compute_effect t k s hf.1 hl.1 hk
        obtain ⟨e2, h2, w2, j, g⟩ := q4 k _ (Nat.lt_of_lt_of_le hk h1.le)
        simp only [lowerAll, computeAll, regionAll, blockRangesAll]
        refine ⟨_, effect_trans h1 h2, entriesAll_append (entriesAll_single w1) w2, j, ?_⟩
        refine good_more (fun e he => by simp [he]) _ _ ?_ (good_mono h1.le _ _ g)
        intro e he hne b hb heq
        rcases List.mem_append.1 he with he | he
        · exact hne he
        · have hwu := (w1 e he).1
          have hb' := p2 b hb
          rw [heq] at hwu
          have := hwu.2; have := hb'.1.1; have := hb'.2.1; have := hb'.2.2
          omega

/-- A part of a compound statement is the place. -/
theorem walk_part {p : Nat} {st part : Stmt} {ls ls' : List Layer} (hc : Compound st) (hm : part ∈ parts st) (hw : Walk p part ls) (hls : blks ls' = blks ls) :
    Walk p st ls' := by
  intro hf hl
  obtain ⟨c1, c2, c3, c4, c5, c6, c7⟩ := compound hc hf hl
  obtain ⟨p1, p2, p3, p4⟩ := hw (full_mem c4 _ hm) (laid_mem c5 _ hm)
  obtain ⟨q3, q4⟩ := walk_all hw (parts st) hm c4 c5 c6.2
  have hpos := c6.1 part hm
  refine ⟨sub_has c6 hm p1, fun b hb => ?_, fun s res => by rw [c7, q3, hls]; rfl, fun k s hk => ?_⟩
  · rw [hls] at hb
    obtain ⟨h1, h2⟩ := p2 b hb
    exact ⟨⟨Nat.le_trans (Nat.le_of_lt hpos.1) h1.1, Nat.le_trans h1.2 hpos.2⟩, h2⟩
  · obtain ⟨es, h1, w1, j, g⟩ := q4 k (s.record st.range k) hk
    rw [c1, c2, c3, hls]
    refine ⟨_, effect_rec h1, entries_own (entriesAll_inside w1 c6), j, ?_⟩
    refine good_more (fun e he => by simp [he]) _ _ ?_ g
    intro e he hne b hb heq
    rcases List.mem_append.1 he with he | he
    · exact hne he
    · simp only [List.mem_singleton] at he
      subst he
      have := (p2 b hb).1.1
      have heq : st.range = b.1 := heq
      rw [← heq] at this
      omega

/-- The place is in a compound statement, outside of its parts. -/
theorem walk_head {p : Nat} {st : Stmt} {ls : List Layer} (hc : Compound st) (hp : Has st.range p) (hn : ∀ t ∈ parts st, ¬ Has t.range p) (hls : blks ls = []) :
    Walk p st ls := by
  intro hf hl
  obtain ⟨c1, c2, c3, c4, c5, c6, c7⟩ := compound hc hf hl
  refine ⟨hp, by simp [hls], fun s res => ?_, fun k s hk => ?_⟩
  · have hp' : st.range.start ≤ p ∧ p < st.range.stop := hp
    rw [c7, infer_hasAll _ _ c5 hn, hls, own, if_pos hp']
    rfl
  · obtain ⟨es, h1, w1⟩ := compute_effect st k s hf hl hk
    exact ⟨es, h1, w1, k, by rw [hls]; rfl⟩

theorem walk_leaf {p : Nat} {st : Stmt} (hp : Has st.range p) (hi : ∀ s res, inferAt s p res st = some res) : Walk p st [] := by
  intro hf hl
  refine ⟨hp, by simp [blks], fun s res => by rw [hi]; rfl, fun k s hk => ?_⟩
  obtain ⟨es, h1, w1⟩ := compute_effect st k s hf hl hk
  exact ⟨es, h1, w1, k, rfl⟩

theorem walk_of {p : Nat} {st : Stmt} {ls : List Layer} (h : In p st ls) : Walk p st ls := by
  induction h with
  | @simple r node hp =>
    have hp' : r.start ≤ p ∧ p < r.stop := hp
    exact walk_leaf hp fun s res => by simp [inferAt, own, hp']
  | @decl r ds hp =>
    have hp' : r.start ≤ p ∧ p < r.stop := hp
    exact walk_leaf hp fun s res => by simp [inferAt, own, hp']
  | @block r ss st ls hm _ ih =>
    intro hf hl
    simp only [Full, Laid] at hf hl
    obtain ⟨p1, p2, p3, p4⟩ := ih (full_mem hf _ hm) (laid_mem hl.2 _ hm)
    obtain ⟨q3, q4⟩ := walk_all ih ss hm hf hl.2 hl.1.2
    have hpos := hl.1.1 st hm
    have hr : Has r p := sub_has hl.1 hm p1
    refine ⟨hr, fun b hb => ?_, fun s res => ?_, fun k s hk => ?_⟩
    · rw [blks_snoc_block] at hb
      rcases List.mem_append.1 hb with hb | hb
      · obtain ⟨h1, h2⟩ := p2 b hb
        exact ⟨⟨Nat.le_trans (Nat.le_of_lt hpos.1) h1.1, Nat.le_trans h1.2 hpos.2⟩, h2⟩
      · rw [List.mem_singleton] at hb
        subst hb
        exact ⟨within_refl r, hr⟩
    · rw [blks_snoc_block, enterAll_snoc, inferAt, q3]
    · have hlen : (s.newBlock r k).scopes.length = s.scopes.length + 1 := by simp [Scopes.newBlock]
      obtain ⟨es, h1, w1⟩ := compute_effect (.block r ss) k s hf hl hk
      refine ⟨es, h1, w1, ?_⟩
      obtain ⟨es', h2, w2, j, g⟩ := q4 s.scopes.length (s.newBlock r k) (by rw [hlen]; omega)
      have hes : es = es' ++ [(r, s.scopes.length)] := by
        have e1 := h1.recorded
        have e2 := h2.recorded
        simp only [lower, compute] at e1
        rw [e2] at e1
        simp only [Scopes.newBlock] at e1
        have : (es' ++ [(r, s.scopes.length)]) ++ s.byExpr = es ++ s.byExpr := by simpa using e1
        exact (List.append_cancel_right this).symm
      refine ⟨j, ?_⟩
      rw [blks_snoc_block, hes]
      simp only [lower, compute]
      have hother : ∀ e ∈ es', e.1 ≠ r := by
        intro e he heq
        obtain ⟨⟨u, hu, hwu⟩, -⟩ := w2 e he
        have := (hl.1.1 u hu).1
        have := hwu.1
        rw [heq] at this
        omega
      refine good_snoc (m := s.scopes.length) ?_ hk (Nat.le_refl _) (by simp) ?_ _ _ ?_
      · rw [h2.cur]
        simp [Scopes.newBlock, addEntries]
      · intro e he heq
        rcases List.mem_append.1 he with he | he
        · exact absurd heq (hother e he)
        · simp only [List.mem_singleton] at he
          rw [he]
      · refine good_more (fun e he => by simp [he]) _ _ ?_ (good_mono (by omega) _ _ g)
        intro e he hne b hb heq
        rcases List.mem_append.1 he with he | he
        · exact hne he
        · simp only [List.mem_singleton] at he
          subst he
          have := (p2 b hb).1.1
          have heq : r = b.1 := heq
          rw [← heq] at this
          omega
  | @forHead r init full body hp hi hb =>
    refine walk_head (st := .for_ r init full body) trivial hp (fun t ht => ?_) rfl
    simp only [parts, List.mem_append, List.mem_singleton] at ht
    rcases ht with ht | rfl
    · exact hi t ht
    · exact hb
  | @forInit r init full body s ls hm _ ih => exact walk_part (st := .for_ r init full body) trivial (by simp [parts, hm]) ih (blks_snoc_loop _ _)
  | @forBody r init full body ls _ ih => exact walk_part (st := .for_ r init full body) trivial (by simp [parts]) ih (blks_snoc_loop _ _)
  | @whileHead r body hp hb => exact walk_head (st := .while_ r body) trivial hp (by simpa [parts] using hb) rfl
  | @whileBody r body ls _ ih => exact walk_part (st := .while_ r body) trivial (by simp [parts]) ih rfl
  | @ifHead r t e hp ht he =>
    cases e with
    | none => exact walk_head (st := .if_ r t none) trivial hp (by simpa [parts] using ht) rfl
    | some e => exact walk_head (st := .if_ r t (some e)) trivial hp (by simpa [parts] using ⟨ht, he e rfl⟩) rfl
  | @ifThen r t e ls _ ih =>
    cases e with
    | none => exact walk_part (st := .if_ r t none) trivial (by simp [parts]) ih rfl
    | some e => exact walk_part (st := .if_ r t (some e)) trivial (by simp [parts]) ih rfl
  | @ifElse r t e ls _ ih => exact walk_part (st := .if_ r t (some e)) trivial (by simp [parts]) ih rfl
  | @switchHead r cs hp hc => exact walk_head (st := .switch r cs) trivial hp hc rfl
  | @switchCase r cs s ls hm _ ih => exact walk_part (st := .switch r cs) trivial hm ih rfl

/-! ## The resolver -/

theorem lookup_of {es : List (Range × Nat)} {r : Range} {j : Nat} (h1 : (r, j) ∈ es) (h2 : ∀ e ∈ es, e.1 = r → e.2 = j) : es.lookup r = some j := by
  induction es with
  | nil => simp at h1
  | cons e es ih =>
    obtain ⟨a, b⟩ := e
    rw [List.lookup_cons]
    by_cases ha : r = a
    · subst ha
      have : b = j := h2 (r, b) (by simp) rfl
      simp [this]
    · have : (r == a) = false := by simp [ha]
      rw [this]
      refine ih ?_ fun e he => h2 e (by simp [he])
      rcases List.mem_cons.1 h1 with h | h
      · exact absurd (congrArg Prod.fst h) ha
      · exact h

/-- Numbers of scopes of blocks that enclose each other, as expressions of a resolver. -/
def exprs (js : List Nat) : List RScope := js.map .expr

theorem chain_fuel {n : Nat} {s : Scopes} {ps : List Decl} (h0 : s.scopes[0]? = some ⟨none, (ps.map pair).reverse⟩) :
    ∀ (bs : List (Range × List Stmt)) (j a b : Nat), ChainTo n s 0 j bs → j < a → j < b → s.chain a j = s.chain b j
  | [], j, a, b, h, ha, hb => by
    obtain rfl : j = 0 := h
    cases a with
    | zero => omega
    | succ a =>
      cases b with
      | zero => omega
      | succ b => simp [Scopes.chain, h0]
  | (_, _) :: bs, j, a, b, ⟨p, _, h2, h3, h4⟩, ha, hb => by
    cases a with
    | zero => omega
    | succ a =>
      cases b with
      | zero => omega
      | succ b =>
        simp only [Scopes.chain, h2]
        rw [chain_fuel h0 bs p a b h4 (by omega) (by omega)]

/-- After entering the blocks, the resolver has their scopes and that of the parameters in front. -/
theorem entered {n : Nat} {s : Scopes} {ps : List Decl} (h0 : s.scopes[0]? = some ⟨none, (ps.map pair).reverse⟩) {base : List RScope} (hb : ∀ k r, base ≠ .expr k :: r) :
    ∀ (bs : List (Range × List Stmt)) (j : Nat), bs ≠ [] → Good n s s.byExpr 0 j bs → enterAll s base bs = exprs (s.chain s.scopes.length j) ++ base
  | [], _, h, _ => absurd rfl h
  | [(r, ss)], j, _, ⟨p, h1, h2, h3, h4, h5, h6⟩ => by
    have hsf : s.scopeFor r = some j := lookup_of h4 h5
    simp only [enterAll]
    unfold Scopes.enter
    split
    · next k rest => exact absurd rfl (hb k rest)
    · rw [hsf]; rfl
  | (r, ss) :: (r', ss') :: bs, j, _, ⟨p, h1, h2, h3, h4, h5, h6⟩ => by
    have ih := entered h0 hb ((r', ss') :: bs) p (by simp) h6
    have hsf : s.scopeFor r = some j := lookup_of h4 h5
    have hct := good_chain _ _ h6
    rw [enterAll, ih]
    obtain ⟨q, g1, g2, g3, _⟩ := h6
    have hj : j < s.scopes.length := (List.getElem?_eq_some_iff.1 h2).1
    obtain ⟨m, hm⟩ : ∃ m, s.scopes.length = m + 1 := ⟨s.scopes.length - 1, by omega⟩
    have hcj : s.chain s.scopes.length j = j :: s.chain s.scopes.length p := by
      rw [chain_fuel h0 _ p s.scopes.length m hct (by omega) (by omega), hm]
      simp only [Scopes.chain, h2]
    obtain ⟨rest, hcp⟩ : ∃ rest, s.chain s.scopes.length p = p :: rest := by
      rw [hm]; simp only [Scopes.chain, g2]; exact ⟨_, rfl⟩
    have hne : j ≠ p := by omega
    rw [hcj, hcp]
    simp only [exprs, List.map_cons, List.cons_append, Scopes.enter, hsf, Scopes.chainFrom, hcj, hcp]
    simp [List.takeWhile, hne]

theorem resolve_exprs {n : Nat} {s : Scopes} {ps : List Decl} (h0 : s.scopes[0]? = some ⟨none, (ps.map pair).reverse⟩) (hn : 0 < n) {G : Type} (g : Name → Option G) (x : Name)
    (base : List RScope) : ∀ (bs : List (Range × List Stmt)) (j fuel : Nat), ChainTo n s 0 j bs → j < fuel → fuel ≤ s.scopes.length →
      s.resolveIdent g x (exprs (s.chain fuel j) ++ base) = ((found x ps bs).map Target.local_).or (s.resolveIdent g x base)
  | [], j, fuel, h, hj, hl => by
    have hr := chain_eq h0 hn x [] j s.scopes.length h (by omega)
    obtain rfl : j = 0 := h
    cases fuel with
    | zero => omega
    | succ fuel =>
      have hres : s.resolve 0 x = found x ps [] := hr
      simp only [Scopes.chain, h0, exprs, List.map_cons, List.map_nil, List.cons_append, List.nil_append, Scopes.resolveIdent, hres]
      cases found x ps [] <;> rfl
  | b :: bs, j, fuel, h, hj, hl => by
    have hr := chain_eq h0 hn x (b :: bs) j s.scopes.length h (by omega)
    have hres : s.resolve j x = found x ps (b :: bs) := hr
    obtain ⟨r, ss⟩ := b
    obtain ⟨p, h1, h2, h3, h4⟩ := h
    cases fuel with
    | zero => omega
    | succ fuel =>
      have ih := resolve_exprs h0 hn g x base bs p fuel h4 (by omega) (by omega)
      simp only [exprs] at ih
      simp only [Scopes.chain, h2, exprs, List.map_cons, List.cons_append, Scopes.resolveIdent, hres]
      cases hf : found x ps ((r, ss) :: bs) with
      | some i => rfl
      | none =>
        have : found x ps bs = none := by
          simp only [found, Option.or_eq_none_iff] at hf
          exact hf.2
        rw [this] at ih
        exact ih

/-! ## The claims -/

/-- What an identifier without a local declaration stands for in the analysis. -/
def analysed {G : Type} (method : Bool) (g : Name → Option G) (x : Name) : Option (Target G) :=
  if method = true ∧ x = "this".toList then some .this else (g x).map .global

/-- **What the analysis takes an identifier for**, wherever it is, also where a block ends right at it: the last declaration of the name in
the innermost block around it that holds one outside of inner blocks, then the last parameter of that name, then the names outside of the
function. -/
theorem inferred_exact {G : Type} {f : Func} {p : Nat} {ls : List Layer} (hb : ∃ r ss, f.body = .block r ss) (hf : Full f.body) (hla : Laid f.body) (hi : In p f.body ls)
    (method : Bool) (g : Name → Option G) (x : Name) :
    f.inferred method g p x = some (((found x f.params (blks ls)).map Target.local_).or (analysed method g x)) := by
  obtain ⟨r, ss, hb⟩ := hb
  have h0 := scopes_root f r ss hb hf hla
  obtain ⟨-, -, h3, h4⟩ := walk_of hi hf hla
  obtain ⟨es, he, -, j, hg⟩ := h4 0 f.root (root_pos f)
  have hes : f.scopes.byExpr = es := by
    have := he.recorded
    rw [(root_effect f).recorded] at this
    simpa [Func.scopes] using this
  have hne : blks ls ≠ [] := by
    rw [hb] at hi
    cases hi with
    | @block _ _ s ls' _ _ =>
      rw [blks_append]
      cases hx : blks ls' <;> simp [blks, blk]
  rw [← hes] at hg
  have hg : Good f.root.scopes.length f.scopes f.scopes.byExpr 0 j (blks ls) := hg
  have hj : j < f.scopes.scopes.length := by
    cases hx : blks ls with
    | nil => exact absurd hx hne
    | cons b bs =>
      rw [hx] at hg
      obtain ⟨_, _, h2, _⟩ := hg
      exact (List.getElem?_eq_some_iff.1 h2).1
  unfold Func.inferred
  rw [h3, entered h0 (base := baseScopes method) ?_ _ j hne hg]
  · rw [Option.map_some, resolve_exprs h0 (root_pos f) g x _ _ j _ (good_chain _ _ hg) hj (Nat.le_refl _)]
    congr 2
    unfold analysed baseScopes
    cases method with
    | false => simp only [Bool.false_eq_true, if_false, false_and, List.nil_append, Scopes.resolveIdent]; cases g x <;> rfl
    | true =>
      by_cases hx : x = "this".toList
      · simp [Scopes.resolveIdent, hx]
      · simp only [if_true, List.cons_append, List.nil_append, Scopes.resolveIdent, hx, if_false, and_false]; cases g x <;> rfl
  · intro k r h
    unfold baseScopes at h
    cases method <;> simp at h

/-- **The analysis and the navigation agree** on every identifier of a body that is not `this`, as long as no block ends right at it. -/
theorem agree_partial {G : Type} {f : Func} {p : Nat} {ls : List Layer} {order : List (Range × Nat)} (u : Use f p ls order) (method : Bool) (g : Name → Option G) (x : Name)
    (hx : x ≠ "this".toList) : f.inferred method g p x = some (f.resolve order method g p x) := by
  rw [inferred_exact u.block u.full u.laid u.place, resolve_exact u]
  congr 2
  unfold analysed outside
  have hx' : ¬ (method = true ∧ x = "this".toList) := fun h => hx h.2
  rw [if_neg hx']
  cases g x with
  | some v => rfl
  | none => rw [if_neg hx']; rfl

/-- **The analysis follows the rule of the language** for names that do not leak out of the header of a `for`, also where a block ends right
at the identifier: a local it finds is declared in the innermost scope around the use that declares the name, or else is a parameter; if
there is one, it finds one; if there is none, it consults the names outside of the function. -/
theorem rule_partial {G : Type} {f : Func} {p : Nat} {ls : List Layer} (hb : ∃ r ss, f.body = .block r ss) (hf : Full f.body) (hla : Laid f.body) (hi : In p f.body ls)
    (method : Bool) (g : Name → Option G) (x : Name) (hl : NoLeak x [] ls) :
    (∀ i, f.inferred method g p x = some (some (.local_ i)) → Declares x ls f.params i) ∧
    ((∃ i, Declares x ls f.params i) → ∃ i, f.inferred method g p x = some (some (.local_ i))) ∧
    (NoLocal x ls f.params → f.inferred method g p x = some (analysed method g x)) := by
  have he : EndsInBlock ls := by
    obtain ⟨r, ss, hb⟩ := hb
    rw [hb] at hi
    cases hi with
    | block => exact ends_snoc _ _ _
  have hfd := found_declares x f.params ls [] (.inr he) hl (by simp)
  rw [inferred_exact hb hf hla hi]
  cases h : found x f.params (blks ls) with
  | some i =>
    rw [h] at hfd
    simp only [Option.map_some, Option.some_or, Option.some.injEq, Target.local_.injEq, exists_eq']
    exact ⟨fun j e => e ▸ hfd, fun _ => trivial, fun hno => absurd hno (declares_not_none hfd)⟩
  | none =>
    rw [h] at hfd
    simp only [Option.map_none, Option.none_or]
    refine ⟨fun i hi => ?_, fun ⟨i, hi⟩ => absurd hfd (declares_not_none hi), fun _ => trivial⟩
    exfalso
    unfold analysed at hi
    split at hi
    · cases hi
    · cases hgx : g x <;> rw [hgx] at hi <;> cases hi

/-- In the loop of the sample both take `i` for the loop variable, `x` for the outer variable and `y` for the global variable. -/
example : (∃ ls, Use sample 41 ls sample.scopes.byExpr) ∧
    sample.inferred (G := Nat) false (fun y => if y = ['y'] then some 9 else none) 41 ['i'] = some (some (.local_ 6)) ∧
    sample.inferred (G := Nat) false (fun y => if y = ['y'] then some 9 else none) 41 ['x'] = some (some (.local_ 3)) ∧
    sample.inferred (G := Nat) false (fun y => if y = ['y'] then some 9 else none) 41 ['y'] = some (some (.global 9)) ∧
    sample.inferred (G := Nat) true (fun y => if y = ['y'] then some 9 else none) 16 ['x'] = some (some (.local_ 5)) := by
  refine ⟨⟨_, ⟨⟨_, _, rfl⟩, by simp [sample, Full, FullAll], by simp [sample, Laid, LaidAll, Inside, Within, Stmt.range],
    .block (List.mem_of_getElem? (i := 2) rfl) (.forBody (.block (List.mem_of_getElem? (i := 0) rfl) (.simple (by decide)))),
    by simp [NoTouch, sample, blockRanges, blockRangesAll], .refl _⟩⟩, ?_, ?_, ?_, ?_⟩ <;> decide +kernel

/-- **The two disagree** in `{int b; {int b;}b = 1234567;}`: for the analysis the last `b` is the outer variable, for the navigation the inner
one. -/
theorem adjacent_refuted : ∃ (f : Func) (p : Nat) (ls : List Layer) (x : Name), Full f.body ∧ Laid f.body ∧ In p f.body ls ∧ Declares x ls f.params 1 ∧
    f.inferred (G := Unit) false (fun _ => none) p x = some (some (.local_ 1)) ∧
    f.resolve (G := Unit) f.scopes.byExpr false (fun _ => none) p x = some (.local_ 2) :=
  ⟨⟨[], .block ⟨0, 29⟩ [.decl ⟨1, 7⟩ [⟨['b'], 1, ⟨5, 6⟩⟩], .block ⟨8, 16⟩ [.decl ⟨9, 15⟩ [⟨['b'], 2, ⟨13, 14⟩⟩]], .simple ⟨16, 28⟩ (some ⟨16, 27⟩)]⟩, 16, _, ['b'],
    by simp [Full, FullAll], by simp [Laid, LaidAll, Inside, Within, Stmt.range], .block (List.mem_of_getElem? (i := 2) rfl) (.simple (by decide)),
    .here (d := ⟨['b'], 1, ⟨5, 6⟩⟩) (by simp [Layer.decls, direct]) rfl, by decide, by decide⟩

/-- **The two disagree** on `this` in a member of a file with a global variable `this`: the analysis takes it for the object, the navigation
goes to the variable. -/
theorem this_refuted {f : Func} {p : Nat} {ls : List Layer} {order : List (Range × Nat)} (u : Use f p ls order) (hn : found "this".toList f.params (blks ls) = none)
    {G : Type} (g : Name → Option G) (v : G) (hg : g "this".toList = some v) :
    f.inferred true g p "this".toList = some (some .this) ∧ f.resolve order true g p "this".toList = some (.global v) := by
  rw [inferred_exact u.block u.full u.laid u.place, resolve_exact u, hn]
  simp only [Option.map_none, Option.none_or, analysed, outside, hg]
  simp

example : ∃ ls, Use sample 41 ls sample.scopes.byExpr ∧ found "this".toList sample.params (blks ls) = none := by
  refine ⟨_, ⟨⟨_, _, rfl⟩, by simp [sample, Full, FullAll], by simp [sample, Laid, LaidAll, Inside, Within, Stmt.range],
    .block (List.mem_of_getElem? (i := 2) rfl) (.forBody (.block (List.mem_of_getElem? (i := 0) rfl) (.simple (by decide)))),
    by simp [NoTouch, sample, blockRanges, blockRangesAll], .refl _⟩, by decide +kernel⟩

/-- **What is in a `for` without a condition or an iteration is not analysed at all**, and the navigation still gives it a meaning. -/
theorem bare_for_refuted (s : Scopes) (p : Nat) (res : List RScope) (r : Range) (init : List Stmt) (body : Stmt) : inferAt s p res (.for_ r init false body) = none := rfl

example : ∃ (f : Func) (p : Nat) (ls : List Layer) (x : Name), Laid f.body ∧ In p f.body ls ∧ Declares x ls f.params 1 ∧
    f.inferred (G := Unit) false (fun _ => none) p x = none ∧ f.resolve (G := Unit) f.scopes.byExpr false (fun _ => none) p x = some (.local_ 1) :=
  ⟨⟨[⟨['a'], 1, ⟨0, 0⟩⟩], .block ⟨0, 20⟩ [.for_ ⟨1, 18⟩ [] false (.block ⟨10, 18⟩ [.simple ⟨12, 15⟩ (some ⟨12, 14⟩)])]⟩, 12, _, ['a'],
    by simp [Laid, LaidAll, Inside, Within, Stmt.range], .block (List.mem_of_getElem? (i := 0) rfl) (.forBody (.block (List.mem_of_getElem? (i := 0) rfl) (.simple (by decide)))),
    .outer (by simp [Layer.decls, direct]) (.outer (by simp [Layer.decls, direct]) (.outer (by simp [Layer.decls, direct]) (.param (d := ⟨['a'], 1, ⟨0, 0⟩⟩) (by simp) rfl))), by decide, by decide⟩

end Verif.Props.InferScope
