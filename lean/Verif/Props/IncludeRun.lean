import Verif.Include.Preprocess
/-! # C17 (cyclic includes), and what the two preprocessing passes see -/

namespace Verif.Props.IncludeRun
open Verif.Include Verif.Include.Spec
variable {K V : Type}

abbrev keys {β : Type} (l : List (Nat × β)) : List Nat := l.map (·.1)

theorem find_cons_self {β : Type} (k : Nat) (v : β) (l : List (Nat × β)) : find ((k, v) :: l) k = some v := by simp [find]

theorem find_none {β : Type} {l : List (Nat × β)} {k : Nat} : find l k = none ↔ k ∉ keys l := by
  simp only [find, Option.map_eq_none_iff, List.find?_eq_none, decide_eq_true_eq, keys, List.mem_map, not_exists, not_and]

theorem find_append {β : Type} {l r : List (Nat × β)} {k : Nat} :
    find (l ++ r) k = if k ∈ keys l then find l k else find r k := by
  by_cases h : k ∈ keys l
  · simp only [h, if_true, find, List.find?_append]
    cases hf : l.find? (fun e => decide (e.1 = k)) with
    | none => exact absurd h (find_none.1 (by simp [find, hf]))
    | some x => simp
  · simp only [h, if_false, find, List.find?_append]
    have := find_none.2 h
    simp only [find, Option.map_eq_none_iff] at this
    simp [this]

/-- What a query returns. -/
structure QOk (f : Nat) (m : Macros K V) (being : List Nat) (res : List (Nat × Params K V)) : Prop where
  entry : ∃ p, find res f = some p ∧ p.inp = m ∧ keys p.outs = keys res ∧
    (∀ x, x ∈ p.being ↔ x ∈ being ∨ x ∈ keys res)
  nodup : (keys res).Nodup
  fresh : ∀ x ∈ keys res, x ∉ being

/-- The state inside a query started with `f ∉ being`. -/
structure StOk (f : Nat) (being : List Nat) (st : St K V) : Prop where
  outs  : keys st.outs = keys st.results
  bg    : ∀ x, x ∈ st.being ↔ x = f ∨ x ∈ being ∨ x ∈ keys st.results
  nodup : (keys st.results).Nodup
  fresh : ∀ x ∈ keys st.results, x ≠ f ∧ x ∉ being

theorem go_ok {query : Nat → Macros K V → List Nat → Option (List (Nat × Params K V))} {f : Nat} {being : List Nat}
    (hq : ∀ g m b res, g ∉ b → query g m b = some res → QOk g m b res) :
    ∀ (r : Run K V) (st : St K V) (out : Macros K V) (st' : St K V), StOk f being st → go query r st = some (out, st') → StOk f being st' := by
  intro r
  induction r with
  | done m => intro st out st' h hg; simp only [go, Option.some.injEq, Prod.mk.injEq] at hg; rw [← hg.2]; exact h
  | incl m t k ih =>
    intro st out st' h hg
    cases t with
    | none => simp only [go] at hg; exact ih _ _ _ _ h hg
    | some g =>
      simp only [go] at hg
      by_cases hb : g ∈ st.being
      · simp only [hb, if_true] at hg; exact ih _ _ _ _ h hg
      · simp only [hb, if_false] at hg
        cases hqr : query g m st.being with
        | none => simp [hqr] at hg
        | some res =>
          have ok := hq g m st.being res hb hqr
          obtain ⟨p, hp, _, hk, hpb⟩ := ok.entry
          simp only [hqr, hp] at hg
          refine ih _ _ _ _ ?_ hg
          refine ⟨?_, ?_, ?_, ?_⟩
          · simp only [keys, List.map_append] at hk ⊢; rw [hk]; simp [h.outs]
          · intro x
            simp only [List.mem_append, hpb, h.bg, List.map_append, keys]
            constructor
            · rintro ((h | h) | h)
              · rcases h with h | h | h <;> simp [h]
              · simp [h]
              · rcases h with h | h | h <;> simp [h]
            · rintro (h | h | h | h)
              · exact Or.inr (Or.inl h)
              · exact Or.inr (Or.inr (Or.inl h))
              · exact Or.inl (Or.inr h)
              · exact Or.inr (Or.inr (Or.inr h))
          · simp only [List.map_append]
            rw [List.nodup_append]
            refine ⟨ok.nodup, h.nodup, ?_⟩
            intro a ha b hb' hab
            subst hab
            exact ok.fresh a ha ((h.bg a).2 (Or.inr (Or.inr hb')))
          · intro x hx
            simp only [List.map_append, List.mem_append] at hx
            rcases hx with hx | hx
            · have := ok.fresh x hx
              rw [h.bg] at this
              simp only [not_or] at this
              exact ⟨this.1, this.2.1⟩
            · exact h.fresh x hx

theorem query_ok (files : Nat → Macros K V → Run K V) : ∀ (fuel f : Nat) (m : Macros K V) (being : List Nat) (res : List (Nat × Params K V)),
    f ∉ being → paramsQuery files fuel f m being = some res → QOk f m being res := by
  intro fuel
  induction fuel with
  | zero => intro f m being res _ h; simp [paramsQuery] at h
  | succ fuel ih =>
    intro f m being res hf h
    simp only [paramsQuery] at h
    cases hg : go (paramsQuery files fuel) (files f m) ⟨[], f :: being, []⟩ with
    | none => simp [hg] at h
    | some o =>
      obtain ⟨out, st⟩ := o
      simp only [hg, Option.some.injEq] at h
      have hst := go_ok (f := f) (being := being) ih (files f m) ⟨[], f :: being, []⟩ out st
        ⟨rfl, by simp, by simp, by simp⟩ hg
      subst h
      refine ⟨⟨_, find_cons_self _ _ _, rfl, ?_, ?_⟩, ?_, ?_⟩
      · simp [keys, hst.outs]
      · intro x
        simp only [hst.bg, keys, List.map_cons, List.mem_cons]
        constructor
        · rintro (h | h | h) <;> simp [h]
        · rintro (h | h | h) <;> simp [h]
      · simp only [keys, List.map_cons, List.nodup_cons]
        exact ⟨fun h => (hst.fresh f h).1 rfl, hst.nodup⟩
      · intro x hx
        simp only [keys, List.map_cons, List.mem_cons] at hx
        rcases hx with rfl | hx
        · exact hf
        · exact (hst.fresh x hx).2

/-- Number of files not yet being preprocessed. -/
def remaining (u being : List Nat) : Nat := u.countP (fun x => decide (x ∉ being))

theorem remaining_mono (u v w : List Nat) (h : ∀ x ∈ v, x ∈ w) : remaining u w ≤ remaining u v := by
  apply List.countP_mono_left
  intro x _ hx
  simp only [decide_eq_true_eq] at hx ⊢
  exact fun hv => hx (h x hv)

theorem remaining_cons (u v : List Nat) (n : Nat) (hu : n ∈ u) (hv : n ∉ v) : remaining u (n :: v) < remaining u v := by
  induction u with
  | nil => simp at hu
  | cons a as ih =>
    have hmono : remaining as (n :: v) ≤ remaining as v := remaining_mono _ _ _ (fun x hx => List.mem_cons_of_mem _ hx)
    by_cases ha : a = n
    · subst ha
      have h1 : remaining (a :: as) (a :: v) = remaining as (a :: v) := by
        simp only [remaining]; rw [List.countP_cons_of_neg]; simp
      have h2 : remaining (a :: as) v = remaining as v + 1 := by
        simp only [remaining]; rw [List.countP_cons_of_pos]; simpa using hv
      omega
    · have ih := ih (by rcases List.mem_cons.1 hu with h | h; exact absurd h.symm ha; exact h)
      simp only [remaining, List.countP_cons] at ih ⊢
      have : decide (a ∉ n :: v) = decide (a ∉ v) := by simp [ha]
      rw [this]; omega

theorem query_terminates (files : Nat → Macros K V → Run K V) (u : List Nat) (hu : ∀ f m, f ∈ u → Within u (files f m)) :
    ∀ (fuel f : Nat) (m : Macros K V) (being : List Nat), f ∈ u → f ∉ being → remaining u being ≤ fuel →
      ∃ res, paramsQuery files fuel f m being = some res := by
  intro fuel
  induction fuel with
  | zero =>
    intro f m being hf hb hle
    have := remaining_cons u being f hf hb
    omega
  | succ fuel ih =>
    intro f m being hf hb hle
    have hlt := remaining_cons u being f hf hb
    have key : ∀ (r : Run K V) (st : St K V), Within u r → remaining u st.being ≤ fuel → ∃ o, go (paramsQuery files fuel) r st = some o := by
      intro r
      induction r with
      | done m => intro st _ _; exact ⟨_, rfl⟩
      | incl m t k ihr =>
        intro st hw hle
        cases t with
        | none => simp only [go]; exact ihr m st (hw.2 m) hle
        | some g =>
          simp only [go]
          by_cases hgb : g ∈ st.being
          · simp only [hgb, if_true]; exact ihr m st (hw.2 m) hle
          · simp only [hgb, if_false]
            obtain ⟨res, hres⟩ := ih g m st.being (hw.1 g rfl) hgb hle
            obtain ⟨p, hp, _, _, hpb⟩ := (query_ok files fuel g m st.being res hgb hres).entry
            simp only [hres, hp]
            refine ihr _ _ (hw.2 _) (Nat.le_trans (remaining_mono _ _ _ ?_) hle)
            intro x hx
            simp only [List.mem_append]
            exact Or.inr hx
    obtain ⟨o, ho⟩ := key (files f m) ⟨[], f :: being, []⟩ (hu f m hf) (by simp only; omega)
    simp only [paramsQuery, ho]
    exact ⟨_, rfl⟩

/-- **C17**. Whatever the include relation among finitely many files (cycles included), preprocessing a file ends after
recursing at most as deep as there are files, without panicking, and no file is preprocessed twice. The list returned has one
entry per invocation. -/
theorem cyclic_includes_terminate (files : Nat → Macros K V → Run K V) (u : List Nat) (hu : ∀ f m, f ∈ u → Within u (files f m))
    (root : Nat) (hr : root ∈ u) (m : Macros K V) :
    ∃ res, paramsQuery files u.length root m [] = some res ∧ (res.map (·.1)).Nodup ∧ root ∈ res.map (·.1) := by
  obtain ⟨res, h⟩ := query_terminates files u hu u.length root m [] hr (by simp) List.countP_le_length
  have ok := query_ok files _ _ _ _ _ (by simp) h
  refine ⟨res, h, ok.nodup, ?_⟩
  obtain ⟨p, hp, _⟩ := ok.entry
  refine Classical.byContradiction fun hc => ?_
  rw [find_none.2 hc] at hp
  simp at hp

/-- Two files that include each other (and an unresolved include). -/
def twoFiles : Nat → Macros Nat Nat → Run Nat Nat := fun f m => .incl m (some (1 - f)) (fun m => .incl m none (fun m => .done m))
example : (paramsQuery twoFiles 2 0 (fun _ => none) []).map (fun r => r.map (·.1)) = some [0, 1] := by decide
example : ∀ f m, f ∈ [0, 1] → Within [0, 1] (twoFiles f m) := by
  intro f m hf
  simp only [twoFiles, Within, reduceCtorEq, false_implies, implies_true, and_true]
  intro g hg
  simp only [Option.some.injEq] at hg
  subst hg
  simp only [List.mem_cons, List.not_mem_nil, or_false] at hf ⊢
  omega

/-! ### The two passes -/

/-- Outputs of a state stay the outputs of later states. -/
theorem go_outs {query : Nat → Macros K V → List Nat → Option (List (Nat × Params K V))} {f : Nat} {being : List Nat}
    (hq : ∀ g m b res, g ∉ b → query g m b = some res → QOk g m b res) :
    ∀ (r : Run K V) (st : St K V) (out : Macros K V) (st' : St K V), StOk f being st → go query r st = some (out, st') →
      (∀ g ∈ st.being, find st'.outs g = find st.outs g) ∧ (∀ g, g ∈ st.being → g ∈ st'.being) := by
  intro r
  induction r with
  | done m => intro st out st' h hg; simp only [go, Option.some.injEq, Prod.mk.injEq] at hg; rw [← hg.2]; simp
  | incl m t k ih =>
    intro st out st' h hg
    cases t with
    | none => simp only [go] at hg; exact ih _ _ _ _ h hg
    | some g =>
      simp only [go] at hg
      by_cases hb : g ∈ st.being
      · simp only [hb, if_true] at hg; exact ih _ _ _ _ h hg
      · simp only [hb, if_false] at hg
        cases hqr : query g m st.being with
        | none => simp [hqr] at hg
        | some res =>
          have ok := hq g m st.being res hb hqr
          obtain ⟨p, hp, _, hk, hpb⟩ := ok.entry
          have hstep : go query (.incl m (some g) (fun m => .done m)) st = some (m.extend ((find p.outs g).getD (fun _ => none)),
              { results := res ++ st.results, being := p.being ++ st.being, outs := p.outs ++ st.outs }) := by
            simp only [go, hb, if_false, hqr, hp]
          have hst' := go_ok hq _ _ _ _ h hstep
          simp only [hqr, hp] at hg
          obtain ⟨h1, h2⟩ := ih _ _ _ _ hst' hg
          refine ⟨?_, fun x hx => h2 x (List.mem_append.2 (Or.inr hx))⟩
          intro x hx
          rw [h1 x (List.mem_append.2 (Or.inr hx))]
          simp only [find_append]
          rw [hk]
          have : x ∉ keys res := fun hxr => ok.fresh x hxr hx
          simp only [this, if_false]

/-- The pass that produces the text computes the same macros as the pass that analysed the includes. -/
theorem goData_eq {query : Nat → Macros K V → List Nat → Option (List (Nat × Params K V))} {f : Nat} {being : List Nat}
    (hq : ∀ g m b res, g ∉ b → query g m b = some res → QOk g m b res) (final : List (Nat × Macros K V)) :
    ∀ (r : Run K V) (st : St K V) (out : Macros K V) (st' : St K V), StOk f being st → go query r st = some (out, st') →
      NoRepeat query f r st → (∀ g, g ≠ f → find final g = find st'.outs g) → goData final r = out := by
  intro r
  induction r with
  | done m => intro st out st' _ hg _ _; simp only [go, Option.some.injEq, Prod.mk.injEq] at hg; exact hg.1
  | incl m t k ih =>
    intro st out st' h hg hn hfin
    cases t with
    | none => simp only [go] at hg; simp only [goData]; exact ih _ _ _ _ h hg hn hfin
    | some g =>
      simp only [go] at hg
      simp only [NoRepeat] at hn
      by_cases hb : g ∈ st.being
      · simp only [hb, if_true] at hg hn
        have hgo := (go_outs hq _ _ _ _ h hg).1 g hb
        have hnone : find final g = none := by rw [hfin g hn.1, hgo, find_none]; exact hn.2.1
        have hext : m.extend ((find final g).getD (fun _ => none)) = m := by
          funext x; simp [hnone, Macros.extend]
        simp only [goData, hext]
        exact ih _ _ _ _ h hg hn.2.2 hfin
      · simp only [hb, if_false] at hg hn
        cases hqr : query g m st.being with
        | none => simp [hqr] at hg
        | some res =>
          have ok := hq g m st.being res hb hqr
          obtain ⟨p, hp, _, hk, hpb⟩ := ok.entry
          have hstep : go query (.incl m (some g) (fun m => .done m)) st = some (m.extend ((find p.outs g).getD (fun _ => none)),
              { results := res ++ st.results, being := p.being ++ st.being, outs := p.outs ++ st.outs }) := by
            simp only [go, hb, if_false, hqr, hp]
          have hst' := go_ok hq _ _ _ _ h hstep
          simp only [hqr, hp] at hg
          have hgres : g ∈ keys res := by
            refine Classical.byContradiction fun hc => ?_
            rw [find_none.2 hc] at hp; simp at hp
          have hgb : g ∈ p.being ++ st.being := List.mem_append.2 (Or.inl ((hpb g).2 (Or.inr hgres)))
          have h1 := (go_outs hq _ _ _ _ hst' hg).1 g hgb
          have hgf : g ≠ f := by
            rintro rfl
            exact hb ((h.bg g).2 (Or.inl rfl))
          have hfg : find final g = find p.outs g := by
            rw [hfin g hgf, h1]
            simp only [find_append]
            rw [hk]; simp only [hgres, if_true]
          simp only [goData, hfg]
          exact ih _ _ _ _ hst' hg (hn res p hqr hp) hfin

/-- **C53, partial**. The macros at the end of the pass that produces a file's text are those the includers of the file were
given, provided the file does not include itself or include again a file that an earlier include of it already brought in. -/
theorem passes_agree_partial (files : Nat → Macros K V → Run K V) (fuel f : Nat) (m : Macros K V) (being : List Nat)
    (res : List (Nat × Params K V)) (h : paramsQuery files (fuel + 1) f m being = some res)
    (hn : NoRepeat (paramsQuery files fuel) f (files f m) ⟨[], f :: being, []⟩) :
    ∃ p, find res f = some p ∧ find p.outs f = some (dataQuery files f p) := by
  simp only [paramsQuery] at h
  cases hg : go (paramsQuery files fuel) (files f m) ⟨[], f :: being, []⟩ with
  | none => simp [hg] at h
  | some o =>
    obtain ⟨out, st⟩ := o
    simp only [hg, Option.some.injEq] at h
    subst h
    refine ⟨_, find_cons_self _ _ _, ?_⟩
    simp only [find_cons_self, dataQuery, Option.some.injEq]
    refine (goData_eq (f := f) (being := being) (query_ok files fuel) _ (files f m) _ out st ⟨rfl, by simp, by simp, by simp⟩ hg hn ?_).symm
    intro g hgf
    have : ((f, out) :: st.outs) = [(f, out)] ++ st.outs := rfl
    rw [this, find_append]
    have : g ∉ keys [(f, out)] := by simpa using hgf
    simp only [this, if_false]

def set (m : Macros Nat Nat) (k v : Nat) : Macros Nat Nat := fun x => if x = k then some v else m x
def unset (m : Macros Nat Nat) (k : Nat) : Macros Nat Nat := fun x => if x = k then none else m x

/-- File 0: `#include <1>`, `#define K 2`, `#include <1>`; file 1: `#define K 1`. -/
def againFiles : Nat → Macros Nat Nat → Run Nat Nat := fun f m =>
  if f = 0 then .incl m (some 1) (fun m => .incl (set m 0 2) (some 1) (fun m => .done m)) else .done (set m 0 1)

/-- **C53, refuted**. A file includes another, redefines a macro, and includes the other again: the second include is skipped
in the analysis pass (the macro is 2 for those who include the file) but restores the macro in the text pass (it is 1 there). -/
theorem passes_agree_refuted :
    ((paramsQuery againFiles 2 0 (fun _ => none) []).bind (fun res => (find res 0).map (fun p =>
      (((find p.outs 0).getD (fun _ => none)) 0, (dataQuery againFiles 0 p) 0)))) = some (some 2, some 1) := by decide

/-- The hypothesis of `passes_agree_partial` holds of files that include each other. -/
example : NoRepeat (paramsQuery twoFiles 2) 0 (twoFiles 0 (fun _ => none)) ⟨[], [0], []⟩ := by
  simp [twoFiles, NoRepeat]

/-! ### Textual inclusion -/

theorem extend_eq (m o : Macros K V) (h : ∀ k, (m k).isSome → (o k).isSome) : m.extend o = o := by
  funext k
  simp only [Macros.extend]
  cases ho : o k with
  | some v => rfl
  | none =>
    simp only
    cases hm : m k with
    | none => rfl
    | some v => have := h k (by simp [hm]); simp [ho] at this

theorem go_inline {query : Nat → Macros K V → List Nat → Option (List (Nat × Params K V))}
    {iq : Nat → Macros K V → List Nat → Option (Macros K V × List Nat)} {f : Nat} {being : List Nat}
    (hq : ∀ g m b res, g ∉ b → query g m b = some res → QOk g m b res)
    (hi : ∀ g m b b', (∀ x, x ∈ b ↔ x ∈ b') → g ∉ b → ∀ res p, query g m b = some res → find res g = some p →
      ∃ out s', iq g m b' = some (out, s') ∧ find p.outs g = some out ∧ (∀ x, x ∈ s' ↔ x ∈ p.being) ∧ ∀ k, (m k).isSome → (out k).isSome) :
    ∀ (r : Run K V) (base : Macros K V) (st : St K V) (out : Macros K V) (st' : St K V) (seen : List Nat), StOk f being st →
      (∀ x, x ∈ st.being ↔ x ∈ seen) → NoUndef base r → go query r st = some (out, st') →
      ∃ s', inlineRun iq r seen = some (out, s') ∧ (∀ x, x ∈ s' ↔ x ∈ st'.being) ∧ ∀ k, (base k).isSome → (out k).isSome := by
  intro r
  induction r with
  | done m =>
    intro base st out st' seen _ hs hn hg
    simp only [go, Option.some.injEq, Prod.mk.injEq] at hg
    obtain ⟨rfl, rfl⟩ := hg
    exact ⟨seen, rfl, fun x => (hs x).symm, hn⟩
  | incl m t k ih =>
    intro base st out st' seen h hs hn hg
    obtain ⟨hn1, hn2⟩ := hn
    have hchain : ∀ m' : Macros K V, (∀ x, (m x).isSome → (m' x).isSome) → ∀ o : Macros K V, (∀ x, (m' x).isSome → (o x).isSome) →
        ∀ x, (base x).isSome → (o x).isSome := fun m' h1 o h2 x hx => h2 x (h1 x (hn1 x hx))
    cases t with
    | none =>
      simp only [go] at hg
      obtain ⟨s', a, b, c⟩ := ih m m st out st' seen h hs (hn2 m (fun _ h => h)) hg
      exact ⟨s', a, b, hchain m (fun _ h => h) out c⟩
    | some g =>
      simp only [go] at hg
      by_cases hb : g ∈ st.being
      · simp only [hb, if_true] at hg
        obtain ⟨s', a, b, c⟩ := ih m m st out st' seen h hs (hn2 m (fun _ h => h)) hg
        refine ⟨s', ?_, b, hchain m (fun _ h => h) out c⟩
        simp only [inlineRun, (hs g).1 hb, if_true]; exact a
      · simp only [hb, if_false] at hg
        cases hqr : query g m st.being with
        | none => simp [hqr] at hg
        | some res =>
          have ok := hq g m st.being res hb hqr
          obtain ⟨p, hp, _, hk, hpb⟩ := ok.entry
          have hstep : go query (.incl m (some g) (fun m => .done m)) st = some (m.extend ((find p.outs g).getD (fun _ => none)),
              { results := res ++ st.results, being := p.being ++ st.being, outs := p.outs ++ st.outs }) := by
            simp only [go, hb, if_false, hqr, hp]
          have hst' := go_ok hq _ _ _ _ h hstep
          simp only [hqr, hp] at hg
          obtain ⟨o1, s1, e1, e2, e3, e4⟩ := hi g m st.being seen hs hb res p hqr hp
          have hext : m.extend ((find p.outs g).getD (fun _ => none)) = o1 := by
            rw [e2]; exact extend_eq m o1 e4
          rw [hext] at hg
          obtain ⟨s', a, b, c⟩ := ih o1 o1 _ out st' s1 hst' (by
            intro x
            simp only [List.mem_append, e3]
            constructor
            · rintro (h | h)
              · exact h
              · exact (hpb x).2 (Or.inl h)
            · exact Or.inl) (hn2 o1 e4) hg
          refine ⟨s', ?_, b, hchain o1 e4 out c⟩
          have : g ∉ seen := fun h => hb ((hs g).2 h)
          simp only [inlineRun, this, if_false, e1]
          exact a

theorem query_inline (files : Nat → Macros K V → Run K V) (hn : ∀ f m, NoUndef m (files f m)) :
    ∀ (fuel f : Nat) (m : Macros K V) (b b' : List Nat), (∀ x, x ∈ b ↔ x ∈ b') → f ∉ b →
      ∀ res p, paramsQuery files fuel f m b = some res → find res f = some p →
      ∃ out s', inlineFile files fuel f m b' = some (out, s') ∧ find p.outs f = some out ∧ (∀ x, x ∈ s' ↔ x ∈ p.being) ∧
        ∀ k, (m k).isSome → (out k).isSome := by
  intro fuel
  induction fuel with
  | zero => intro f m b b' _ _ res p h; simp [paramsQuery] at h
  | succ fuel ih =>
    intro f m b b' hbb hf res p h hp
    simp only [paramsQuery] at h
    cases hg : go (paramsQuery files fuel) (files f m) ⟨[], f :: b, []⟩ with
    | none => simp [hg] at h
    | some o =>
      obtain ⟨out, st⟩ := o
      simp only [hg, Option.some.injEq] at h
      subst h
      rw [find_cons_self] at hp
      simp only [Option.some.injEq] at hp
      subst hp
      obtain ⟨s', a, b2, c⟩ := go_inline (f := f) (being := b) (query_ok files fuel) (fun g m b b' h1 h2 res p h3 h4 => ih g m b b' h1 h2 res p h3 h4)
        (files f m) m ⟨[], f :: b, []⟩ out st (f :: b') ⟨rfl, by simp, by simp, by simp⟩ (by simp [hbb]) (hn f m) hg
      exact ⟨out, s', a, find_cons_self _ _ _, b2, c⟩

/-- **C54, partial**. If no file removes macros, the macros a file ends with are those of textual inclusion. Missing: files
that `#undef` (next theorem). -/
theorem textual_inclusion_partial (files : Nat → Macros K V → Run K V) (hn : ∀ f m, NoUndef m (files f m)) (u : List Nat)
    (hu : ∀ f m, f ∈ u → Within u (files f m)) (root : Nat) (hr : root ∈ u) (m : Macros K V) :
    ∃ res p out seen, paramsQuery files u.length root m [] = some res ∧ find res root = some p ∧
      inlineFile files u.length root m [] = some (out, seen) ∧ find p.outs root = some out := by
  obtain ⟨res, h⟩ := query_terminates files u hu u.length root m [] hr (by simp) List.countP_le_length
  obtain ⟨p, hp, _⟩ := (query_ok files _ _ _ _ _ (by simp) h).entry
  obtain ⟨out, s', h1, h2, _⟩ := query_inline files hn u.length root m [] [] (by simp) (by simp) res p h hp
  exact ⟨res, p, out, s', h, hp, h1, h2⟩

/-- File 0: `#define K 1`, `#include <1>`; file 1: `#undef K`. -/
def undefFiles : Nat → Macros Nat Nat → Run Nat Nat := fun f m =>
  if f = 0 then .incl (set m 0 1) (some 1) (fun m => .done m) else .done (unset m 0)

/-- **C54, refuted**. A macro that an included file removes is still defined in the including file. -/
theorem textual_inclusion_refuted :
    ((paramsQuery undefFiles 2 0 (fun _ => none) []).bind (fun res => (find res 0).map (fun p => ((find p.outs 0).getD (fun _ => none)) 0))) = some (some 1) ∧
    (inlineFile undefFiles 2 0 (fun _ => none) []).map (fun o => o.1 0) = some none := by decide

example : ∀ f m, NoUndef m (twoFiles f m) := by
  intro f m
  simp only [twoFiles, NoUndef]
  exact ⟨fun _ h => h, fun m' _ => ⟨fun _ h => h, fun m'' h => fun _ h => h⟩⟩

end Verif.Props.IncludeRun
