import Verif.Include.File
import Verif.Props.IncludeRun
import Mathlib.Tactic.Tauto
import Mathlib.Data.List.Nodup
/-!
# C110: the definitions with which a file of a project is read
-/

namespace Verif.Props.IncludeFile

open Verif.Include Verif.Include.Spec Verif.Props.IncludeRun

variable {K V : Type}

/-- The files of a result with the definitions they start with. -/
def inputs (l : List (Nat × Params K V)) : List (Nat × Macros K V) := l.map fun e => (e.1, e.2.inp)

theorem inputs_append (a b : List (Nat × Params K V)) : inputs (a ++ b) = inputs a ++ inputs b := by simp [inputs]

theorem keeping_eq (m o : Macros K V) : m.extend o = keeping m o := rfl

theorem go_visits {files : Nat → Macros K V → Run K V} {query : Nat → Macros K V → List Nat → Option (List (Nat × Params K V))} {f : Nat} {being : List Nat}
    (hq : ∀ g m b res, g ∉ b → query g m b = some res → QOk g m b res)
    (hi : ∀ g m b b', (∀ x, x ∈ b ↔ x ∈ b') → g ∉ b → ∀ res p, query g m b = some res → find res g = some p →
      ∃ out s' vs, Inlined keeping files (files g m) (g :: b') out s' vs ∧ find p.outs g = some out ∧ (∀ x, x ∈ s' ↔ x ∈ p.being) ∧
        ∀ e, e ∈ inputs res ↔ e = (g, m) ∨ e ∈ vs) :
    ∀ (r : Run K V) (st : St K V) (out : Macros K V) (st' : St K V) (seen : List Nat), StOk f being st →
      (∀ x, x ∈ st.being ↔ x ∈ seen) → go query r st = some (out, st') →
      ∃ s' vs, Inlined keeping files r seen out s' vs ∧ (∀ x, x ∈ s' ↔ x ∈ st'.being) ∧
        ∀ e, e ∈ inputs st'.results ↔ e ∈ inputs st.results ∨ e ∈ vs := by
  intro r
  induction r with
  | done m =>
    intro st out st' seen _ hs hg
    simp only [go, Option.some.injEq, Prod.mk.injEq] at hg
    obtain ⟨rfl, rfl⟩ := hg
    exact ⟨seen, [], .done, fun x => (hs x).symm, by simp⟩
  | incl m t k ih =>
    intro st out st' seen h hs hg
    cases t with
    | none =>
      simp only [go] at hg
      obtain ⟨s', vs, a, b, d⟩ := ih m st out st' seen h hs hg
      exact ⟨s', vs, .missing a, b, d⟩
    | some g =>
      simp only [go] at hg
      by_cases hb : g ∈ st.being
      · simp only [hb, if_true] at hg
        obtain ⟨s', vs, a, b, d⟩ := ih m st out st' seen h hs hg
        exact ⟨s', vs, .again ((hs g).1 hb) a, b, d⟩
      · simp only [hb, if_false] at hg
        cases hqr : query g m st.being with
        | none => simp [hqr] at hg
        | some res =>
          have ok := hq g m st.being res hb hqr
          obtain ⟨p, hp, _, hk, hpb⟩ := ok.entry
          have hstep : go query (.incl m (some g) (fun m => .done m)) st = some (m.extend ((find p.outs g).getD (fun _ => none)),
              { results := res ++ st.results, being := p.being ++ st.being, outs := p.outs ++ st.outs }) := by
            simp only [go, hb, if_false, hqr, hp]
          have hst' := go_ok hq _ _ _ _ h hstep
          simp only [hqr, hp] at hg
          obtain ⟨o1, s1, vs1, e1, e2, e3, e5⟩ := hi g m st.being seen hs hb res p hqr hp
          rw [e2, Option.getD_some, keeping_eq] at hg
          obtain ⟨s', vs, a, b, d⟩ := ih (keeping m o1) _ out st' s1 hst' (by
            intro x
            simp only [List.mem_append, e3]
            constructor
            · rintro (h | h)
              · exact h
              · exact (hpb x).2 (Or.inl h)
            · exact Or.inl) hg
          refine ⟨s', (g, m) :: (vs1 ++ vs), .first (fun h => hb ((hs g).2 h)) e1 a, b, fun e => ?_⟩
          rw [d e, inputs_append, List.mem_append, e5 e, List.mem_cons, List.mem_append]
          tauto

theorem query_visits (files : Nat → Macros K V → Run K V) :
    ∀ (fuel f : Nat) (m : Macros K V) (b b' : List Nat), (∀ x, x ∈ b ↔ x ∈ b') → f ∉ b →
      ∀ res p, paramsQuery files fuel f m b = some res → find res f = some p →
      ∃ out s' vs, Inlined keeping files (files f m) (f :: b') out s' vs ∧ find p.outs f = some out ∧ (∀ x, x ∈ s' ↔ x ∈ p.being) ∧
        ∀ e, e ∈ inputs res ↔ e = (f, m) ∨ e ∈ vs := by
  intro fuel
  induction fuel with
  | zero => intro f m b b' _ _ res p h; simp [paramsQuery] at h
  | succ fuel ih =>
    intro f m b b' hbb hf res p h hp
    simp only [paramsQuery] at h
    cases hg : go (paramsQuery files fuel) (files f m) ⟨[], f :: b, []⟩ with
    | none => simp [hg] at h
    | some o =>
      obtain ⟨out, st⟩ := o
      simp only [hg, Option.some.injEq] at h
      subst h
      rw [find_cons_self] at hp
      simp only [Option.some.injEq] at hp
      subst hp
      obtain ⟨s', vs, a, b2, d⟩ := go_visits (f := f) (being := b) (query_ok files fuel) ih
        (files f m) ⟨[], f :: b, []⟩ out st (f :: b') ⟨rfl, by simp, by simp, by simp⟩ (by simp [hbb]) hg
      refine ⟨out, s', vs, a, find_cons_self _ _ _, b2, fun e => ?_⟩
      show e ∈ (f, m) :: inputs st.results ↔ _
      rw [List.mem_cons, d e]
      simp [inputs]

/-- If no file removes a definition nothing is lost. -/
theorem textual_of_keeping {files : Nat → Macros K V → Run K V} (hn : ∀ f m, NoUndef m (files f m)) {r : Run K V} {seen seen' : List Nat} {out : Macros K V}
    {vs : List (Nat × Macros K V)} (h : Inlined keeping files r seen out seen' vs) (base : Macros K V) (hb : NoUndef base r) :
    Inlined textual files r seen out seen' vs ∧ ∀ k, (base k).isSome → (out k).isSome := by
  induction h generalizing base with
  | done => exact ⟨.done, hb⟩
  | missing _ ih =>
    obtain ⟨a, b⟩ := ih _ (hb.2 _ (fun _ h => h))
    exact ⟨.missing a, fun k hk => b k (hb.1 k hk)⟩
  | again hg _ ih =>
    obtain ⟨a, b⟩ := ih _ (hb.2 _ (fun _ h => h))
    exact ⟨.again hg a, fun k hk => b k (hb.1 k hk)⟩
  | @first m m' g k seen seen' seen'' out vs vs' hg _ _ ih1 ih2 =>
    obtain ⟨a1, b1⟩ := ih1 m (hn g m)
    have he : keeping m m' = m' := by rw [← keeping_eq]; exact extend_eq m m' b1
    rw [he] at ih2
    obtain ⟨a2, b2⟩ := ih2 m' (hb.2 m' b1)
    exact ⟨.first hg a1 a2, fun k hk => b2 k (b1 k (hb.1 k hk))⟩

theorem find_mem {l : List (Nat × Params K V)} {g : Nat} {p : Params K V} (hf : find l g = some p) : (g, p) ∈ l := by
  simp only [find, Option.map_eq_some_iff] at hf
  obtain ⟨e, he, rfl⟩ := hf
  have h1 := List.mem_of_find?_eq_some he
  have h2 := List.find?_some he
  simp only [decide_eq_true_eq, beq_iff_eq] at h2
  rw [← h2]; exact h1

/-- Files that are read were not included before, and no file is read twice. -/
theorem inlined_nodup {back : Macros K V → Macros K V → Macros K V} {files : Nat → Macros K V → Run K V} {r : Run K V} {seen seen' : List Nat} {out : Macros K V} {vs : List (Nat × Macros K V)}
    (h : Inlined back files r seen out seen' vs) : (∀ x, x ∈ seen' ↔ x ∈ seen ∨ x ∈ vs.map (·.1)) ∧ (∀ x, x ∈ seen → x ∉ vs.map (·.1)) ∧ (vs.map (·.1)).Nodup := by
  induction h with
  | done => simp
  | missing _ ih => exact ih
  | again _ _ ih => exact ih
  | @first m m' g k seen seen' seen'' out vs vs' hg _ _ ih1 ih2 =>
    obtain ⟨a1, a2, a3⟩ := ih1
    obtain ⟨b1, b2, b3⟩ := ih2
    refine ⟨fun x => ?_, fun x hx => ?_, ?_⟩
    · rw [b1, a1]; simp only [List.mem_cons, List.map_cons, List.map_append, List.mem_append]; tauto
    · simp only [List.map_cons, List.map_append, List.mem_cons, List.mem_append, not_or]
      exact ⟨fun h => hg (h ▸ hx), a2 x (by simp [hx]), b2 x ((a1 x).2 (by simp [hx]))⟩
    · simp only [List.map_cons, List.map_append]
      refine List.nodup_cons.2 ⟨?_, List.nodup_append.2 ⟨a3, b3, fun x hx y hy hxy => ?_⟩⟩
      · rw [List.mem_append, not_or]
        exact ⟨a2 g (by simp), b2 g ((a1 g).2 (by simp))⟩
      · subst hxy
        exact b2 x ((a1 x).2 (Or.inr hx)) hy

/-- Reading a main file is determined: there is one list of files it comes by. -/
theorem inlined_unique {back : Macros K V → Macros K V → Macros K V} {files : Nat → Macros K V → Run K V} {r : Run K V} {seen s1 s2 : List Nat} {o1 o2 : Macros K V} {v1 v2 : List (Nat × Macros K V)}
    (h : Inlined back files r seen o1 s1 v1) (h' : Inlined back files r seen o2 s2 v2) : o1 = o2 ∧ s1 = s2 ∧ v1 = v2 := by
  induction h generalizing s2 o2 v2 with
  | done => cases h'; exact ⟨rfl, rfl, rfl⟩
  | missing _ ih => cases h' with | missing h => exact ih h
  | again hg _ ih =>
    cases h' with
    | again _ h => exact ih h
    | first hg' _ _ => exact absurd hg hg'
  | first hg _ _ ih1 ih2 =>
    cases h' with
    | again hg' _ => exact absurd hg' hg
    | first _ ha hb =>
      obtain ⟨rfl, rfl, rfl⟩ := ih1 ha
      obtain ⟨rfl, rfl, rfl⟩ := ih2 hb
      exact ⟨rfl, rfl, rfl⟩

theorem readFor_unique {back : Macros K V → Macros K V → Macros K V} {files : Nat → Macros K V → Run K V} {root : Nat} {v1 v2 : List (Nat × Macros K V)} (h1 : ReadFor back files root v1)
    (h2 : ReadFor back files root v2) : v1 = v2 := by
  obtain ⟨_, _, _, a, rfl⟩ := h1
  obtain ⟨_, _, _, b, rfl⟩ := h2
  rw [(inlined_unique a b).2.2]

/-- **C54, exact.** The definitions at the end of a file are those of inclusion in which a definition that an included file removes is in force again after it,
for any finitely many files, cycles included, and any files included before. -/
theorem inclusion_exact (files : Nat → Macros K V → Run K V) (u : List Nat) (hu : ∀ f m, f ∈ u → Within u (files f m)) (f : Nat) (hf : f ∈ u)
    (m : Macros K V) (before : List Nat) (hb : f ∉ before) :
    ∃ res p out seen vs, paramsQuery files u.length f m before = some res ∧ find res f = some p ∧
      Inlined keeping files (files f m) (f :: before) out seen vs ∧ find p.outs f = some out ∧ ∀ x, x ∈ seen ↔ x ∈ p.being := by
  obtain ⟨res, h⟩ := query_terminates files u hu u.length f m before hf hb List.countP_le_length
  obtain ⟨p, hp, -⟩ := (query_ok files _ _ _ _ _ hb h).entry
  obtain ⟨out, s', vs, h1, h2, h3, -⟩ := query_visits files u.length f m before before (fun _ => Iff.rfl) hb res p h hp
  exact ⟨res, p, out, s', vs, h, hp, h1, h2, h3⟩

/-- After including file 1 of `undefFiles`, which removes `K`, `K` is defined as before. -/
example : Inlined keeping undefFiles (undefFiles 0 fun _ => none) [0] (keeping (set (fun _ => none) 0 1) (unset (set (fun _ => none) 0 1) 0)) [1, 0]
    [(1, set (fun _ => none) 0 1)] :=
  .first (g := 1) (seen := [0]) (seen' := [1, 0]) (vs := []) (by decide) .done .done

/-- **C110, exact.** Take any finitely many files that include each other in any way, cycles included. A file of the project of a main file
is preprocessed with the definitions it is first included with when the main file is read, and with no others, except that a definition that an included file removes
is in force again after it; if reading the main file does not come by it (it is included only in code that is not compiled), or if there is no main file, it is taken as it is written. -/
theorem project_file_exact (files : Nat → Macros K V → Run K V) (u : List Nat)
    (hu : ∀ f m, f ∈ u → Within u (files f m)) (main : Nat → Option Nat) (hmain : ∀ f root, main f = some root → root ∈ u) (f : Nat) :
    ∃ r, preprocessFile files u.length main f = some r ∧ (main f = none → r = .written) ∧
      ∀ root, main f = some root → ∃ vs, ReadFor keeping files root vs ∧ (vs.map (·.1)).Nodup ∧
        (r = .written ↔ f ∉ vs.map (·.1)) ∧ ∀ p, r = .run p → (f, p.inp) ∈ vs := by
  cases hm : main f with
  | none => exact ⟨.written, by simp only [preprocessFile, hm], fun _ => rfl, fun _ h => by cases h⟩
  | some root =>
    obtain ⟨res, h⟩ := query_terminates files u hu u.length root (fun _ => none) [] (hmain f root hm) (by simp) List.countP_le_length
    have ok := query_ok files _ _ _ _ _ (by simp) h
    obtain ⟨p, hp, -⟩ := ok.entry
    obtain ⟨out, s', vs, h1, -, -, h5⟩ := query_visits files u.length root (fun _ => none) [] [] (by simp) (by simp) res p h hp
    obtain ⟨n1, n2, n3⟩ := inlined_nodup h1
    have hkeys : ∀ x, x ∈ keys res ↔ x ∈ ((root, fun _ => none) :: vs).map (·.1) := by
      intro x
      constructor
      · intro hx
        obtain ⟨e, he, rfl⟩ := List.mem_map.1 hx
        have := (h5 (e.1, e.2.inp)).1 (List.mem_map_of_mem (f := fun e : Nat × Params K V => (e.1, e.2.inp)) he)
        exact List.mem_map.2 ⟨_, List.mem_cons.2 this, rfl⟩
      · intro hx
        obtain ⟨e, he, rfl⟩ := List.mem_map.1 hx
        obtain ⟨q, hq, hqe⟩ := List.mem_map.1 ((h5 e).2 (List.mem_cons.1 he))
        exact List.mem_map.2 ⟨q, hq, by rw [← hqe]⟩
    have hr : ReadFor keeping files root ((root, fun _ => none) :: vs) := ⟨out, s', vs, h1, rfl⟩
    have hnd : (((root, fun _ => none) :: vs).map (·.1) : List Nat).Nodup := List.nodup_cons.2 ⟨n2 root (by simp), n3⟩
    cases hf : find res f with
    | none =>
      refine ⟨.written, by simp only [preprocessFile, hm, h, hf], (fun h => by cases h), fun root' e => ?_⟩
      cases e
      exact ⟨_, hr, hnd, ⟨fun _ => (hkeys f).not.1 (find_none.1 hf), fun _ => rfl⟩, fun p h => by cases h⟩
    | some q =>
      refine ⟨.run q, by simp only [preprocessFile, hm, h, hf], (fun h => by cases h), fun root' e => ?_⟩
      cases e
      have hmem := find_mem hf
      refine ⟨_, hr, hnd, ⟨(fun h => by cases h), fun h => absurd ((hkeys f).1 (List.mem_map_of_mem (f := (·.1)) hmem)) h⟩, fun p hp => ?_⟩
      cases hp
      exact List.mem_cons.2 ((h5 (f, q.inp)).1 (List.mem_map_of_mem (f := fun e : Nat × Params K V => (e.1, e.2.inp)) hmem))

/-- **C110, partial.** Take any finitely many files that include each other in any way, cycles included, of which none removes a definition. A file of the project of a main file
is preprocessed with the definitions it is first included with when the main file is read, and with no others; if reading the main file does not come by it (it is
included only in code that is not compiled), or if there is no main file, it is taken as it is written. Missing: files that remove definitions (next theorem). -/
theorem project_file_partial (files : Nat → Macros K V → Run K V) (hn : ∀ f m, NoUndef m (files f m)) (u : List Nat)
    (hu : ∀ f m, f ∈ u → Within u (files f m)) (main : Nat → Option Nat) (hmain : ∀ f root, main f = some root → root ∈ u) (f : Nat) :
    ∃ r, preprocessFile files u.length main f = some r ∧ (main f = none → r = .written) ∧
      ∀ root, main f = some root → ∃ vs, ReadFor textual files root vs ∧ (vs.map (·.1)).Nodup ∧
        (r = .written ↔ f ∉ vs.map (·.1)) ∧ ∀ p, r = .run p → (f, p.inp) ∈ vs := by
  obtain ⟨r, h1, h2, h3⟩ := project_file_exact files u hu main hmain f
  refine ⟨r, h1, h2, fun root hm => ?_⟩
  obtain ⟨vs, ⟨out, seen, vs', a, rfl⟩, b⟩ := h3 root hm
  exact ⟨_, ⟨out, seen, vs', (textual_of_keeping hn a _ (hn root _)).1, rfl⟩, b⟩

/-- File 0: `#define K 1`, `#include <1>`, `#include <2>`; file 1: `#undef K`; file 2 is empty. -/
def undefThen : Nat → Macros Nat Nat → Run Nat Nat := fun f m =>
  if f = 0 then .incl (set m 0 1) (some 1) (fun m => .incl m (some 2) (fun m => .done m)) else if f = 1 then .done (unset m 0) else .done m

/-- The definitions of `K` a file starts with, if it is preprocessed. -/
def startsWith (r : Option (Made Nat Nat)) : Option (Option Nat) :=
  match r with
  | some (.run p) => some (p.inp 0)
  | _ => none

/-- **C110, refuted.** A file that is included after another one removed a definition is preprocessed as if the definition were there. -/
theorem project_file_refuted : startsWith (preprocessFile undefThen 3 (fun _ => some 0) 2) = some (some 1) ∧
    ∃ vs, ReadFor textual undefThen 0 vs ∧ ∀ x, (2, x) ∈ vs → x 0 = none := by
  refine ⟨by decide, _, ⟨_, _, _, .first (by decide) .done (.first (by decide) .done .done), rfl⟩, ?_⟩
  intro x hx
  simp only [List.mem_cons, Prod.mk.injEq, List.nil_append, List.not_mem_nil, or_false] at hx
  rcases hx with ⟨h, -⟩ | ⟨h, -⟩ | ⟨-, rfl⟩
  · cases h
  · cases h
  · decide

/-- File 0: `#define K 1`, `#include <1>`, `#if K == 3`, `#include <3>`, `#endif`; file 1: `#define K 2`, `#include <2>`, `#include <0>`;
files 2 and 3 are empty. -/
def chain : Nat → Macros Nat Nat → Run Nat Nat := fun f m =>
  if f = 0 then .incl (set m 0 1) (some 1) (fun m => if m 0 = some 3 then .incl m (some 3) .done else .done m)
  else if f = 1 then .incl (set m 0 2) (some 2) (fun m => .incl m (some 0) .done)
  else .done m

/-- The included files are preprocessed with what is defined there; file 3 is only included in code that is not compiled; file 4 is in no project. -/
example : startsWith (preprocessFile chain 4 (fun _ => some 0) 1) = some (some 1) ∧ startsWith (preprocessFile chain 4 (fun _ => some 0) 2) = some (some 2) ∧
    startsWith (preprocessFile chain 4 (fun _ => some 0) 0) = some none ∧
    (match preprocessFile chain 4 (fun _ => some 0) 3 with | some .written => true | _ => false) = true ∧
    (match preprocessFile chain 4 (fun f => if f < 4 then some 0 else none) 4 with | some .written => true | _ => false) = true := by decide

theorem set_isSome {m : Macros Nat Nat} {k v : Nat} (x : Nat) (h : (m x).isSome) : (set m k v x).isSome := by
  unfold IncludeRun.set
  split
  · rfl
  · exact h

/-- The hypotheses of `project_file_partial` hold of these files. -/
example : (∀ f m, NoUndef m (chain f m)) ∧ ∀ f m, f ∈ [0, 1, 2, 3] → Within [0, 1, 2, 3] (chain f m) := by
  constructor
  · intro f m
    unfold chain
    split
    · refine ⟨fun x h => set_isSome x h, fun m' h => ?_⟩
      show NoUndef m' (if m' 0 = some 3 then .incl m' (some 3) .done else .done m')
      split
      · exact ⟨fun _ h => h, fun _ _ _ h => h⟩
      · exact fun _ h => h
    · split
      · exact ⟨fun x h => set_isSome x h, fun m' h => ⟨fun _ h => h, fun _ _ _ h => h⟩⟩
      · exact fun _ h => h
  · intro f m _
    unfold chain
    split
    · refine ⟨fun g h => by cases h; decide, fun m' => ?_⟩
      show Within _ (if m' 0 = some 3 then .incl m' (some 3) .done else .done m')
      split
      · exact ⟨fun g h => by cases h; decide, fun _ => trivial⟩
      · trivial
    · split
      · exact ⟨fun g h => by cases h; decide, fun m' => ⟨fun g h => by cases h; decide, fun _ => trivial⟩⟩
      · trivial

end Verif.Props.IncludeFile
