import Verif.Include.Resolve
import Verif.Props.Paths
/-! # C16: include resolution -/

namespace Verif.Props.Resolve
open Verif.Include Verif.Include.Spec Verif.Paths Verif.Paths.Spec Verif.Props.Paths

/-- **C16, extension**. -/
theorem infer_ext_correct (name : Str) : WithExt name (inferExt name).1 := by
  simp only [WithExt, inferExt]
  by_cases h1 : ".sp".toList.isSuffixOf name = true
  · simp only [h1, if_true]
    exact Or.inl ⟨Or.inl (List.isSuffixOf_iff_suffix.1 h1), trivial⟩
  · by_cases h2 : ".inc".toList.isSuffixOf name = true
    · simp only [h1, h2, Bool.false_eq_true, if_false, if_true]
      exact Or.inl ⟨Or.inr (List.isSuffixOf_iff_suffix.1 h2), trivial⟩
    · simp only [h1, h2, Bool.false_eq_true, if_false]
      exact Or.inr ⟨fun h => h1 (List.isSuffixOf_iff_suffix.2 h), fun h => h2 (List.isSuffixOf_iff_suffix.2 h), trivial⟩

/-- **C16, extension, idempotence**: inferring the extension again changes neither the name nor the extension. -/
theorem infer_ext_idempotent (name : Str) : inferExt (inferExt name).1 = inferExt name := by
  by_cases h1 : ".sp".toList.isSuffixOf name = true
  · simp only [inferExt, h1, if_true]
  · by_cases h2 : ".inc".toList.isSuffixOf name = true
    · simp only [inferExt, h1, h2, Bool.false_eq_true, if_false, if_true]
    · have h3 : ".inc".toList.isSuffixOf (name ++ ".inc".toList) = true :=
        List.isSuffixOf_iff_suffix.2 ⟨name, rfl⟩
      have h4 : ".sp".toList.isSuffixOf (name ++ ".inc".toList) = false := by
        rw [Bool.eq_false_iff]
        intro h
        obtain ⟨t, ht⟩ := List.isSuffixOf_iff_suffix.1 h
        have := congrArg List.getLast? ht
        rw [List.getLast?_append, List.getLast?_append] at this
        simp at this
      simp only [inferExt, h1, h2, h3, h4, Bool.false_eq_true, if_false, if_true]

theorem withExt_unique {name a b : Str} (h : WithExt name a) (h' : WithExt name b) : a = b := by
  rcases h with ⟨c, rfl⟩ | ⟨c, c', rfl⟩ <;> rcases h' with ⟨d, rfl⟩ | ⟨d, d', rfl⟩
  · rfl
  · exact (c.elim d d').elim
  · exact (d.elim c c').elim
  · rfl

/-! ### Capturing the name -/

theorem takeWhile_all {l : Str} (h : '>' ∉ l) : l.takeWhile (fun x => decide (x ≠ '>')) = l := by
  induction l with
  | nil => rfl
  | cons a as ih =>
    simp only [List.mem_cons, not_or] at h
    have hd : decide (a ≠ '>') = true := by simpa using Ne.symm h.1
    simp only [List.takeWhile_cons, hd, if_true, ih h.2]

/-- A stretch without `>` is taken whole. -/
theorem takeWhile_append {l r : Str} (h : '>' ∉ l) :
    (l ++ r).takeWhile (fun x => decide (x ≠ '>')) = l ++ r.takeWhile (fun x => decide (x ≠ '>')) := by
  induction l with
  | nil => rfl
  | cons a as ih =>
    simp only [List.mem_cons, not_or] at h
    have hd : decide (a ≠ '>') = true := by simpa using Ne.symm h.1
    simp only [List.cons_append, List.takeWhile_cons, hd, if_true, ih h.2]

theorem dropWhile_append {l r : Str} (h : '>' ∉ l) :
    (l ++ r).dropWhile (fun x => decide (x ≠ '>')) = r.dropWhile (fun x => decide (x ≠ '>')) := by
  induction l with
  | nil => rfl
  | cons a as ih =>
    simp only [List.mem_cons, not_or] at h
    have hd : decide (a ≠ '>') = true := by simpa using Ne.symm h.1
    simp only [List.cons_append, List.dropWhile_cons, hd, if_true, ih h.2]

/-- A directive `… "name" …` with exactly two quotes names `name`. -/
theorem reQuote_correct (pre name post : Str) (h1 : '"' ∉ pre) (h2 : '"' ∉ name) (h3 : '"' ∉ post) (hg : '>' ∉ name) (hne : name ≠ []) :
    reQuote (pre ++ '"' :: (name ++ '"' :: post)) = some name := by
  induction pre with
  | nil =>
    simp only [List.nil_append, reQuote, if_true]
    have : (name ++ '"' :: post).takeWhile (fun x => decide (x ≠ '>')) =
        name ++ '"' :: post.takeWhile (fun x => decide (x ≠ '>')) := by
      rw [takeWhile_append hg]; simp [List.takeWhile_cons]
    rw [this]
    have hq : '"' ∉ post.takeWhile (fun x => decide (x ≠ '>')) := fun h => h3 ((List.takeWhile_sublist _).subset h)
    rw [splitLast_eq.2 ⟨rfl, hq⟩]
    cases name with
    | nil => exact absurd rfl hne
    | cons x xs => rfl
  | cons c cs ih =>
    simp only [List.mem_cons, not_or] at h1
    simp only [List.cons_append, reQuote, Ne.symm h1.1, if_false]
    exact ih h1.2

theorem reQuote_none (t : Str) (h : '"' ∉ t) : reQuote t = none := by
  induction t with
  | nil => rfl
  | cons c cs ih =>
    simp only [List.mem_cons, not_or] at h
    simp [reQuote, Ne.symm h.1, ih h.2]

theorem reChevron_none (t : Str) (h : '<' ∉ t) : reChevron t = none := by
  induction t with
  | nil => rfl
  | cons c cs ih =>
    simp only [List.mem_cons, not_or] at h
    simp [reChevron, Ne.symm h.1, ih h.2]

theorem reChevron_correct (pre name post : Str) (h1 : '<' ∉ pre) (hg : '>' ∉ name) (hne : name ≠ []) :
    reChevron (pre ++ '<' :: (name ++ '>' :: post)) = some name := by
  induction pre with
  | nil =>
    simp only [List.nil_append, reChevron, if_true]
    have ht : (name ++ '>' :: post).takeWhile (fun x => decide (x ≠ '>')) = name := by
      rw [takeWhile_append hg]; simp [List.takeWhile_cons]
    have hd : (name ++ '>' :: post).dropWhile (fun x => decide (x ≠ '>')) = '>' :: post := by
      rw [dropWhile_append hg]; simp [List.dropWhile_cons]
    rw [ht, hd]
    cases name with
    | nil => exact absurd rfl hne
    | cons x xs => rfl
  | cons c cs ih =>
    simp only [List.mem_cons, not_or] at h1
    simp only [List.cons_append, reChevron, Ne.symm h1.1, if_false]
    exact ih h1.2

/-! ### Paths -/

theorem splitSlash_slash (a b : Str) : splitSlash (a ++ '/' :: b) = splitSlash a ++ splitSlash b := by
  induction a with
  | nil => simp [splitSlash]
  | cons c cs ih =>
    by_cases hc : c = '/'
    · simp [splitSlash, hc, ih]
    · simp only [List.cons_append, splitSlash, hc, if_false, ih]
      cases h : splitSlash cs with
      | nil => exact absurd h (splitSlash_ne_nil cs)
      | cons p ps => simp

theorem walk1_nil (pl : List Str) : walk1 pl [] = pl := by simp [walk1]

/-- Joining to a directory walks on from it. -/
theorem walk_push (names : List Str) (hn : ∀ s ∈ names, IsName s) (p : Str) :
    walk (push (absPath names) p) = (splitSlash p).foldl walk1 names := by
  cases names with
  | nil =>
    simp only [absPath, push, if_true]
    have : walk (['/'] ++ p) = (splitSlash p).foldl walk1 [] := walk_abs p
    simpa using this
  | cons a b =>
    have h : push (absPath (a :: b)) p = absPath (a :: b) ++ '/' :: p := by
      have := push_abs (a :: b) p hn
      rw [this]
      simp [absPath, List.flatMap_append]
    rw [h, walk, splitSlash_slash, List.foldl_append]
    have := walk_absPath (a :: b) hn
    rw [walk] at this
    rw [this]

theorem push_head (names : List Str) (p : Str) : ∃ r, push (absPath names) p = '/' :: r := by
  obtain ⟨r, hr⟩ := absPath_cons names
  rw [hr, push]
  split
  · exact ⟨r ++ p, rfl⟩
  · exact ⟨r ++ '/' :: p, rfl⟩

/-- The path looked up is that of the place the name denotes. -/
theorem normalize_join (names : List Str) (hn : ∀ s ∈ names, IsName s) (p : Str) :
    normalizePath (pathJoin (absPath names) p) = absPath (placeFrom names p) := by
  simp only [pathJoin, placeFrom]
  by_cases h : p.head? = some '/'
  · simp only [h, if_true]
    cases p with
    | nil => simp at h
    | cons c cs =>
      simp only [List.head?_cons, Option.some.injEq] at h
      subst h
      exact (normalize_correct cs).1
  · simp only [h, if_false]
    obtain ⟨r, hr⟩ := push_head names p
    have := walk_push names hn p
    rw [hr] at this ⊢
    rw [(normalize_correct r).1, this]

/-- A root directory given by its names. -/
def RootAt (r : Root) (dir : List Str) : Prop := r.root = absPath dir ∧ ∀ s ∈ dir, IsName s

theorem resolveRoots_correct (rs : List (Root × List Str)) (hr : ∀ r ∈ rs, RootAt r.1 r.2) (name : Str) :
    resolveRoots (rs.map (·.1)) name = firstRoot rs name := by
  induction rs with
  | nil => rfl
  | cons r rs ih =>
    obtain ⟨r, dir⟩ := r
    have h := hr (r, dir) List.mem_cons_self
    have ih := ih (fun x hx => hr x (List.mem_cons_of_mem _ hx))
    have h1 : r.resolveRelative name = fileAt r (placeFrom dir name) := by
      simp only [Root.resolveRelative, fileAt]
      rw [h.1, normalize_join dir h.2]
    simp only [List.map_cons, resolveRoots, firstRoot, h1, ih]

/-- The situation of an including file: which root it was assigned to, and its path there. -/
structure Situated (w : World) (file : Nat) (r : Root) (dir : List Str) (fname : Str) : Prop where
  assigned : (w.rootOf file).bind (fun i => w.roots[i]?) = some r
  path     : lookup r.uris file = some (absPath (dir ++ [fname]))
  names    : ∀ s ∈ dir ++ [fname], IsName s

theorem resolvePath_correct {w : World} {file : Nat} {r : Root} {dir : List Str} {fname : Str} (h : Situated w file r dir fname)
    (name : Str) : w.resolvePath file name = some (fileAt r (placeFrom dir name)) := by
  have hd : ∀ s ∈ dir, IsName s := fun s hs => h.names s (List.mem_append.2 (Or.inl hs))
  simp only [World.resolvePath, h.assigned, Root.resolvePath, h.path]
  have hpop : pop (absPath (dir ++ [fname])) = absPath dir := by
    rw [pop_abs _ h.names]; simp
  by_cases ha : name.head? = some '/'
  · have := normalize_join dir hd name
    simp only [pathJoin, ha, if_true] at this
    simp only [ha, if_true, fileAt, this]
  · simp only [ha, if_false, fileAt, hpop, normalize_join dir hd]

/-- **C16, quoted includes, partial**. A quoted include resolves to the file at the place it names relative to the including
file, if the source root of the including file has one, otherwise to the first source root that has it relative to the root;
an unresolved `#include` is reported with its path, an unresolved `#tryinclude` is ignored. Missing: files of other source
roots at that place are not found (next theorem). -/
theorem quoted_include_partial (w : World) (rs : List (Root × List Str)) (hrs : w.roots = rs.map (·.1)) (hr : ∀ r ∈ rs, RootAt r.1 r.2)
    (file : Nat) (r : Root) (dir : List Str) (fname : Str) (hs : Situated w file r dir fname) (isTry : Bool)
    (pre name post : Str) (h1 : '"' ∉ pre) (h2 : '"' ∉ name) (h3 : '"' ∉ post) (hg : '>' ∉ name) (hne : name ≠ [])
    (full : Str) (hfull : WithExt name full) :
    ∃ o, w.fileInclude file isTry (pre ++ '"' :: (name ++ '"' :: post)) = some o ∧
      match (match fileAt r (placeFrom dir full) with
        | some f => some f
        | none => firstRoot rs full) with
      | some f => ∃ e, o = .resolved f true e
      | none => o = if isTry then .ignored else .unresolved full := by
  have hf : (inferExt name).1 = full := withExt_unique (infer_ext_correct name) hfull
  simp only [World.fileInclude, reQuote_correct pre name post h1 h2 h3 hg hne, hf, resolvePath_correct hs]
  cases hx : fileAt r (placeFrom dir full) with
  | some f => exact ⟨_, rfl, _, rfl⟩
  | none =>
    simp only [World.finish, hrs, resolveRoots_correct rs hr full]
    cases hy : firstRoot rs full with
    | some f => exact ⟨_, rfl, _, rfl⟩
    | none => exact ⟨_, rfl, rfl⟩

/-- **C16, chevron includes**. -/
theorem chevron_include (w : World) (rs : List (Root × List Str)) (hrs : w.roots = rs.map (·.1)) (hr : ∀ r ∈ rs, RootAt r.1 r.2)
    (file : Nat) (isTry : Bool) (pre name post : Str) (h1 : '<' ∉ pre) (hg : '>' ∉ name) (hne : name ≠ [])
    (hq : '"' ∉ pre ++ '<' :: (name ++ '>' :: post)) (full : Str) (hfull : WithExt name full) :
    ∃ o, w.fileInclude file isTry (pre ++ '<' :: (name ++ '>' :: post)) = some o ∧
      match firstRoot rs full with
      | some f => ∃ e, o = .resolved f false e
      | none => o = if isTry then .ignored else .unresolved full := by
  have hf : (inferExt name).1 = full := withExt_unique (infer_ext_correct name) hfull
  simp only [World.fileInclude, reQuote_none _ hq, reChevron_correct pre name post h1 hg hne, hf]
  simp only [World.finish, hrs, resolveRoots_correct rs hr full]
  cases hy : firstRoot rs full with
  | some f => exact ⟨_, rfl, _, rfl⟩
  | none => exact ⟨_, rfl, rfl⟩

theorem reChevron_sound {text name : Str} (h : reChevron text = some name) :
    name ≠ [] ∧ '>' ∉ name ∧ ∃ pre post, text = pre ++ '<' :: (name ++ '>' :: post) := by
  induction text with
  | nil => cases h
  | cons c cs ih =>
    have next : reChevron cs = some name →
        name ≠ [] ∧ '>' ∉ name ∧ ∃ pre post, c :: cs = pre ++ '<' :: (name ++ '>' :: post) := by
      intro h
      obtain ⟨h1, h2, pre, post, h3⟩ := ih h
      exact ⟨h1, h2, c :: pre, post, by rw [h3]; rfl⟩
    simp only [reChevron] at h
    by_cases hc : c = '<'
    · simp only [hc, if_true] at h
      cases ht : cs.takeWhile (fun x => decide (x ≠ '>')) with
      | nil => simp only [ht] at h; exact next h
      | cons x xs =>
        cases hd : cs.dropWhile (fun x => decide (x ≠ '>')) with
        | nil => simp only [ht, hd] at h; exact next h
        | cons y ys =>
          simp only [ht, hd, Option.some.injEq] at h
          have hy : y = '>' := by
            have := List.head?_dropWhile_not (fun x => decide (x ≠ '>')) cs
            rw [hd] at this
            simpa using this
          have hall : ∀ z ∈ x :: xs, z ≠ '>' := by
            intro z hz
            rw [← ht] at hz
            simpa using List.all_takeWhile (l := cs) (p := fun x => decide (x ≠ '>')) |> List.all_eq_true.1 |> (· z hz)
          refine ⟨by rw [← h]; simp, by rw [← h]; exact fun hm => hall _ hm rfl, [], ys, ?_⟩
          have := List.takeWhile_append_dropWhile (p := fun x => decide (x ≠ '>')) (l := cs)
          rw [ht, hd, h, hy] at this
          rw [← this, hc]; rfl
    · simp only [hc, if_false] at h; exact next h

theorem reQuote_sound {text name : Str} (h : reQuote text = some name) :
    name ≠ [] ∧ '>' ∉ name ∧ ∃ pre post, text = pre ++ '"' :: (name ++ '"' :: post) := by
  induction text with
  | nil => cases h
  | cons c cs ih =>
    have next : reQuote cs = some name →
        name ≠ [] ∧ '>' ∉ name ∧ ∃ pre post, c :: cs = pre ++ '"' :: (name ++ '"' :: post) := by
      intro h
      obtain ⟨h1, h2, pre, post, h3⟩ := ih h
      exact ⟨h1, h2, c :: pre, post, by rw [h3]; rfl⟩
    simp only [reQuote] at h
    by_cases hc : c = '"'
    · simp only [hc, if_true] at h
      cases ht : splitLast '"' (cs.takeWhile (fun x => decide (x ≠ '>'))) with
      | none => simp only [ht] at h; exact next h
      | some p =>
        obtain ⟨a, b⟩ := p
        cases a with
        | nil => simp only [ht] at h; exact next h
        | cons x xs =>
          simp only [ht, Option.some.injEq] at h
          obtain ⟨hs, -⟩ := splitLast_eq.1 ht
          have hall : ∀ z ∈ x :: xs, z ≠ '>' := by
            intro z hz
            have hz' : z ∈ cs.takeWhile (fun x => decide (x ≠ '>')) := by
              rw [hs]; exact List.mem_append_left _ hz
            simpa using List.all_takeWhile (l := cs) (p := fun x => decide (x ≠ '>')) |> List.all_eq_true.1 |> (· z hz')
          refine ⟨by rw [← h]; simp, by rw [← h]; exact fun hm => hall _ hm rfl, [],
            b ++ cs.dropWhile (fun x => decide (x ≠ '>')), ?_⟩
          have := List.takeWhile_append_dropWhile (p := fun x => decide (x ≠ '>')) (l := cs)
          rw [hs, h] at this
          rw [hc]
          refine congrArg _ (this.symm.trans ?_)
          simp only [List.append_assoc, List.cons_append]
    · simp only [hc, if_false] at h; exact next h

/-- **C16, directives without a name**: a directive that writes neither `<name>` nor `"name"` (an opening bracket that is never
closed, an empty name) includes nothing, reports nothing and brings in no macros. -/
theorem no_name_no_include (w : World) (file : Nat) (isTry : Bool) (text : Str) (h : NamesNothing text) :
    w.fileInclude file isTry text = some .ignored ∧ w.preprocessorIncludes file text = some [] ∧
      ∀ quoted, w.resolveNode file quoted text = some none := by
  have h1 : reQuote text = none := by
    cases e : reQuote text with
    | none => rfl
    | some n => obtain ⟨a, b, pre, post, hx⟩ := reQuote_sound e; exact absurd hx (h pre n post a b).2
  have h2 : reChevron text = none := by
    cases e : reChevron text with
    | none => rfl
    | some n => obtain ⟨a, b, pre, post, hx⟩ := reChevron_sound e; exact absurd hx (h pre n post a b).1
  simp [World.fileInclude, World.preprocessorIncludes, World.resolveNode, h1, h2]

example : NamesNothing "#include <abc".toList := by
  intro pre name post _ _
  constructor
  · intro h
    have : '>' ∈ "#include <abc".toList := by rw [h]; simp
    exact absurd this (by decide)
  · intro h
    have : '"' ∈ "#include <abc".toList := by rw [h]; simp
    exact absurd this (by decide)

/-- Two roots `/p` (files `x.sp`, id 0) and `/q/b` (file `y.inc`, id 1). -/
def world : World :=
  ⟨[⟨"/p".toList, [("/p/x.sp".toList, 0)], [(0, "/p/x.sp".toList)]⟩,
    ⟨"/q/b".toList, [("/q/b/y.inc".toList, 1)], [(1, "/q/b/y.inc".toList)]⟩], fun f => some f⟩

/-- **C16, refuted**. `/p/x.sp` includes `"../q/b/y.inc"`, the known file `/q/b/y.inc` is at that place, and the include is
reported as unresolved. -/
theorem quoted_include_refuted :
    world.fileInclude 0 false "#include \"../q/b/y.inc\"".toList = some (.unresolved "../q/b/y.inc".toList) ∧
    ∃ r ∈ world.roots, fileAt r (placeFrom ["p".toList] "../q/b/y.inc".toList) = some 1 := by
  refine ⟨by decide, ⟨"/q/b".toList, [("/q/b/y.inc".toList, 1)], [(1, "/q/b/y.inc".toList)]⟩, by simp [world], by decide⟩

/-- The three copies of the logic agree: on a directive with a quoted name only, or a chevron name only, the macros come from
the file that the include graph has, and the syntax-tree query resolves to it too. -/
theorem copies_agree_quoted (w : World) (file : Nat) (isTry : Bool)
    (pre name post : Str) (h1 : '"' ∉ pre) (h2 : '"' ∉ name) (h3 : '"' ∉ post) (hg : '>' ∉ name) (hne : name ≠ [])
    (hc : '<' ∉ pre ++ '"' :: (name ++ '"' :: post)) (o : Outcome)
    (ho : w.fileInclude file isTry (pre ++ '"' :: (name ++ '"' :: post)) = some o) :
    ∃ res : Option Nat,
      w.preprocessorIncludes file (pre ++ '"' :: (name ++ '"' :: post)) = some [res] ∧
      w.resolveNode file true ('"' :: (name ++ ['"'])) = some (some res) ∧
      (∀ f, res = some f ↔ ∃ q e, o = .resolved f q e) := by
  have hq := reQuote_correct pre name post h1 h2 h3 hg hne
  have hq2 : reQuote ('"' :: (name ++ ['"'])) = some name := by simpa using reQuote_correct [] name [] (by simp) h2 (by simp) hg hne
  simp only [World.fileInclude, hq] at ho
  simp only [World.preprocessorIncludes, reChevron_none _ hc, hq, World.callback, if_true, Option.bind_some, List.nil_append,
    World.resolveNode, hq2]
  cases hp : w.resolvePath file (inferExt name).1 with
  | none => simp [hp] at ho
  | some x =>
    cases x with
    | some f =>
      simp only [hp, Option.some.injEq] at ho
      subst ho
      refine ⟨some f, rfl, rfl, ?_⟩
      intro g
      constructor
      · intro h; simp only [Option.some.injEq] at h; subst h; exact ⟨_, _, rfl⟩
      · rintro ⟨q, e, h⟩; simp only [Outcome.resolved.injEq] at h; rw [h.1]
    | none =>
      simp only [hp, Option.some.injEq] at ho
      refine ⟨resolveRoots w.roots (inferExt name).1, rfl, by simp only [infer_ext_idempotent], ?_⟩
      intro g
      subst ho
      simp only [World.finish]
      cases hr : resolveRoots w.roots (inferExt name).1 with
      | some f =>
        simp only [Option.some.injEq, Outcome.resolved.injEq]
        constructor
        · intro h; exact ⟨_, _, h, rfl, rfl⟩
        · rintro ⟨_, _, h, _⟩; exact h
      | none => cases isTry <;> simp

theorem copies_agree_chevron (w : World) (file : Nat) (isTry : Bool) (pre name post : Str) (h1 : '<' ∉ pre) (hg : '>' ∉ name) (hne : name ≠ [])
    (hq : '"' ∉ pre ++ '<' :: (name ++ '>' :: post)) (o : Outcome)
    (ho : w.fileInclude file isTry (pre ++ '<' :: (name ++ '>' :: post)) = some o) :
    ∃ res : Option Nat,
      w.preprocessorIncludes file (pre ++ '<' :: (name ++ '>' :: post)) = some [res] ∧
      w.resolveNode file false ('<' :: (name ++ ['>'])) = some (some res) ∧
      (∀ f, res = some f ↔ ∃ q e, o = .resolved f q e) := by
  have hc := reChevron_correct pre name post h1 hg hne
  have hc2 : reChevron ('<' :: (name ++ ['>'])) = some name := by simpa using reChevron_correct [] name [] (by simp) hg hne
  simp only [World.fileInclude, reQuote_none _ hq, hc, Option.some.injEq] at ho
  simp only [World.preprocessorIncludes, hc, reQuote_none _ hq, World.callback, Bool.false_eq_true, if_false, Option.bind_some,
    Option.map_some, List.append_nil, World.resolveNode, hc2]
  refine ⟨resolveRoots w.roots (inferExt name).1, rfl, rfl, ?_⟩
  intro g
  subst ho
  simp only [World.finish]
  cases hr : resolveRoots w.roots (inferExt name).1 with
  | some f =>
    simp only [Option.some.injEq, Outcome.resolved.injEq]
    constructor
    · intro h; exact ⟨_, _, h, rfl, rfl⟩
    · rintro ⟨_, _, h, _⟩; exact h
  | none => cases isTry <;> simp

/-- **Disagreement**. On a directive whose text has both a chevron name and a quoted text, the include graph takes the quoted
one only and the preprocessor takes both. -/
theorem copies_disagree_refuted :
    world.fileInclude 0 false "#include <y> // see \"x.sp\"".toList = some (.resolved 0 true .sp) ∧
    world.preprocessorIncludes 0 "#include <y> // see \"x.sp\"".toList = some [some 1, some 0] := by
  decide

example : Situated world 0 ⟨"/p".toList, [("/p/x.sp".toList, 0)], [(0, "/p/x.sp".toList)]⟩ ["p".toList] "x.sp".toList :=
  ⟨rfl, by decide, by simp [IsName]⟩
example : world.fileInclude 0 false "#include <y>".toList = some (.resolved 1 false .inc) := by decide

end Verif.Props.Resolve
