import Verif.Paths.Spec
/-! # C08 (directories), C09 (normalisation), C10 (virtual paths) -/

namespace Verif.Props.Paths
open Verif.Paths Verif.Paths.Spec

/-! ### C08 -/

theorem startsWith_iff {p q : APath} : startsWith p q = true ↔ q <+: p := by simp [startsWith]

/-- What the loop has found: an include that is an ancestor, at least as long as every include seen so far that is. -/
def Found (path : APath) (cur : Option APath) (is : List APath) : Option APath → Prop
  | some i => i <+: path ∧ (cur = some i ∨ i ∈ is) ∧ (∀ j ∈ is, j <+: path → j.length ≤ i.length) ∧
        (∀ c, cur = some c → c.length ≤ i.length)
  | none => cur = none ∧ ∀ j ∈ is, ¬ j <+: path

theorem choose_spec (path : APath) (is : List APath) : ∀ cur : Option APath, (∀ c, cur = some c → c <+: path) →
    Found path cur is (chooseInclude path cur is) := by
  induction is with
  | nil => intro cur h; cases cur <;> simp [chooseInclude, Found]; exact h _ rfl
  | cons i is ih =>
    intro cur h
    simp only [chooseInclude]
    by_cases hi : startsWith path i = true
    · simp only [hi, if_true]
      have hp := startsWith_iff.1 hi
      have key : ∀ r, Found path (some i) is r → (∀ c, cur = some c → c.length ≤ i.length) → Found path cur (i :: is) r := by
        intro r hr hc
        cases r with
        | none => simp [Found] at hr
        | some k =>
          obtain ⟨h1, h2, h3, h4⟩ := hr
          refine ⟨h1, ?_, ?_, fun c hcc => Nat.le_trans (hc c hcc) (h4 i rfl)⟩
          · rcases h2 with h2 | h2
            · simp only [Option.some.injEq] at h2; right; rw [← h2]; exact List.mem_cons_self
            · exact Or.inr (List.mem_cons_of_mem _ h2)
          · intro j hj hjp
            rcases List.mem_cons.1 hj with rfl | hj
            · exact h4 j rfl
            · exact h3 j hj hjp
      cases cur with
      | none => exact key _ (ih (some i) (by simpa using hp)) (by simp)
      | some prev =>
        have hprev := h prev rfl
        by_cases hs : startsWith prev i = true
        · simp only [hs, if_true]
          have hr := ih (some prev) h
          generalize chooseInclude path (some prev) is = r at hr ⊢
          cases r with
          | none => simp [Found] at hr
          | some k =>
            obtain ⟨h1, h2, h3, h4⟩ := hr
            refine ⟨h1, h2.imp_right (List.mem_cons_of_mem _), ?_, h4⟩
            intro j hj hjp
            rcases List.mem_cons.1 hj with rfl | hj
            · exact Nat.le_trans (startsWith_iff.1 hs).length_le (h4 prev rfl)
            · exact h3 j hj hjp
        · simp only [hs, Bool.false_eq_true, if_false]
          refine key _ (ih (some i) (by simpa using hp)) ?_
          intro c hc
          simp only [Option.some.injEq] at hc
          subst hc
          rcases Nat.le_total i.length prev.length with hl | hl
          · exact absurd (startsWith_iff.2 (List.prefix_of_prefix_length_le hp hprev hl)) hs
          · exact hl
    · simp only [hi, Bool.false_eq_true, if_false]
      have hr := ih cur h
      generalize chooseInclude path cur is = r at hr ⊢
      cases r with
      | none =>
        refine ⟨hr.1, ?_⟩
        intro j hj hjp
        rcases List.mem_cons.1 hj with rfl | hj
        · exact hi (startsWith_iff.2 hjp)
        · exact hr.2 j hj hjp
      | some k =>
        obtain ⟨h1, h2, h3, h4⟩ := hr
        refine ⟨h1, h2.imp_right (List.mem_cons_of_mem _), ?_, h4⟩
        intro j hj hjp
        rcases List.mem_cons.1 hj with rfl | hj
        · exact absurd (startsWith_iff.2 hjp) hi
        · exact h3 j hj hjp

theorem nil_or_concat {α : Type} (l : List α) : l = [] ∨ ∃ L b, l = L ++ [b] := by
  rcases List.eq_nil_or_concat l with h | ⟨L, b, h⟩
  · exact Or.inl h
  · exact Or.inr ⟨L, b, by simpa using h⟩

/-- **C08**. A directory (and, with a configured extension, a file) is loaded iff some include directory is an ancestor of
it that is strictly longer than every exclude directory that is an ancestor of it. The right-hand side does not depend on
the order of the lists. -/
theorem includes_iff (d : Directories) (path : APath) :
    d.containsDir path = true ↔ ∃ i ∈ d.incl, i <+: path ∧ ∀ e ∈ d.excl, e <+: path → e.length < i.length := by
  have hspec := choose_spec path d.incl none (by simp)
  simp only [Directories.containsDir, Directories.includesPath]
  cases hc : chooseInclude path none d.incl with
  | none =>
    rw [hc] at hspec
    simp only [Bool.false_eq_true, false_iff]
    rintro ⟨i, hi, hp, _⟩
    exact hspec.2 i hi hp
  | some i =>
    rw [hc] at hspec
    obtain ⟨hp, hmem, hmax, _⟩ := hspec
    have hmem : i ∈ d.incl := by simpa using hmem
    simp only [Bool.not_eq_true', List.any_eq_false, Bool.and_eq_true, not_and, startsWith_iff]
    constructor
    · intro h
      refine ⟨i, hmem, hp, ?_⟩
      intro e he hep
      have := h e he hep
      rcases Nat.lt_or_ge e.length i.length with h1 | h1
      · exact h1
      · exact absurd (List.prefix_of_prefix_length_le hp hep h1) this
    · rintro ⟨k, hk, hkp, hlt⟩ e he hep hie
      have h1 := hlt e he hep
      have h2 := hmax k hk hkp
      have h3 := hie.length_le
      omega

/-- **C08, files**. -/
theorem contains_file_iff (d : Directories) (path : APath) :
    d.containsFile path = true ↔ (extension path).getD [] ∈ d.extensions ∧ d.containsDir path = true := by
  simp only [Directories.containsFile, Directories.containsDir]
  by_cases h : (extension path).getD [] ∈ d.extensions
  · have : d.extensions.all (fun e => decide (e ≠ (extension path).getD [])) = false := by
      rw [Bool.eq_false_iff]
      intro ha
      have := List.all_eq_true.1 ha _ h
      simp at this
    simp [this, h]
  · have : d.extensions.all (fun e => decide (e ≠ (extension path).getD [])) = true := by
      rw [List.all_eq_true]
      intro e he
      simp only [decide_eq_true_eq]
      rintro rfl; exact h he
    simp [this, h]

/-- The order of the lists does not matter. -/
theorem includes_order (d d' : Directories) (hi : ∀ x, x ∈ d.incl ↔ x ∈ d'.incl) (he : ∀ x, x ∈ d.excl ↔ x ∈ d'.excl) (path : APath) :
    d.containsDir path = d'.containsDir path := by
  rw [Bool.eq_iff_iff, includes_iff, includes_iff]
  simp only [hi, he]

example : (Directories.mk [['s', 'p']] [[['a']], [['a'], ['b'], ['c']]] [[['a'], ['b']]]).containsFile
    [['a'], ['b'], ['c'], ['x', '.', 's', 'p']] = true := by decide
example : (Directories.mk [['s', 'p']] [[['a'], ['b'], ['c']], [['a']]] [[['a'], ['b']]]).containsFile
    [['a'], ['b'], ['x', '.', 's', 'p']] = false := by decide

/-! ### C09 -/

theorem splitSlash_ne_nil (p : Str) : splitSlash p ≠ [] := by
  induction p with
  | nil => simp [splitSlash]
  | cons c cs ih =>
    simp only [splitSlash]
    split
    · simp
    · split <;> simp

theorem splitSlash_noslash (s : Str) (h : '/' ∉ s) : splitSlash s = [s] := by
  induction s with
  | nil => rfl
  | cons c cs ih =>
    simp only [List.mem_cons, not_or] at h
    simp [splitSlash, Ne.symm h.1, ih h.2]

theorem splitSlash_append (s r : Str) (h : '/' ∉ s) : splitSlash (s ++ '/' :: r) = s :: splitSlash r := by
  induction s with
  | nil => simp [splitSlash]
  | cons c cs ih =>
    simp only [List.mem_cons, not_or] at h
    simp [splitSlash, Ne.symm h.1, ih h.2]

theorem mem_splitSlash (p : Str) : ∀ s ∈ splitSlash p, '/' ∉ s := by
  induction p with
  | nil => simp [splitSlash]
  | cons c cs ih =>
    intro s hs
    simp only [splitSlash] at hs
    split at hs
    · rcases List.mem_cons.1 hs with rfl | hs
      · simp
      · exact ih s hs
    · next hc =>
      split at hs
      · next h => exact absurd h (splitSlash_ne_nil cs)
      · next q qs h =>
        rcases List.mem_cons.1 hs with rfl | hs
        · simp [Ne.symm hc, ih q (by rw [h]; exact List.mem_cons_self)]
        · exact ih s (by rw [h]; exact List.mem_cons_of_mem _ hs)

/-- `absPath` of names as pieces. -/
theorem splitSlash_virtual (names : List Str) (h : ∀ s ∈ names, '/' ∉ s) : splitSlash (virtual names) = [] :: names := by
  induction names with
  | nil => rfl
  | cons s ns ih =>
    have ih := ih (fun x hx => h x (List.mem_cons_of_mem _ hx))
    have hs := h s List.mem_cons_self
    simp only [virtual, List.flatMap_cons, List.cons_append] at ih ⊢
    rw [splitSlash]
    simp only [if_true]
    cases ns with
    | nil => simp [splitSlash_noslash s hs]
    | cons t ns =>
      simp only [List.flatMap_cons, List.cons_append] at ih ⊢
      rw [splitSlash_append _ _ hs]
      rw [splitSlash] at ih
      simp only [if_true, List.cons.injEq, true_and] at ih
      rw [ih]

/-- The buffer during the loop is an absolute path in normal form. -/
theorem push_abs (names : List Str) (s : Str) (hn : ∀ x ∈ names, IsName x) :
    push (absPath names) s = absPath (names ++ [s]) := by
  rcases nil_or_concat names with rfl | ⟨init, l, rfl⟩
  · simp [absPath, push]
  · have hl := hn l (by simp)
    have : (absPath (init ++ [l])).getLast? ≠ some '/' := by
      simp only [absPath, List.append_eq_nil_iff, List.cons_ne_nil, and_false, if_false, List.flatMap_append, List.flatMap_cons,
        List.flatMap_nil, List.append_nil]
      obtain ⟨x, xs, hx⟩ : ∃ x xs, l = xs ++ [x] := by
        rcases nil_or_concat l with h | ⟨xs, x, h⟩
        · exact absurd h hl.1
        · exact ⟨x, xs, h⟩
      rw [hx, ← List.cons_append, ← List.append_assoc, List.getLast?_concat]
      intro he
      simp only [Option.some.injEq] at he
      exact hl.2.1 (by rw [hx, he]; simp)
    have hne : absPath (init ++ [l]) ≠ [] := by simp [absPath]
    simp only [push, hne, this, or_self, if_false]
    simp [absPath]

theorem dropWhile_rev (s r : Str) (h : '/' ∉ s) :
    ((r ++ '/' :: s).reverse.dropWhile (fun c => decide (c ≠ '/'))) = '/' :: r.reverse := by
  simp only [List.reverse_append, List.reverse_cons, List.append_assoc]
  rw [List.dropWhile_append_of_pos]
  · simp
  · intro x hx
    simp only [decide_eq_true_eq]
    rintro rfl
    exact h (by simpa using hx)

theorem pop_abs (names : List Str) (hn : ∀ x ∈ names, IsName x) : pop (absPath names) = absPath names.dropLast := by
  rcases nil_or_concat names with rfl | ⟨init, l, rfl⟩
  · simp [absPath, pop]
  · have hl := hn l (by simp)
    simp only [List.dropLast_concat]
    have habs : absPath (init ++ [l]) = virtual init ++ '/' :: l := by simp [absPath, virtual]
    have hne : absPath (init ++ [l]) ≠ ['/'] := by
      rw [habs]
      intro he
      rcases List.append_eq_singleton_iff.1 he with ⟨_, h⟩ | ⟨_, h⟩
      · simp only [List.cons.injEq, true_and] at h; exact hl.1 h
      · simp at h
    simp only [pop, hne, if_false]
    rw [habs, dropWhile_rev _ _ hl.2.1]
    cases init with
    | nil => simp [virtual, absPath]
    | cons a b =>
      have hv : virtual (a :: b) = absPath (a :: b) := by simp [virtual, absPath]
      rw [hv]
      have hne : (absPath (a :: b)).reverse ≠ [] := by simp [absPath]
      generalize h : absPath (a :: b) = z at hne ⊢
      cases hr : z.reverse with
      | nil => exact absurd hr hne
      | cons x xs =>
        simp only
        rw [← hr, List.reverse_reverse]

theorem foldl_norm (pieces : List Str) (hp : ∀ s ∈ pieces, '/' ∉ s) : ∀ names : List Str, (∀ x ∈ names, IsName x) →
    (pieces.filterMap compOf).foldl normStep (absPath names) = absPath (pieces.foldl walk1 names) ∧
      (∀ x ∈ pieces.foldl walk1 names, IsName x) := by
  induction pieces with
  | nil => intro names hn; exact ⟨rfl, hn⟩
  | cons s ps ih =>
    intro names hn
    have ih := ih (fun x hx => hp x (List.mem_cons_of_mem _ hx))
    have hs := hp s List.mem_cons_self
    simp only [List.foldl_cons, walk1]
    by_cases h1 : s = [] ∨ s = ['.']
    · have : compOf s = none := by simp [compOf, h1]
      simp only [List.filterMap_cons, this, h1, if_true]
      exact ih names hn
    · by_cases h2 : s = ['.', '.']
      · have : compOf s = some .parentDir := by simp [compOf, h2]
        subst h2
        simp only [List.filterMap_cons, this, h1, if_false, if_true, List.foldl_cons, normStep]
        rw [pop_abs names hn]
        exact ih _ (fun x hx => hn x (List.dropLast_subset _ hx))
      · have : compOf s = some (.normal s) := by simp [compOf, h1, h2]
        simp only [List.filterMap_cons, this, h1, if_false, h2, List.foldl_cons, normStep]
        have hname : IsName s := ⟨fun h => h1 (Or.inl h), hs, fun h => h1 (Or.inr h), h2⟩
        rw [push_abs names s hn]
        apply ih
        intro x hx
        rcases List.mem_append.1 hx with hx | hx
        · exact hn x hx
        · simp only [List.mem_singleton] at hx; exact hx ▸ hname

theorem components_abs (r : Str) : components ('/' :: r) = .rootDir :: (splitSlash r).filterMap compOf := by
  simp [components]

theorem walk_abs (r : Str) : walk ('/' :: r) = (splitSlash r).foldl walk1 [] := by
  simp [walk, splitSlash, walk1]

/-- **C09**. Normalising an absolute path gives the absolute path whose pieces are proper names (no empty piece, no `.`, no
`..`) and that leads to the same place; `..` at the root stays at the root. -/
theorem normalize_correct (r : Str) :
    normalizePath ('/' :: r) = absPath (walk ('/' :: r)) ∧ ∀ s ∈ walk ('/' :: r), IsName s := by
  have := foldl_norm (splitSlash r) (mem_splitSlash r) [] (by simp)
  rw [walk_abs]
  refine ⟨?_, this.2⟩
  simp only [normalizePath, components_abs, List.foldl_cons, normStep]
  simpa [absPath] using this.1

theorem walk_names (names : List Str) (h : ∀ s ∈ names, IsName s) : ∀ acc, names.foldl walk1 acc = acc ++ names := by
  induction names with
  | nil => intro acc; simp
  | cons s ns ih =>
    intro acc
    have hs := h s List.mem_cons_self
    have : walk1 acc s = acc ++ [s] := by simp [walk1, hs.1, hs.2.2.1, hs.2.2.2]
    rw [List.foldl_cons, this, ih (fun x hx => h x (List.mem_cons_of_mem _ hx))]
    simp

/-- The place a normal form leads to. -/
theorem walk_absPath (names : List Str) (h : ∀ s ∈ names, IsName s) : walk (absPath names) = names := by
  cases names with
  | nil => simp [absPath, walk, splitSlash, walk1]
  | cons a b =>
    have : absPath (a :: b) = virtual (a :: b) := by simp [virtual, absPath]
    rw [this, walk, splitSlash_virtual _ (fun s hs => (h s hs).2.1), List.foldl_cons]
    have : walk1 [] [] = [] := by simp [walk1]
    rw [this, walk_names _ h]; simp

theorem absPath_cons (names : List Str) : ∃ r, absPath names = '/' :: r := by
  cases names with
  | nil => exact ⟨[], rfl⟩
  | cons a b => exact ⟨a ++ b.flatMap (fun s => '/' :: s), by simp [absPath]⟩

/-- **C09, same place and idempotence**. Normalisation keeps the place, and normalising twice is normalising once. -/
theorem normalize_idempotent (r : Str) :
    walk (normalizePath ('/' :: r)) = walk ('/' :: r) ∧
      normalizePath (normalizePath ('/' :: r)) = normalizePath ('/' :: r) := by
  obtain ⟨h1, h2⟩ := normalize_correct r
  have hw : walk (normalizePath ('/' :: r)) = walk ('/' :: r) := by rw [h1, walk_absPath _ h2]
  refine ⟨hw, ?_⟩
  obtain ⟨r', hr'⟩ := absPath_cons (walk ('/' :: r))
  have h3 : normalizePath ('/' :: r) = '/' :: r' := by rw [h1, hr']
  rw [h3] at hw ⊢
  rw [(normalize_correct r').1, hw, ← h1, h3]

/-- **C09, comparison by normal form**. Two absolute paths normalise to the same path iff they lead to the same place. -/
theorem normalize_eq_iff (r s : Str) :
    normalizePath ('/' :: r) = normalizePath ('/' :: s) ↔ walk ('/' :: r) = walk ('/' :: s) := by
  constructor
  · intro h
    rw [← (normalize_idempotent r).1, ← (normalize_idempotent s).1, h]
  · intro h
    rw [(normalize_correct r).1, (normalize_correct s).1, h]

example : normalizePath "/a/../../b/.//c//".toList = "/b/c".toList := by decide

/-! ### C10 -/

theorem splitLast_eq {c : Char} {s a b : Str} : splitLast c s = some (a, b) ↔ s = a ++ c :: b ∧ c ∉ b := by
  induction s generalizing a b with
  | nil => simp [splitLast]
  | cons x xs ih =>
    simp only [splitLast]
    cases h : splitLast c xs with
    | some ab =>
      obtain ⟨a', b'⟩ := ab
      simp only [Option.some.injEq, Prod.mk.injEq]
      have h' := ih.1 h
      constructor
      · rintro ⟨rfl, rfl⟩; exact ⟨by simp [h'.1], h'.2⟩
      · rintro ⟨he, hb⟩
        cases a with
        | nil =>
          simp only [List.nil_append, List.cons.injEq] at he
          rw [← he.2, h'.1] at hb; simp at hb
        | cons y ys =>
          simp only [List.cons_append, List.cons.injEq] at he
          have := ih.2 ⟨he.2, hb⟩
          rw [h] at this
          simp only [Option.some.injEq, Prod.mk.injEq] at this
          exact ⟨by rw [he.1, this.1], this.2⟩
    | none =>
      by_cases hx : x = c
      · simp only [hx, if_true, Option.some.injEq, Prod.mk.injEq]
        constructor
        · rintro ⟨rfl, rfl⟩
          refine ⟨rfl, ?_⟩
          intro hc
          obtain ⟨u, w, hw, hn⟩ : ∃ u w, xs = u ++ c :: w ∧ c ∉ w := by
            clear ih h
            induction xs with
            | nil => simp at hc
            | cons z zs ihz =>
              by_cases hz : c ∈ zs
              · obtain ⟨u, w, h1, h2⟩ := ihz hz
                exact ⟨z :: u, w, by simp [h1], h2⟩
              · have : c = z := by simpa [hz] using hc
                exact ⟨[], zs, by simp [this], hz⟩
          have := ih.2 ⟨hw, hn⟩
          rw [h] at this; simp at this
        · rintro ⟨he, hb⟩
          cases a with
          | nil => simp only [List.nil_append, List.cons.injEq, true_and] at he; exact ⟨rfl, he⟩
          | cons y ys =>
            simp only [List.cons_append, List.cons.injEq] at he
            have := ih.2 ⟨he.2, hb⟩
            rw [h] at this; simp at this
      · simp only [hx, if_false]
        constructor
        · intro h; simp at h
        · rintro ⟨he, hb⟩
          cases a with
          | nil => simp only [List.nil_append, List.cons.injEq] at he; exact absurd he.1 hx
          | cons y ys =>
            simp only [List.cons_append, List.cons.injEq] at he
            have := ih.2 ⟨he.2, hb⟩
            rw [h] at this; simp at this

theorem splitLast_none {c : Char} {s : Str} : splitLast c s = none ↔ c ∉ s := by
  constructor
  · intro h hc
    obtain ⟨u, w, hw, hn⟩ : ∃ u w, s = u ++ c :: w ∧ c ∉ w := by
      clear h
      induction s with
      | nil => simp at hc
      | cons z zs ihz =>
        by_cases hz : c ∈ zs
        · obtain ⟨u, w, h1, h2⟩ := ihz hz
          exact ⟨z :: u, w, by simp [h1], h2⟩
        · have : c = z := by simpa [hz] using hc
          exact ⟨[], zs, by simp [this], hz⟩
    rw [splitLast_eq.2 ⟨hw, hn⟩] at h; simp at h
  · intro h
    cases hs : splitLast c s with
    | none => rfl
    | some ab =>
      obtain ⟨a, b⟩ := ab
      exact absurd (by rw [(splitLast_eq.1 hs).1]; simp) h

/-- **C10, parent**. The parent of a virtual path is the path without its last component; the empty path has none. -/
theorem parent_correct (names : List Str) (h : ∀ s ∈ names, '/' ∉ s) :
    vpop (virtual names) = if names = [] then none else some (virtual names.dropLast) := by
  rcases nil_or_concat names with rfl | ⟨init, l, rfl⟩
  · rfl
  · have hl := h l (by simp)
    have : splitLast '/' (virtual (init ++ [l])) = some (virtual init, l) :=
      splitLast_eq.2 ⟨by simp [virtual], hl⟩
    simp [vpop, this]

/-- `n` times `../`. -/
def ups (n : Nat) : Str := (List.replicate n "../".toList).flatten

/-- **C10, join**. `p.join("../" * n + rest)` drops `n` components of `p` and appends `rest`, or fails if `p` has fewer than
`n` components; leading `./` of `rest` are removed. -/
theorem join_correct (names : List Str) (h : ∀ s ∈ names, '/' ∉ s) (n : Nat) (rest : Str)
    (hrest : ¬ ("../".toList <+: rest)) :
    vjoin (virtual names) (ups n ++ rest) =
      if n ≤ names.length then some (virtual (names.take (names.length - n)) ++ '/' :: trimDotSlash rest) else none := by
  induction n generalizing names with
  | zero =>
    simp only [ups, List.replicate_zero, List.flatten_nil, List.nil_append, Nat.zero_le, if_true, Nat.sub_zero, List.take_length]
    unfold vjoin
    split
    · next r => exact absurd ⟨r, rfl⟩ hrest
    · rfl
  | succ n ih =>
    have : ups (n + 1) ++ rest = '.' :: '.' :: '/' :: (ups n ++ rest) := by
      simp [ups, List.replicate_succ]
    rw [this, vjoin, parent_correct names h]
    by_cases hn : names = []
    · subst hn; simp
    · simp only [hn, if_false]
      rw [ih _ (fun s hs => h s (List.dropLast_subset _ hs))]
      have hlen := List.length_pos_iff.2 hn
      simp only [List.length_dropLast]
      by_cases hle : n + 1 ≤ names.length
      · have h2 : n ≤ names.length - 1 := by omega
        simp only [hle, h2, if_true]
        have : names.dropLast.take (names.length - 1 - n) = names.take (names.length - (n + 1)) := by
          rw [List.dropLast_eq_take, List.take_take]
          congr 1; omega
        rw [this]
      · have h2 : ¬ n ≤ names.length - 1 := by omega
        simp only [hle, h2, if_false]

theorem trimDotSlash_id (s : Str) (h : ¬ ("./".toList <+: s)) : trimDotSlash s = s := by
  unfold trimDotSlash
  split
  · next r => exact absurd ⟨r, rfl⟩ h
  · rfl

/-- **C10, name and extension**. For a path whose last component is `l`, the file name splits into stem and extension at
its last dot (unless that is its first character or there is none), and the pieces recombine to it. -/
theorem name_correct (init : Str) (l : Str) (hl : l ≠ []) (hs : '/' ∉ l) :
    match nameAndExtension (init ++ '/' :: l) with
    | none => False
    | some (stem, none) => stem = l ∧ (∀ a b, l = a ++ '.' :: b → a = [] )
    | some (stem, some ext) => l = stem ++ '.' :: ext ∧ '.' ∉ ext ∧ stem ≠ [] := by
  have hlast : (init ++ '/' :: l).getLast? ≠ some '/' := by
    obtain ⟨x, xs, hx⟩ : ∃ x xs, l = xs ++ [x] := by
      rcases nil_or_concat l with h | ⟨xs, x, h⟩
      · exact absurd h hl
      · exact ⟨x, xs, h⟩
    rw [hx, ← List.cons_append, ← List.append_assoc, List.getLast?_concat]
    intro he
    simp only [Option.some.injEq] at he
    exact hs (by rw [hx, he]; simp)
  have hsp : splitLast '/' (init ++ '/' :: l) = some (init, l) := splitLast_eq.2 ⟨rfl, hs⟩
  simp only [nameAndExtension, hlast, if_false, hsp, hl]
  cases hd : splitLast '.' l with
  | none =>
    simp only
    refine ⟨trivial, ?_⟩
    intro a b he
    exact absurd (by rw [he]; simp) (splitLast_none.1 hd)
  | some ab =>
    obtain ⟨a, b⟩ := ab
    have h := splitLast_eq.1 hd
    cases a with
    | nil =>
      simp only
      refine ⟨trivial, ?_⟩
      intro a' b' he
      cases a' with
      | nil => rfl
      | cons y ys =>
        rw [h.1] at he
        simp only [List.nil_append, List.cons_append, List.cons.injEq] at he
        exact absurd (by rw [he.2]; simp) h.2
    | cons x xs => exact ⟨h.1, h.2, by simp⟩

/-- A trailing slash is ignored. -/
theorem name_trailing_slash (p : Str) (h : p.getLast? ≠ some '/') : nameAndExtension (p ++ ['/']) = nameAndExtension p := by
  simp [nameAndExtension, h]

/-- **C10, refuted for the prefix test**. The prefix test compares strings, not components: `/foobar` "starts with"
`/foo`. -/
theorem prefix_refuted :
    vstartsWith "/foobar".toList "/foo".toList = true ∧
      virtual ["foobar".toList] = "/foobar".toList ∧ virtual ["foo".toList] = "/foo".toList ∧
      ¬ (["foo".toList] <+: ["foobar".toList]) := by decide

/-- **C10, prefix test, partial**. Component-wise prefixes always pass the test; a path that passes the test is the prefix
followed by a separator, or equal, or merely a longer name (the missing case, refuted above). -/
theorem prefix_partial (a b : List Str) (h : a <+: b) : vstartsWith (virtual b) (virtual a) = true := by
  obtain ⟨c, rfl⟩ := h
  simp [vstartsWith, virtual, List.flatMap_append]

/-- **C10, refuted for `..` after `.`**. A `..` that comes after a leading `./` is not resolved. -/
theorem join_dot_dotdot_refuted : vjoin "/a/b".toList "./../c".toList = some "/a/b/../c".toList := by decide

example : vjoin "/foo/bar".toList "../baz.rs".toList = some "/foo/baz.rs".toList := by decide
example : vjoin (virtual ["foo".toList]) (ups 2 ++ "x".toList) = none := by decide

/-! ### Extensions of watched files -/

/-- Two ways to cut at a last dot are the same. -/
theorem cut_unique {c : Char} {a b a' b' : Str} (h : a ++ c :: b = a' ++ c :: b') (hb : c ∉ b) (hb' : c ∉ b') : a = a' ∧ b = b' := by
  have h1 := (splitLast_eq (c := c) (s := a ++ c :: b)).2 ⟨rfl, hb⟩
  have h2 := (splitLast_eq (c := c) (s := a ++ c :: b)).2 ⟨h, hb'⟩
  rw [h1] at h2
  simpa using h2

theorem extension_iff (path : APath) (ext : Str) :
    (extension path).getD [] = ext ↔ (∃ name, path.getLast? = some name ∧ IsExtension name ext) ∨ (path = [] ∧ ext = []) := by
  unfold extension
  cases hl : path.getLast? with
  | none =>
    have : path = [] := by simpa using hl
    simp [this, eq_comm]
  | some name =>
    have hne : path ≠ [] := by rintro rfl; simp at hl
    simp only [hne, false_and, or_false, Option.some.injEq, exists_eq_left']
    by_cases hd : name = ['.', '.']
    · simp [hd, IsExtension, eq_comm]
    · simp only [hd, if_false]
      cases hs : splitLast '.' name with
      | none =>
        have hn := splitLast_none.1 hs
        constructor
        · intro h
          exact Or.inr ⟨fun stem e _ _ h => absurd (by rw [h]; simp) hn, by simpa [eq_comm] using h⟩
        · rintro (⟨stem, -, -, h, -⟩ | h)
          · exact absurd (by rw [h]; simp) hn
          · simp [h.2]
      | some ab =>
        obtain ⟨a, b⟩ := ab
        obtain ⟨h1, h2⟩ := splitLast_eq.1 hs
        cases a with
        | nil =>
          constructor
          · intro h
            refine Or.inr ⟨fun stem e hst _ h => ?_, by simpa [eq_comm] using h⟩
            refine Classical.byContradiction fun hne => ?_
            have := cut_unique (h1.symm.trans h) h2 hne
            exact hst this.1.symm
          · rintro (⟨stem, hst, -, h, hb⟩ | h)
            · exact absurd (cut_unique (h1.symm.trans h) h2 hb).1.symm hst
            · simp [h.2]
        | cons x xs =>
          constructor
          · intro h
            simp at h
            subst h
            exact Or.inl ⟨x :: xs, by simp, hd, h1, h2⟩
          · rintro (⟨stem, hst, -, h, hb⟩ | h)
            · have := (cut_unique (h1.symm.trans h) h2 hb).2
              simp [this]
            · exact absurd (h.1 (x :: xs) b (by simp) hd h1) h2

/-- **C08, files**. A file is watched iff its directory is and its extension is one of the given ones. -/
theorem contains_file_correct (d : Directories) (path : APath) :
    d.containsFile path = true ↔
      (∃ ext ∈ d.extensions, (∃ name, path.getLast? = some name ∧ IsExtension name ext) ∨ (path = [] ∧ ext = [])) ∧
      d.containsDir path = true := by
  rw [contains_file_iff]
  constructor
  · rintro ⟨h1, h2⟩
    exact ⟨⟨_, h1, (extension_iff path _).1 rfl⟩, h2⟩
  · rintro ⟨⟨e, h1, h2⟩, h3⟩
    rw [(extension_iff path e).2 h2]
    exact ⟨h1, h3⟩

/-- Non-vacuity: `a.tar.sp` has the extension `sp`, `.sp` has none. -/
example : IsExtension "a.tar.sp".toList "sp".toList ∧ IsExtension ".sp".toList [] := by
  constructor
  · exact Or.inl ⟨"a.tar".toList, by decide, by decide, by decide, by decide⟩
  · refine Or.inr ⟨?_, rfl⟩
    intro stem e hs _ h
    refine Classical.byContradiction fun hne => ?_
    have := cut_unique (a := []) (b := "sp".toList) (c := '.') h (by decide) hne
    exact hs this.1.symm

end Verif.Props.Paths
