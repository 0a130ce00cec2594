import Verif.Vfs.Loader
import Verif.Vfs.Spec
import Verif.Props.Paths
import Mathlib.Data.List.Nodup
/-! # C63, C67: the loader finds exactly the files of the workspace; its own watcher misses deletions -/

namespace Verif.Props.Loader
open Verif.Paths Verif.Vfs.Loader Verif.Vfs.Loader.Spec
open Verif.Vfs (Op)

theorem has_names {es : Entries} {s : Str} {m : Node} : Has es s m → s ∈ names es := by
  match es with
  | .nil => exact fun h => h.elim
  | .cons t n r =>
    intro h
    rcases h with ⟨rfl, -⟩ | h
    · exact List.mem_cons_self
    · exact List.mem_cons_of_mem _ (has_names h)

theorem find_has {es : Entries} {s : Str} {m : Node} : es.find s = some m → Has es s m := by
  match es with
  | .nil => intro h; simp [Entries.find] at h
  | .cons t n r =>
    simp only [Entries.find, Has]
    split
    · intro h; simp only [Option.some.injEq] at h; exact Or.inl ⟨by assumption, h⟩
    · intro h; exact Or.inr (find_has h)

theorem has_find {es : Entries} {s : Str} {m : Node} (hp : (names es).Nodup) : Has es s m → es.find s = some m := by
  match es with
  | .nil => exact fun h => h.elim
  | .cons t n r =>
    simp only [names, List.nodup_cons] at hp
    simp only [Entries.find, Has]
    rintro (⟨rfl, rfl⟩ | h)
    · simp
    · rw [if_neg (by rintro rfl; exact hp.1 (has_names h))]; exact has_find hp.2 h

theorem has_proper {es : Entries} {s : Str} {m : Node} (hp : ProperAll es) : Has es s m → Proper m := by
  match es with
  | .nil => exact fun h => h.elim
  | .cons t n r =>
    rintro (⟨rfl, rfl⟩ | h)
    · exact hp.1
    · exact has_proper hp.2 h

theorem lookup_at {n m : Node} {p : APath} (h : n.lookup p = some m) : At n p m := by
  induction p generalizing n with
  | nil => simp only [Node.lookup, Option.some.injEq] at h; subst h; exact At.here _
  | cons s p ih =>
    cases n with
    | file c => simp [Node.lookup] at h
    | dir es =>
      simp only [Node.lookup, Option.bind_eq_some_iff] at h
      obtain ⟨k, h1, h2⟩ := h
      exact At.there (find_has h1) (ih h2)

theorem at_lookup {n m : Node} {p : APath} (hp : Proper n) (h : At n p m) : n.lookup p = some m := by
  induction h with
  | here n => rfl
  | there hh _ ih =>
    simp only [Node.lookup, has_find hp.1 hh, Option.bind_some]
    exact ih (has_proper hp.2 hh)

theorem at_append {n m : Node} {p q : APath} : At n (p ++ q) m ↔ ∃ k, At n p k ∧ At k q m := by
  induction p generalizing n with
  | nil =>
    constructor
    · intro h; exact ⟨n, At.here _, h⟩
    · rintro ⟨k, h1, h2⟩; cases h1; exact h2
  | cons s p ih =>
    constructor
    · intro h
      cases h with
      | there hh ht => obtain ⟨k, h1, h2⟩ := ih.1 ht; exact ⟨k, At.there hh h1, h2⟩
    · rintro ⟨k, h1, h2⟩
      cases h1 with
      | there hh ht => exact At.there hh (ih.2 ⟨k, ht, h2⟩)

/-- The directories passed on the way to `q`, from `root` on, are all entered. -/
def Passes (d : Directories) (root path r : APath) : Prop :=
  ∀ r1 r2, r = r1 ++ r2 → r2 ≠ [] → enter d root (path ++ r1) = true

mutual
theorem mem_walkNode (d : Directories) (root path : APath) (n : Node) (q : APath) :
    q ∈ walkNode d root path n ↔
      ∃ r c, At n r (.file c) ∧ q = path ++ r ∧ wanted d q = true ∧ Passes d root path r := by
  match n with
  | .file c =>
    simp only [walkNode]
    constructor
    · intro h
      split at h
      · rename_i hw
        simp only [List.mem_singleton] at h
        subst h
        exact ⟨[], c, At.here _, by simp, hw, fun r1 r2 h h2 => by simp at h; exact absurd h.2 h2⟩
      · simp at h
    · rintro ⟨r, c', h, rfl, hw, -⟩
      cases h
      simp at hw
      simp [hw]
  | .dir es =>
    simp only [walkNode]
    constructor
    · intro h
      split at h
      · rename_i he
        obtain ⟨s, m, r, c, h1, h2, h3, h4, h5⟩ := (mem_walkEntries d root path es q).1 h
        refine ⟨s :: r, c, At.there h1 h2, h3, h4, ?_⟩
        intro r1 r2 hr hne
        cases r1 with
        | nil => simpa using he
        | cons a r1 =>
          simp only [List.cons_append, List.cons.injEq] at hr
          have := h5 r1 r2 hr.2 hne
          rw [hr.1] at this
          simpa using this
      · simp at h
    · rintro ⟨r, c, h, hq, hw, hp⟩
      cases h with
      | there hh ht =>
        rename_i s p m
        have he := hp [] (s :: p) rfl (by simp)
        rw [List.append_nil] at he
        rw [if_pos he]
        refine (mem_walkEntries d root path es q).2 ⟨s, m, p, c, hh, ht, hq, hw, ?_⟩
        intro r1 r2 hr hne
        have := hp (s :: r1) r2 (by simp [hr]) hne
        simpa using this
theorem mem_walkEntries (d : Directories) (root path : APath) (es : Entries) (q : APath) :
    q ∈ walkEntries d root path es ↔
      ∃ s m r c, Has es s m ∧ At m r (.file c) ∧ q = path ++ s :: r ∧ wanted d q = true ∧ Passes d root (path ++ [s]) r := by
  match es with
  | .nil => simp [walkEntries, Has]
  | .cons t n rest =>
    simp only [walkEntries, List.mem_append]
    rw [mem_walkNode d root (path ++ [t]) n q, mem_walkEntries d root path rest q]
    constructor
    · rintro (⟨r, c, h1, h2, h3, h4⟩ | ⟨s, m, r, c, h1, h2⟩)
      · exact ⟨t, n, r, c, Or.inl ⟨rfl, rfl⟩, h1, by simpa using h2, h3, h4⟩
      · exact ⟨s, m, r, c, Or.inr h1, h2⟩
    · rintro ⟨s, m, r, c, (⟨rfl, rfl⟩ | h1), h2, h3, h4⟩
      · exact Or.inl ⟨r, c, h2, by simpa using h3, h4⟩
      · exact Or.inr ⟨s, m, r, c, h1, h2, h3, h4⟩
end

theorem mem_walkRoot {d : Directories} {fs : Node} (hp : Proper fs) {root q : APath} :
    q ∈ walkRoot d fs root ↔ ∃ c, IsFile fs q c ∧ root <+: q ∧ wanted d q = true ∧
      ∀ x, root <+: x → x <+: q → x ≠ q → enter d root x = true := by
  unfold walkRoot
  constructor
  · intro h
    split at h
    · simp at h
    · rename_i n hn
      obtain ⟨r, c, h1, rfl, h3, h4⟩ := (mem_walkNode d root root n q).1 h
      refine ⟨c, at_append.2 ⟨n, lookup_at hn, h1⟩, List.prefix_append _ _, h3, ?_⟩
      rintro x ⟨y, rfl⟩ ⟨z, hz⟩ hne
      rw [List.append_assoc, List.append_cancel_left_eq] at hz
      refine h4 y z hz.symm ?_
      rintro rfl
      simp at hz
      simp [hz] at hne
  · rintro ⟨c, h1, ⟨r, rfl⟩, h3, h4⟩
    obtain ⟨k, hk, hr⟩ := at_append.1 h1
    rw [at_lookup hp hk]
    refine (mem_walkNode d root root k _).2 ⟨r, c, hr, rfl, h3, ?_⟩
    rintro r1 r2 rfl hne
    refine h4 _ (List.prefix_append _ _) (by rw [← List.append_assoc]; exact List.prefix_append _ _) ?_
    intro h
    simp only [List.append_cancel_left_eq] at h
    exact hne (by simpa using h.symm)

theorem wanted_iff {d : Directories} {q : APath} : wanted d q = true ↔ (extension q).getD [] ∈ d.extensions := by
  simp [wanted, List.all_eq_true]

theorem enter_iff {d : Directories} {root x : APath} : enter d root x = true ↔ root = x ∨ (x ∉ d.excl ∧ x ∉ d.incl) := by
  simp only [enter, Bool.or_eq_true, decide_eq_true_eq, List.all_eq_true, List.mem_append, ne_eq]
  constructor
  · rintro (h | h)
    · exact Or.inl h
    · exact Or.inr ⟨fun hx => h x (Or.inl hx) rfl, fun hx => h x (Or.inr hx) rfl⟩
  · rintro (h | h)
    · exact Or.inl h
    · refine Or.inr ?_
      rintro y (hy | hy) rfl
      · exact h.1 hy
      · exact h.2 hy

/-- Among the includes above a path there is a longest one. -/
theorem longest (l : List APath) (q : APath) (h : ∃ i ∈ l, i <+: q) :
    ∃ i ∈ l, i <+: q ∧ ∀ j ∈ l, j <+: q → j.length ≤ i.length := by
  have := Paths.choose_spec q l none (by simp)
  cases hc : chooseInclude q none l with
  | none => rw [hc] at this; obtain ⟨i, hi, hq⟩ := h; exact absurd hq (this.2 i hi)
  | some i =>
    rw [hc] at this
    exact ⟨i, by simpa using this.2.1, this.1, this.2.2.1⟩

theorem prefix_antisymm_len {a b q : APath} (ha : a <+: q) (hb : b <+: q) (hl : a.length ≤ b.length) : a <+: b :=
  List.prefix_of_prefix_length_le ha hb hl

theorem walk_iff {d : Directories} {fs : Node} (hp : Proper fs) (hs : Sensible d fs) {q : APath} :
    (∃ root ∈ d.incl, q ∈ walkRoot d fs root) ↔ ∃ c, IsFile fs q c ∧ d.containsFile q = true := by
  constructor
  · rintro ⟨root, hr, hq⟩
    obtain ⟨c, h1, h2, h3, h4⟩ := (mem_walkRoot hp).1 hq
    refine ⟨c, h1, (Paths.contains_file_iff d q).2 ⟨wanted_iff.1 h3, (Paths.includes_iff d q).2 ⟨root, hr, h2, ?_⟩⟩⟩
    intro e he heq
    rcases Nat.lt_or_ge e.length root.length with hl | hl
    · exact hl
    · have hre : root <+: e := prefix_antisymm_len h2 heq hl
      by_cases hne : e = q
      · subst hne; exact absurd (wanted_iff.1 h3) (hs.2 e he c h1)
      · rcases enter_iff.1 (h4 e hre heq hne) with rfl | h
        · exact absurd he (hs.1 root hr)
        · exact absurd he h.1
  · rintro ⟨c, h1, h2⟩
    obtain ⟨hw, hi⟩ := (Paths.contains_file_iff d q).1 h2
    obtain ⟨i, hi, hiq, hlt⟩ := (Paths.includes_iff d q).1 hi
    obtain ⟨k, hk, hkq, hmax⟩ := longest d.incl q ⟨i, hi, hiq⟩
    refine ⟨k, hk, (mem_walkRoot hp).2 ⟨c, h1, hkq, wanted_iff.2 hw, ?_⟩⟩
    intro x hkx hxq hne
    rw [enter_iff]
    by_cases hxk : k = x
    · exact Or.inl hxk
    · refine Or.inr ⟨fun hx => ?_, fun hx => ?_⟩
      · have := hlt x hx hxq
        have := hmax i hi hiq
        have := hkx.length_le
        omega
      · have h5 := hmax x hx hxq
        exact hxk (hkx.eq_of_length (Nat.le_antisymm hkx.length_le h5))

theorem read_file {fs : Node} (hp : Proper fs) {q : APath} {c : Option Bytes} (h : IsFile fs q c) : Vfs.Loader.read fs q = c := by
  simp [Vfs.Loader.read, at_lookup hp h]

theorem mem_load {d : Directories} {fs : Node} (hp : Proper fs) {q : APath} {c : Option Bytes} :
    (q, c) ∈ loadEntry fs (.directories d) ↔ (∃ root ∈ d.incl, q ∈ walkRoot d fs root) ∧ IsFile fs q c := by
  simp only [loadEntry, List.mem_flatMap, List.mem_map, Prod.mk.injEq]
  constructor
  · rintro ⟨root, hr, p, hpw, rfl, rfl⟩
    refine ⟨⟨root, hr, hpw⟩, ?_⟩
    obtain ⟨c, h1, -⟩ := (mem_walkRoot hp).1 hpw
    rw [read_file hp h1]
    exact h1
  · rintro ⟨⟨root, hr, hw⟩, hc⟩
    exact ⟨root, hr, q, hw, rfl, read_file hp hc⟩

/-- **C63, any directories.** The loader delivers exactly the files for which the watcher's decision `contains_file` (see
C08) says yes, with their contents, if the configuration makes sense. -/
theorem load_iff_contains_partial (d : Directories) (fs : Node) (hp : Proper fs) (hs : Sensible d fs) (q : APath)
    (c : Option Bytes) :
    (q, c) ∈ loadEntry fs (.directories d) ↔ IsFile fs q c ∧ (Entry.directories d).containsFile q = true := by
  rw [mem_load hp, walk_iff hp hs]
  constructor
  · rintro ⟨⟨-, -, h⟩, hc⟩; exact ⟨hc, h⟩
  · rintro ⟨hc, h⟩; exact ⟨⟨c, hc, h⟩, hc⟩

/-! ### Each file once -/

theorem at_fun {n m m' : Node} {p : APath} (hp : Proper n) (h : At n p m) (h' : At n p m') : m = m' := by
  have := (at_lookup hp h).symm.trans (at_lookup hp h')
  exact Option.some.inj this

mutual
theorem nodup_walkNode (d : Directories) (root path : APath) (n : Node) (hp : Proper n) :
    (walkNode d root path n).Nodup := by
  match n with
  | .file c => simp only [walkNode]; split <;> simp
  | .dir es =>
    simp only [walkNode]
    split
    · exact nodup_walkEntries d root path es hp.1 hp.2
    · simp
theorem nodup_walkEntries (d : Directories) (root path : APath) (es : Entries) (hn : (names es).Nodup) (hp : ProperAll es) :
    (walkEntries d root path es).Nodup := by
  match es with
  | .nil => simp [walkEntries]
  | .cons s n r =>
    simp only [names, List.nodup_cons] at hn
    simp only [walkEntries]
    refine List.nodup_append.2 ⟨nodup_walkNode d root _ n hp.1, nodup_walkEntries d root path r hn.2 hp.2, ?_⟩
    intro a ha b hb hab
    subst hab
    obtain ⟨r1, -, -, h1, -⟩ := (mem_walkNode d root _ n a).1 ha
    obtain ⟨s', m, r2, -, hh, -, h2, -⟩ := (mem_walkEntries d root path r a).1 hb
    rw [h1, List.append_assoc, List.append_cancel_left_eq] at h2
    simp only [List.singleton_append, List.cons.injEq] at h2
    exact hn.1 (h2.1 ▸ has_names hh)
end

theorem nodup_walkRoot (d : Directories) (fs : Node) (hp : Proper fs) (root : APath) : (walkRoot d fs root).Nodup := by
  unfold walkRoot
  split
  · simp
  · rename_i n hn
    refine nodup_walkNode d root root n ?_
    have key : ∀ (p : APath) (k : Node), Proper k → k.lookup p = some n → Proper n := by
      intro p
      induction p with
      | nil => intro k hk h; simp only [Node.lookup, Option.some.injEq] at h; exact h ▸ hk
      | cons s p ih =>
        intro k hk h
        cases k with
        | file c => simp [Node.lookup] at h
        | dir es =>
          simp only [Node.lookup, Option.bind_eq_some_iff] at h
          obtain ⟨k, h1, h2⟩ := h
          exact ih k (has_proper hk.2 (find_has h1)) h2
    exact key root fs hp hn

theorem walks_disjoint {d : Directories} {fs : Node} (hp : Proper fs) (hf : ∀ i ∈ d.incl, ∀ c, ¬ IsFile fs i c)
    {r r' q : APath} (hr' : r' ∈ d.incl) (hne : r ≠ r') (hl : r.length ≤ r'.length)
    (h : q ∈ walkRoot d fs r) (h' : q ∈ walkRoot d fs r') : False := by
  obtain ⟨c, h1, h2, -, h4⟩ := (mem_walkRoot hp).1 h
  obtain ⟨-, -, h2', -⟩ := (mem_walkRoot hp).1 h'
  have hrr := prefix_antisymm_len h2 h2' hl
  by_cases hq : r' = q
  · subst hq; exact hf r' hr' c h1
  · rcases enter_iff.1 (h4 r' hrr h2' hq) with rfl | h
    · exact hne rfl
    · exact h.2 hr'

theorem map_fst_load (d : Directories) (fs : Node) :
    (loadEntry fs (.directories d)).map Prod.fst = d.incl.flatMap (walkRoot d fs) := by
  simp [loadEntry, List.map_flatMap, Function.comp_def]

/-- **C63, once.** No file is delivered twice, however the include directories are nested, as long as no directory is
listed twice and all of them are directories. -/
theorem load_once (d : Directories) (fs : Node) (hp : Proper fs) (hn : d.incl.Nodup)
    (hf : ∀ i ∈ d.incl, ∀ c, ¬ IsFile fs i c) : ((loadEntry fs (.directories d)).map Prod.fst).Nodup := by
  rw [map_fst_load]
  refine List.nodup_flatMap.2 ⟨fun r _ => nodup_walkRoot d fs hp r, ?_⟩
  refine List.Pairwise.imp_of_mem ?_ hn
  intro a b ha hb hne
  simp only [Function.onFun]
  intro q hq hq'
  rcases Nat.le_total a.length b.length with hl | hl
  · exact walks_disjoint hp hf hb hne hl hq hq'
  · exact walks_disjoint hp hf ha (Ne.symm hne) hl hq' hq

/-! ### The folders of the server -/

theorem git_ext (base : APath) : extension (base ++ [".git".toList]) = none := by
  simp only [extension, List.getLast?_append, List.getLast?_singleton, Option.some_or]
  decide

theorem sensible_folder (base : APath) (fs : Node) :
    Sensible ⟨["sp".toList, "inc".toList], [base], [base ++ [".git".toList]]⟩ fs := by
  refine ⟨?_, ?_⟩
  · intro i hi he
    simp only [List.mem_singleton] at hi he
    subst hi
    exact absurd (congrArg List.length he) (by simp)
  · intro e he c _ hw
    simp only [List.mem_singleton] at he
    subst he
    rw [git_ext] at hw
    simp at hw

/-- **C63.** Loading a workspace or include folder delivers every `.sp` and `.inc` file below the folder that is not below
its `.git`, with what is on disk, and nothing else. -/
theorem folder_load_exact (fs : Node) (hp : Proper fs) (base q : APath) (c : Option Bytes) :
    (q, c) ∈ loadEntry fs (spFilesRecursively base) ↔
      IsFile fs q c ∧ base <+: q ∧ ¬ (base ++ [".git".toList]) <+: q ∧
      ∃ name, q.getLast? = some name ∧ (Paths.Spec.IsExtension name "sp".toList ∨ Paths.Spec.IsExtension name "inc".toList) := by
  unfold spFilesRecursively
  rw [load_iff_contains_partial _ fs hp (sensible_folder base fs)]
  simp only [Entry.containsFile]
  rw [Paths.contains_file_correct, Paths.includes_iff]
  simp only [List.mem_cons, List.not_mem_nil, or_false, exists_eq_or_imp, exists_eq_left, forall_eq]
  refine and_congr_right fun _ => ?_
  have hgit : (base <+: q ∧ (base ++ [".git".toList] <+: q → (base ++ [".git".toList]).length < base.length)) ↔
      (base <+: q ∧ ¬ base ++ [".git".toList] <+: q) := by
    refine and_congr_right fun _ => ⟨fun h h' => ?_, fun h h' => absurd h' h⟩
    have := h h'
    simp only [List.length_append, List.length_singleton] at this
    omega
  have hs : ("sp".toList : Str) ≠ [] := by decide
  have hi : ("inc".toList : Str) ≠ [] := by decide
  rw [hgit]
  simp only [hs, hi, and_false, or_false]
  constructor
  · rintro ⟨(⟨n, h1, h2⟩ | ⟨n, h1, h2⟩), h3, h4⟩
    · exact ⟨h3, h4, n, h1, Or.inl h2⟩
    · exact ⟨h3, h4, n, h1, Or.inr h2⟩
  · rintro ⟨h3, h4, n, h1, (h2 | h2)⟩
    · exact ⟨Or.inl ⟨n, h1, h2⟩, h3, h4⟩
    · exact ⟨Or.inr ⟨n, h1, h2⟩, h3, h4⟩

/-- **C63.** ... each of them once. -/
theorem folder_load_once (fs : Node) (hp : Proper fs) (base : APath) :
    ((loadEntry fs (spFilesRecursively base)).map Prod.fst).Nodup := by
  unfold spFilesRecursively
  rw [map_fst_load]
  simp only [List.flatMap_cons, List.flatMap_nil, List.append_nil]
  exact nodup_walkRoot _ fs hp base

/-- What is watched and what is loaded agree for the folders of the server. -/
theorem folder_watch_agrees (fs : Node) (hp : Proper fs) (base q : APath) (c : Option Bytes) :
    (q, c) ∈ loadEntry fs (spFilesRecursively base) ↔ IsFile fs q c ∧ (spFilesRecursively base).containsFile q = true :=
  load_iff_contains_partial _ fs hp (sensible_folder base fs) q c

/-- Lists of files: each is delivered with what is on disk, `none` if it is not there. -/
theorem files_load (fs : Node) (ps : List APath) (q : APath) (c : Option Bytes) :
    (q, c) ∈ loadEntry fs (.files ps) ↔ (Entry.files ps).containsFile q = true ∧ Vfs.Loader.read fs q = c := by
  simp only [loadEntry, List.mem_map, Prod.mk.injEq, Entry.containsFile, List.any_eq_true, decide_eq_true_eq]
  constructor
  · rintro ⟨p, h, rfl, h2⟩; exact ⟨⟨p, h, rfl⟩, h2⟩
  · rintro ⟨⟨p, h, rfl⟩, h2⟩; exact ⟨p, h, rfl, h2⟩

/-- A small file system: `/w/a.sp`, `/w/.git/b.sp`, `/w/d/c.inc`, `/w/d/readme`. -/
def sample : Node :=
  .dir (.cons "w".toList (.dir (.cons "a.sp".toList (.file (some [1]))
    (.cons ".git".toList (.dir (.cons "b.sp".toList (.file (some [2])) .nil))
    (.cons "d".toList (.dir (.cons "c.inc".toList (.file none) (.cons "readme".toList (.file (some [])) .nil))) .nil)))) .nil)

/-- Non-vacuity: the sample is a proper file system and the walk finds the two files. -/
example : Proper sample ∧ loadEntry sample (spFilesRecursively ["w".toList]) =
    [(["w".toList, "a.sp".toList], some [1]), (["w".toList, "d".toList, "c.inc".toList], none)] := by
  refine ⟨?_, by decide⟩
  simp only [sample, Proper, ProperAll, names]
  decide

/-- **C63 fails for arbitrary directories, 1.** A directory that is both included and excluded is loaded although it is
not watched. -/
theorem load_excluded_refuted :
    let d : Directories := ⟨["sp".toList], [["w".toList]], [["w".toList]]⟩
    (["w".toList, "a.sp".toList], some [1]) ∈ loadEntry sample (.directories d) ∧
      (Entry.directories d).containsFile ["w".toList, "a.sp".toList] = false := by
  decide

/-- **C63 fails for arbitrary directories, 2.** A file that is excluded by its own name is loaded. -/
theorem load_excluded_file_refuted :
    let d : Directories := ⟨["sp".toList], [["w".toList]], [["w".toList, "a.sp".toList]]⟩
    (["w".toList, "a.sp".toList], some [1]) ∈ loadEntry sample (.directories d) ∧
      (Entry.directories d).containsFile ["w".toList, "a.sp".toList] = false := by
  decide

/-- Non-vacuity of `load_iff_contains_partial` with nested includes and an exclude between them. -/
example : Sensible ⟨["sp".toList, "inc".toList], [["w".toList], ["w".toList, ".git".toList]], [["w".toList, "d".toList]]⟩ sample ∧
    loadEntry sample (.directories ⟨["sp".toList, "inc".toList], [["w".toList], ["w".toList, ".git".toList]], [["w".toList, "d".toList]]⟩) =
      [(["w".toList, "a.sp".toList], some [1]), (["w".toList, ".git".toList, "b.sp".toList], some [2])] := by
  refine ⟨⟨?_, ?_⟩, by decide⟩
  · decide
  · intro e he c _
    simp only [List.mem_singleton] at he
    subst he
    decide

/-! ### The loader's own file watcher -/

/-- **C67, what an event of the file watcher brings.** The files named by the event that are there and belong to a watched
entry, with what is on disk. -/
theorem watch_exact (fs : Node) (hp : Proper fs) (watched : List Entry) (paths : List APath) (q : APath) (c : Option Bytes) :
    (q, c) ∈ watchEvent fs watched paths ↔ q ∈ paths ∧ IsFile fs q c ∧ ∃ e ∈ watched, e.containsFile q = true := by
  simp only [watchEvent, List.mem_filterMap]
  constructor
  · rintro ⟨p, hm, h⟩
    split at h
    · cases h
    · cases h
    · rename_i c' hl
      split at h
      · cases h
      · rename_i hw
        simp only [Bool.not_eq_true', Bool.not_eq_false, List.any_eq_true] at hw
        simp only [Option.some.injEq, Prod.mk.injEq] at h
        obtain ⟨rfl, rfl⟩ := h
        refine ⟨hm, ?_, hw⟩
        have : Vfs.Loader.read fs p = c' := by simp [Vfs.Loader.read, hl]
        rw [this]
        exact lookup_at hl
  · rintro ⟨hm, hf, e, he, hc⟩
    refine ⟨q, hm, ?_⟩
    rw [at_lookup hp hf]
    have : watched.any (fun e => e.containsFile q) = true := List.any_eq_true.2 ⟨e, he, hc⟩
    simp [this, read_file hp hf]

/-- The virtual file system after these files have been written to it. -/
def written (ops : List (Op APath)) (fs : List (APath × Option Bytes)) : List (Op APath) := ops ++ fs.map (fun f => .set f.1 f.2)

def setTo {P : Type} [DecidableEq P] (q : P) (o : Op P) (acc : Option Bytes) : Option Bytes :=
  match o with
  | .set r c => if r = q then c else acc
  | .take => acc

theorem lastContents_eq {P : Type} [DecidableEq P] (q : P) (ops : List (Op P)) :
    Vfs.Spec.lastContents q ops = ops.foldl (fun acc o => setTo q o acc) none := by
  unfold Vfs.Spec.lastContents setTo
  rfl

theorem lastContents_written (q : APath) (c : Option Bytes) (ops : List (Op APath)) (fs : List (APath × Option Bytes))
    (hm : (q, c) ∈ fs) (hu : ∀ c', (q, c') ∈ fs → c' = c) : Vfs.Spec.lastContents q (written ops fs) = c := by
  have key : ∀ (fs : List (APath × Option Bytes)) (acc : Option Bytes), (∀ c', (q, c') ∈ fs → c' = c) →
      ((q, c) ∈ fs ∨ acc = c) →
      (fs.map (fun f => Op.set f.1 f.2)).foldl (fun acc o => setTo q o acc) acc = c := by
    intro fs
    induction fs with
    | nil => intro acc _ h; simpa using h
    | cons f fs ih =>
      intro acc hu h
      obtain ⟨r, b⟩ := f
      simp only [List.map_cons, List.foldl_cons, setTo]
      apply ih _ (fun c' h' => hu c' (List.mem_cons_of_mem _ h'))
      by_cases hr : r = q
      · subst hr
        right
        rw [if_pos rfl]
        exact hu b (by simp)
      · rw [if_neg hr]
        rcases h with h | h
        · simp only [List.mem_cons, Prod.mk.injEq] at h
          rcases h with h | h
          · exact absurd h.1.symm hr
          · exact Or.inl h
        · exact Or.inr h
  rw [lastContents_eq, written, List.foldl_append]
  exact key fs _ hu (Or.inl hm)

/-- **C67, partial.** Whatever happened before, an event of the file watcher brings the contents of each file it names, of
a watched entry, up to date, provided that the file still exists. Missing: files that were deleted. -/
theorem watch_follows_partial (fs : Node) (hp : Proper fs) (watched : List Entry) (paths : List APath) (ops : List (Op APath))
    (q : APath) (hq : q ∈ paths) (he : ∃ e ∈ watched, e.containsFile q = true) (c : Option Bytes) (hf : IsFile fs q c) :
    Vfs.Spec.lastContents q (written ops (watchEvent fs watched paths)) = Vfs.Loader.read fs q := by
  rw [read_file hp hf]
  refine lastContents_written q c ops _ ((watch_exact fs hp watched paths q c).2 ⟨hq, hf, he⟩) (fun c' h' => ?_)
  obtain ⟨-, h2, -⟩ := (watch_exact fs hp watched paths q c').1 h'
  have := at_fun hp hf h2
  simpa using this.symm

/-- **C67 fails for deleted files.** For every file that is gone, an event naming it changes nothing: whatever the virtual
file system held for it, it still does. -/
theorem watch_deleted_refuted (fs : Node) (hp : Proper fs) (watched : List Entry) (paths : List APath) (ops : List (Op APath))
    (q : APath) (hf : ∀ c, ¬ IsFile fs q c) :
    Vfs.Spec.lastContents q (written ops (watchEvent fs watched paths)) = Vfs.Spec.lastContents q ops := by
  have hno : ∀ c, (q, c) ∉ watchEvent fs watched paths := fun c h =>
    hf c ((watch_exact fs hp watched paths q c).1 h).2.1
  generalize watchEvent fs watched paths = l at hno
  rw [lastContents_eq, lastContents_eq, written, List.foldl_append]
  generalize List.foldl _ none ops = acc
  induction l generalizing acc with
  | nil => rfl
  | cons f l ih =>
    obtain ⟨r, b⟩ := f
    simp only [List.map_cons, List.foldl_cons, setTo]
    have hr : r ≠ q := by rintro rfl; exact hno b (by simp)
    rw [if_neg hr]
    exact ih (fun c h => hno c (List.mem_cons_of_mem _ h)) acc

/-- The sample without `a.sp`. -/
def sample' : Node :=
  .dir (.cons "w".toList (.dir (.cons "d".toList (.dir (.cons "c.inc".toList (.file (some [3])) .nil)) .nil)) .nil)

/-- Non-vacuity: `a.sp` was loaded and is then deleted, `c.inc` has changed; the event names both. The deleted file keeps its
contents in the virtual file system, the other one is brought up to date. -/
example :
    let base := spFilesRecursively ["w".toList]
    let ops := written [] (loadEntry sample base)
    let paths := [["w".toList, "a.sp".toList], ["w".toList, "d".toList, "c.inc".toList]]
    Vfs.Spec.lastContents ["w".toList, "a.sp".toList] (written ops (watchEvent sample' [base] paths)) = some [1] ∧
    Vfs.Loader.read sample' ["w".toList, "a.sp".toList] = none ∧
    Vfs.Spec.lastContents ["w".toList, "d".toList, "c.inc".toList] (written ops (watchEvent sample' [base] paths)) = some [3] := by
  decide

end Verif.Props.Loader
