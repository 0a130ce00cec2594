import Verif.Vfs.Links
import Verif.Props.Loader
/-!
# C104: workspace folders with symbolic links

The walk over a disk whose links may lead anywhere, also in circles.
-/

namespace Verif.Props.Links
open Verif.Paths Verif.Vfs.Loader Verif.Vfs.Links Verif.Vfs.Links.Spec
open Verif.Props.Loader (Passes wanted_iff enter_iff git_ext)

/-! ### What the kernel finds -/

theorem find_mem {es : List (Str × Edge)} {s : Str} {e : Edge} (h : find es s = some e) : (s, e) ∈ es := by
  induction es with
  | nil => simp [find] at h
  | cons x r ih =>
    obtain ⟨t, f⟩ := x
    simp only [find] at h
    split at h
    · rename_i ht; subst ht; cases h; exact List.mem_cons_self
    · exact List.mem_cons_of_mem _ (ih h)

theorem mem_find {es : List (Str × Edge)} {s : Str} {e : Edge} (hn : (es.map Prod.fst).Nodup) (h : (s, e) ∈ es) :
    find es s = some e := by
  induction es with
  | nil => cases h
  | cons x r ih =>
    obtain ⟨t, f⟩ := x
    simp only [List.map_cons, List.nodup_cons] at hn
    simp only [find]
    rcases List.mem_cons.1 h with h | h
    · cases h; simp
    · rw [if_neg]
      · exact ih hn.2 h
      · rintro rfl
        exact hn.1 (List.mem_map.2 ⟨_, h, rfl⟩)

theorem lookup_leads {fs : Disk} {p : APath} : ∀ {i j : Nat}, lookup fs i p = some j → Leads fs i p j := by
  induction p with
  | nil => intro i j h; simp only [lookup, Option.some.injEq] at h; subst h; exact .here _
  | cons s p ih =>
    intro i j h
    simp only [lookup] at h
    split at h
    · rename_i es hd
      obtain ⟨k, hk, hj⟩ := Option.bind_eq_some_iff.1 h
      obtain ⟨e, he, ht⟩ := Option.bind_eq_some_iff.1 hk
      exact .there hd (find_mem he) ht (ih hj)
    · cases h

theorem leads_lookup {fs : Disk} (hn : Named fs) {i j : Nat} {p : APath} (h : Leads fs i p j) : lookup fs i p = some j := by
  induction h with
  | here i => rfl
  | there hd he ht _ ih =>
    simp only [lookup, hd, mem_find (hn _ _ hd) he, Option.bind_some, ht, ih]

theorem leads_append {fs : Disk} {i k j : Nat} {p q : APath} (h : Leads fs i p k) (h' : Leads fs k q j) :
    Leads fs i (p ++ q) j := by
  induction h with
  | here i => exact h'
  | there hd he ht _ ih => exact .there hd he ht (ih h')

theorem onward_leads {fs : Disk} {anc : List Nat} {i j : Nat} {p : APath} (h : Onward fs anc i p j) : Leads fs i p j := by
  induction h with
  | here anc i => exact .here _
  | hard hd he _ ih => exact .there hd he rfl ih
  | soft hd he _ _ ih => exact .there hd he rfl ih

/-! ### What the walk finds -/

theorem follow_onward {fs : Disk} {anc : List Nat} {i k j : Nat} {es : List (Str × Edge)} {s : Str} {e : Edge} {p : APath}
    (hd : fs i = .dir es) (he : (s, e) ∈ es) (hf : follow fs (i :: anc) e = some k) (hp : Onward fs (i :: anc) k p j) :
    Onward fs anc i (s :: p) j := by
  cases e with
  | hard m => simp only [follow, Option.some.injEq] at hf; subst hf; exact .hard hd he hp
  | soft t =>
    cases t with
    | none => simp [follow] at hf
    | some m =>
      simp only [follow] at hf
      split at hf
      · cases hf
      · rename_i hc
        cases hf
        refine .soft hd he ?_ hp
        rintro ⟨es', he'⟩
        simp only [he', Thing.isDir, Bool.true_and, decide_eq_true_eq, List.mem_cons, not_or] at hc
        exact hc

theorem follow_soft {fs : Disk} {anc : List Nat} {i k : Nat} (hk : (∃ es', fs k = .dir es') → k ≠ i ∧ k ∉ anc) :
    follow fs (i :: anc) (.soft (some k)) = some k := by
  simp only [follow]
  rw [if_neg]
  intro h
  simp only [Bool.and_eq_true, decide_eq_true_eq, List.mem_cons] at h
  cases hf : fs k with
  | dir es' =>
    have := hk ⟨es', hf⟩
    rcases h.2 with h' | h'
    · exact this.1 h'
    · exact this.2 h'
  | file c => simp [hf, Thing.isDir] at h
  | other => simp [hf, Thing.isDir] at h

theorem mem_walk {fs : Disk} {d : Directories} {root : APath} (n : Nat) : ∀ (anc : List Nat) (path : APath) (i : Nat) (q : APath),
    q ∈ walk fs d root n anc path i ↔
      ∃ r j c, Onward fs anc i r j ∧ r.length < n ∧ fs j = .file c ∧ q = path ++ r ∧ wanted d q = true ∧ Passes d root path r := by
  induction n with
  | zero => intro anc path i q; simp [walk]
  | succ n ih =>
    intro anc path i q
    simp only [walk]
    constructor
    · intro h
      split at h
      · rename_i c hc
        split at h
        · rename_i hw
          simp only [List.mem_singleton] at h
          subst h
          exact ⟨[], i, c, .here _ _, by simp, hc, by simp, hw, fun r1 r2 h h2 => by simp at h; exact absurd h.2 h2⟩
        · cases h
      · cases h
      · rename_i es hd
        split at h
        · rename_i hent
          obtain ⟨⟨s, e⟩, hse, hq⟩ := List.mem_flatMap.1 h
          simp only [branch] at hq
          split at hq
          · cases hq
          · rename_i k hk
            obtain ⟨r, j, c, h1, h2, h3, h4, h5, h6⟩ := (ih _ _ _ _).1 hq
            refine ⟨s :: r, j, c, follow_onward hd hse hk h1, by simpa using h2, h3, by simpa using h4, h5, ?_⟩
            intro r1 r2 hr hne
            cases r1 with
            | nil => simpa using hent
            | cons a r1 =>
              simp only [List.cons_append, List.cons.injEq] at hr
              have := h6 r1 r2 hr.2 hne
              rw [hr.1] at this
              simpa using this
        · cases h
    · rintro ⟨r, j, c, h1, h2, h3, rfl, h5, h6⟩
      cases h1 with
      | here =>
        simp only [List.append_nil] at h5 ⊢
        simp [h3, h5]
      | hard hd he hp =>
        rename_i k es s p
        have hent := h6 [] (s :: p) rfl (by simp)
        rw [List.append_nil] at hent
        simp only [hd, hent, if_true]
        refine List.mem_flatMap.2 ⟨(s, .hard k), he, ?_⟩
        simp only [branch, follow]
        refine (ih _ _ _ _).2 ⟨p, j, c, hp, by simpa using h2, h3, by simp, h5, ?_⟩
        intro r1 r2 hr hne
        have := h6 (s :: r1) r2 (by simp [hr]) hne
        simpa using this
      | soft hd he hk hp =>
        rename_i k es s p
        have hent := h6 [] (s :: p) rfl (by simp)
        rw [List.append_nil] at hent
        simp only [hd, hent, if_true]
        refine List.mem_flatMap.2 ⟨(s, .soft (some k)), he, ?_⟩
        simp only [branch, follow_soft hk]
        refine (ih _ _ _ _).2 ⟨p, j, c, hp, by simpa using h2, h3, by simp, h5, ?_⟩
        intro r1 r2 hr hne
        have := h6 (s :: r1) r2 (by simp [hr]) hne
        simpa using this

/-! ### The walk ends -/

/-- How many numbers below `size` are not in the list. -/
def free (size : Nat) (l : List Nat) : Nat := ((List.range size).filter (fun x => decide (x ∉ l))).length

theorem free_le (size : Nat) (l : List Nat) : free size l ≤ size := by
  have := List.length_filter_le (fun x => decide (x ∉ l)) (List.range size)
  simpa [free] using this

theorem filter_mono {α : Type} (p q : α → Bool) (l : List α) (h : ∀ x ∈ l, p x = true → q x = true) :
    (l.filter p).length ≤ (l.filter q).length := by
  induction l with
  | nil => simp
  | cons a l ih =>
    have h1 := ih (fun x hx => h x (List.mem_cons_of_mem _ hx))
    have h2 := h a List.mem_cons_self
    by_cases hp : p a = true
    · simp [hp, h2 hp, h1]
    · by_cases hq : q a = true
      · simp [hp, hq]; omega
      · simp [hp, hq, h1]

theorem filter_strict {α : Type} (p q : α → Bool) (l : List α) (h : ∀ x ∈ l, p x = true → q x = true)
    (hs : ∃ x ∈ l, p x = false ∧ q x = true) : (l.filter p).length < (l.filter q).length := by
  induction l with
  | nil => obtain ⟨x, hx, -⟩ := hs; cases hx
  | cons a l ih =>
    have hm : ∀ x ∈ l, p x = true → q x = true := fun x hx => h x (List.mem_cons_of_mem _ hx)
    have h1 := filter_mono p q l hm
    have h2 := h a List.mem_cons_self
    obtain ⟨x, hx, hpx, hqx⟩ := hs
    rcases List.mem_cons.1 hx with rfl | hx
    · simp [hpx, hqx]; omega
    · have h3 := ih hm ⟨x, hx, hpx, hqx⟩
      by_cases hp : p a = true
      · simp [hp, h2 hp, h3]
      · by_cases hq : q a = true
        · simp [hp, hq]; omega
        · simp [hp, hq, h3]

theorem free_cons_le (size k : Nat) (l : List Nat) : free size (k :: l) ≤ free size l := by
  refine filter_mono _ _ _ (fun x _ h => ?_)
  simp only [decide_eq_true_eq, List.mem_cons, not_or] at h ⊢
  exact h.2

theorem free_cons_lt (size k : Nat) (l : List Nat) (hk : k < size) (hl : k ∉ l) : free size (k :: l) < free size l := by
  refine filter_strict _ _ _ (fun x _ h => ?_) ⟨k, List.mem_range.2 hk, by simp, by simpa using hl⟩
  simp only [decide_eq_true_eq, List.mem_cons, not_or] at h ⊢
  exact h.2

theorem onward_short {fs : Disk} {size most : Nat} {height : Nat → Nat} (hf : Finite fs size height most) {anc : List Nat}
    {i j : Nat} {p : APath} (h : Onward fs anc i p j) : p.length ≤ free size (i :: anc) * (most + 1) + height i + 1 := by
  induction h with
  | here anc i => simp
  | @hard anc i k j es s p hd he hp ih =>
    have h1 := hf.down i es s k hd he
    have h2 := Nat.mul_le_mul_right (most + 1) (free_cons_le size k (i :: anc))
    simp only [List.length_cons]
    omega
  | @soft anc i k j es s p hd he hk hp ih =>
    simp only [List.length_cons]
    cases hfk : fs k with
    | dir es' =>
      have h1 := hk ⟨es', hfk⟩
      have h2 := free_cons_lt size k (i :: anc) (hf.low i es s _ k hd he rfl)
        (by simp only [List.mem_cons, not_or]; exact h1)
      have h3 := hf.top k
      have h4 := Nat.mul_le_mul_right (most + 1) (Nat.succ_le_of_lt h2)
      have h5 : (free size (k :: i :: anc)).succ * (most + 1) = free size (k :: i :: anc) * (most + 1) + (most + 1) :=
        Nat.succ_mul _ _
      omega
    | file c =>
      have : p = [] := by
        cases hp with
        | here => rfl
        | hard hd' => rw [hfk] at hd'; cases hd'
        | soft hd' => rw [hfk] at hd'; cases hd'
      subst this
      simp
    | other =>
      have : p = [] := by
        cases hp with
        | here => rfl
        | hard hd' => rw [hfk] at hd'; cases hd'
        | soft hd' => rw [hfk] at hd'; cases hd'
      subst this
      simp

theorem walk_stable {fs : Disk} {d : Directories} {root : APath} (n : Nat) : ∀ (anc : List Nat) (path : APath) (i : Nat),
    (∀ r j, Onward fs anc i r j → r.length < n) → walk fs d root (n + 1) anc path i = walk fs d root n anc path i := by
  induction n with
  | zero => intro anc path i h; exact absurd (h [] i (.here _ _)) (by simp)
  | succ n ih =>
    intro anc path i h
    rw [walk, walk]
    cases hd : fs i with
    | file c => rfl
    | other => rfl
    | dir es =>
      simp only
      split
      · refine congrArg List.flatten (List.map_congr_left ?_)
        rintro ⟨s, e⟩ hse
        simp only [branch]
        cases hfo : follow fs (i :: anc) e with
        | none => rfl
        | some k =>
          refine ih _ _ _ (fun r j hr => ?_)
          have := h (s :: r) j (follow_onward hd hse hfo hr)
          simpa using this
      · rfl

/-- The depth no walk goes beyond. -/
def deepest (size most : Nat) : Nat := size * (most + 1) + most + 2

theorem onward_deepest {fs : Disk} {size most : Nat} {height : Nat → Nat} (hf : Finite fs size height most) {anc : List Nat}
    {i j : Nat} {p : APath} (h : Onward fs anc i p j) : p.length < deepest size most := by
  have h1 := onward_short hf h
  have h2 := Nat.mul_le_mul_right (most + 1) (free_le size (i :: anc))
  have h3 := hf.top i
  unfold deepest
  omega

/-- **C104.** The scan ends on every disk, whatever its links: no walk goes deeper than `deepest`. -/
theorem walk_ends (fs : Disk) (size most : Nat) (height : Nat → Nat) (hf : Finite fs size height most) (d : Directories)
    (n : Nat) (hn : deepest size most ≤ n) : loadDirs fs n d = loadDirs fs (deepest size most) d := by
  have hw : ∀ root, walkRoot fs d n root = walkRoot fs d (deepest size most) root := by
    intro root
    unfold Vfs.Links.walkRoot
    split
    · rfl
    · rename_i i _
      obtain ⟨m, rfl⟩ := Nat.exists_eq_add_of_le hn
      clear hn
      induction m with
      | zero => rfl
      | succ m ih =>
        rw [← ih]
        exact walk_stable _ _ _ _ (fun r j h => Nat.lt_of_lt_of_le (onward_deepest hf h) (Nat.le_add_right _ _))
  unfold loadDirs
  simp only [hw]

/-! ### Exactly what is found -/

theorem read_leads {fs : Disk} (hn : Named fs) {q : APath} {j : Nat} {c : Option Bytes} (h : Leads fs 0 q j)
    (hc : fs j = .file c) : Vfs.Links.read fs q = c := by
  simp [Vfs.Links.read, leads_lookup hn h, hc]

/-- **C104.** A workspace folder: exactly the files `.sp` and `.inc` that can be reached from the folder by names, without
following a link back to a directory on the way, and not through `.git` of the folder, under these names, with what is
on disk. -/
theorem folder_links_exact (fs : Disk) (hn : Named fs) (size most : Nat) (height : Nat → Nat) (hf : Finite fs size height most)
    (n : Nat) (hd : deepest size most ≤ n) (base q : APath) (c : Option Bytes) :
    (q, c) ∈ loadFolder fs n base ↔
      ∃ i p j, Leads fs 0 base i ∧ Onward fs [] i p j ∧ fs j = .file c ∧ q = base ++ p ∧
        ¬ (base ++ [".git".toList]) <+: q ∧ ∃ name, q.getLast? = some name ∧ SourceName name := by
  have hext : ∀ q : APath, (extension q).getD [] ∈ ["sp".toList, "inc".toList] ↔
      ∃ name, q.getLast? = some name ∧ SourceName name := by
    intro q
    have hs : ("sp".toList : Str) ≠ [] := by decide
    have hi : ("inc".toList : Str) ≠ [] := by decide
    have hx := Paths.contains_file_correct ⟨["sp".toList, "inc".toList], [[]], []⟩ q
    have hx2 := Paths.contains_file_iff ⟨["sp".toList, "inc".toList], [[]], []⟩ q
    have hx3 := Paths.includes_iff ⟨["sp".toList, "inc".toList], [[]], []⟩ q
    rw [hx2] at hx
    simp only [hx3, List.mem_cons, List.not_mem_nil, or_false, exists_eq_or_imp, exists_eq_left, List.nil_prefix, false_imp_iff,
      implies_true, and_true, hs, hi, and_false] at hx
    rw [show (extension q).getD [] ∈ ["sp".toList, "inc".toList] ↔ ((extension q).getD [] = "sp".toList ∨ (extension q).getD [] = "inc".toList) by simp]
    rw [hx]
    unfold SourceName
    constructor
    · rintro (⟨n, h1, h2⟩ | ⟨n, h1, h2⟩)
      · exact ⟨n, h1, Or.inl h2⟩
      · exact ⟨n, h1, Or.inr h2⟩
    · rintro ⟨n, h1, (h2 | h2)⟩
      · exact Or.inl ⟨n, h1, h2⟩
      · exact Or.inr ⟨n, h1, h2⟩
  simp only [loadFolder, loadDirs, List.flatMap_cons, List.flatMap_nil, List.append_nil, List.mem_map, Prod.mk.injEq]
  constructor
  · rintro ⟨q', hq, rfl, rfl⟩
    unfold Vfs.Links.walkRoot at hq
    split at hq
    · cases hq
    · rename_i i hi
      obtain ⟨r, j, c, h1, -, h3, rfl, h5, h6⟩ := (mem_walk n _ _ _ _).1 hq
      have hl := lookup_leads hi
      refine ⟨i, r, j, hl, h1, ?_, rfl, ?_, (hext _).1 (wanted_iff.1 h5)⟩
      · rw [read_leads hn (leads_append hl (onward_leads h1)) h3]; exact h3
      · rintro ⟨z, hz⟩
        rw [List.append_assoc, List.append_cancel_left_eq] at hz
        by_cases hz0 : z = []
        · subst hz0
          subst hz
          have hw := wanted_iff.1 h5
          simp only [List.append_nil] at hw
          rw [git_ext] at hw
          simp at hw
        · have he := h6 [".git".toList] z hz.symm hz0
          rcases enter_iff.1 he with he | he
          · exact absurd (congrArg List.length he) (by simp)
          · exact he.1 (by simp)
  · rintro ⟨i, p, j, hl, h1, h3, rfl, h5, h6⟩
    refine ⟨base ++ p, ?_, rfl, read_leads hn (leads_append hl (onward_leads h1)) h3⟩
    unfold Vfs.Links.walkRoot
    rw [leads_lookup hn hl]
    refine (mem_walk n _ _ _ _).2 ⟨p, j, c, h1, Nat.lt_of_lt_of_le (onward_deepest hf h1) hd, h3, rfl,
      wanted_iff.2 ((hext _).2 h6), ?_⟩
    rintro r1 r2 rfl hne
    rw [enter_iff]
    cases r1 with
    | nil => exact Or.inl (by simp)
    | cons a r1 =>
      refine Or.inr ⟨?_, ?_⟩
      · intro hm
        simp only [List.mem_singleton, List.append_cancel_left_eq] at hm
        refine h5 ⟨r2, ?_⟩
        rw [hm, List.append_assoc]
      · intro hm
        simp only [List.mem_singleton] at hm
        exact absurd (congrArg List.length hm) (by simp)

/-! ### No name twice -/

theorem walk_prefix {fs : Disk} {d : Directories} {root : APath} (n : Nat) (anc : List Nat) (path : APath) (i : Nat) (q : APath)
    (h : q ∈ walk fs d root n anc path i) : path <+: q := by
  obtain ⟨r, _, _, _, _, _, rfl, _⟩ := (mem_walk n _ _ _ _).1 h
  exact List.prefix_append _ _

theorem nodup_walk {fs : Disk} (hn : Named fs) {d : Directories} {root : APath} (n : Nat) : ∀ (anc : List Nat) (path : APath) (i : Nat),
    (walk fs d root n anc path i).Nodup := by
  induction n with
  | zero => intro anc path i; simp [walk]
  | succ n ih =>
    intro anc path i
    rw [walk]
    cases hd : fs i with
    | file c => simp only; split <;> simp
    | other => simp
    | dir es =>
      simp only
      split
      · have hes := hn i es hd
        clear hd
        induction es with
        | nil => simp
        | cons x es ihe =>
          obtain ⟨s, e⟩ := x
          simp only [List.map_cons, List.nodup_cons] at hes
          rw [List.flatMap_cons, List.nodup_append]
          refine ⟨?_, ihe hes.2, ?_⟩
          · simp only [branch]; split
            · simp
            · exact ih _ _ _
          · rintro q hq q' hq' rfl
            simp only [branch] at hq
            split at hq
            · cases hq
            · have h1 := walk_prefix _ _ _ _ _ hq
              obtain ⟨⟨t, f⟩, ht, hq'⟩ := List.mem_flatMap.1 hq'
              simp only [branch] at hq'
              split at hq'
              · cases hq'
              · have h2 := walk_prefix _ _ _ _ _ hq'
                have h3 := List.prefix_of_prefix_length_le h1 h2 (by simp)
                have h4 := h3.eq_of_length (by simp)
                simp only [List.append_cancel_left_eq, List.cons.injEq, and_true] at h4
                subst h4
                exact hes.1 (List.mem_map.2 ⟨_, ht, rfl⟩)
      · simp

/-- **C104.** No name is loaded twice. -/
theorem folder_links_names_once (fs : Disk) (hn : Named fs) (n : Nat) (base : APath) :
    ((loadFolder fs n base).map Prod.fst).Nodup := by
  simp only [loadFolder, loadDirs, List.flatMap_cons, List.flatMap_nil, List.append_nil, List.map_map]
  have : (Prod.fst ∘ fun p : APath => (p, Vfs.Links.read fs p)) = id := rfl
  rw [this, List.map_id]
  unfold Vfs.Links.walkRoot
  split
  · simp
  · exact nodup_walk hn _ _ _ _

/-! ### Every file is found -/

/-- A shortest way to a file never follows a link back. -/
theorem onward_of_shortest {fs : Disk} {i j : Nat} {c : Option Bytes} (hc : fs j = .file c) {names : APath} {P : APath}
    (hmin : ∀ P', Leads fs i P' j → P' ⊆ names → P'.getLast? = P.getLast? → P.length ≤ P'.length) (hnames : P ⊆ names)
    (b : APath) : ∀ (m : Nat) (a : APath) (anc : List Nat), P = a ++ b → Leads fs i a m → Leads fs m b j →
      (∀ x ∈ anc, ∃ a1, a1.length ≤ a.length ∧ a1 ⊆ names ∧ Leads fs i a1 x) → Onward fs anc m b j := by
  induction b with
  | nil => intro m a anc _ _ hb _; cases hb; exact .here _ _
  | cons s b ih =>
    intro m a anc hP ha hb hanc
    cases hb with
    | @there _ k _ es _ e _ hd he ht hb =>
      have hsub : a ⊆ names := fun x hx => hnames (by rw [hP]; exact List.mem_append_left _ hx)
      have hanc' : ∀ x ∈ m :: anc, ∃ a1, a1.length ≤ a.length ∧ a1 ⊆ names ∧ Leads fs i a1 x := by
        intro x hx
        rcases List.mem_cons.1 hx with rfl | hx
        · exact ⟨a, Nat.le_refl _, hsub, ha⟩
        · exact hanc x hx
      have hrec : Onward fs (m :: anc) k b j := by
        refine ih k (a ++ [s]) (m :: anc) (by simp [hP]) (leads_append ha (.there hd he ht (.here _))) hb ?_
        intro x hx
        obtain ⟨a1, h1, h2⟩ := hanc' x hx
        exact ⟨a1, by simp; omega, h2⟩
      cases e with
      | hard k' => simp only [Edge.target, Option.some.injEq] at ht; subst ht; exact .hard hd he hrec
      | soft t =>
        simp only [Edge.target] at ht
        subst ht
        refine .soft hd he ?_ hrec
        rintro ⟨es', hk⟩
        rw [← not_or, ← List.mem_cons]
        intro hx
        obtain ⟨a1, h1, h2, h3⟩ := hanc' k hx
        have hbne : b ≠ [] := by
          rintro rfl
          cases hb
          rw [hk] at hc
          cases hc
        have hbsub : b ⊆ names := fun x hx => hnames (by rw [hP]; simp [hx])
        have := hmin (a1 ++ b) (leads_append h3 hb) (by simp [h2, hbsub]) (by
          rw [hP, List.getLast?_append_of_ne_nil _ hbne, List.getLast?_append_of_ne_nil _ (by simp),
            List.getLast?_cons_of_ne_nil hbne])
        rw [hP] at this
        simp only [List.length_append, List.length_cons] at this
        omega

theorem shortest {fs : Disk} {i j : Nat} {names : APath} {last : Option Str} (n : Nat) : ∀ P : APath, P.length ≤ n → Leads fs i P j →
    P ⊆ names → P.getLast? = last →
    ∃ P, Leads fs i P j ∧ P ⊆ names ∧ P.getLast? = last ∧
      ∀ P', Leads fs i P' j → P' ⊆ names → P'.getLast? = last → P.length ≤ P'.length := by
  induction n with
  | zero =>
    intro P hl h1 h2 h3
    exact ⟨P, h1, h2, h3, fun P' _ _ _ => by omega⟩
  | succ n ih =>
    intro P hl h1 h2 h3
    by_cases h : ∃ P', Leads fs i P' j ∧ P' ⊆ names ∧ P'.getLast? = last ∧ P'.length < P.length
    · obtain ⟨P', a, b, c, e⟩ := h
      exact ih P' (by omega) a b c
    · refine ⟨P, h1, h2, h3, fun P' a b c => ?_⟩
      rcases Nat.lt_or_ge P'.length P.length with hlt | hge
      · exact absurd ⟨P', a, b, c, hlt⟩ h
      · exact hge

/-- **C104.** Every source file that can be reached from the folder at all, in whatever roundabout way, is loaded under
some name, if the way does not use a name `.git`. -/
theorem every_file_found (fs : Disk) (hn : Named fs) (size most : Nat) (height : Nat → Nat) (hf : Finite fs size height most)
    (n : Nat) (hd : deepest size most ≤ n) (base p : APath) (i j : Nat) (c : Option Bytes) (name : Str) (hb : Leads fs 0 base i)
    (hp : Leads fs i p j) (hc : fs j = .file c) (hgit : ".git".toList ∉ p) (hname : (base ++ p).getLast? = some name)
    (hsrc : SourceName name) :
    ∃ q, (q, c) ∈ loadFolder fs n base ∧ Leads fs 0 q j ∧ q.getLast? = some name := by
  obtain ⟨P, h1, h2, h3, h4⟩ := shortest p.length p (Nat.le_refl _) hp (List.Subset.refl _) rfl
  have ho : Onward fs [] i P j :=
    onward_of_shortest hc (names := p) (P := P) (fun P' a b e => h4 P' a b (e.trans h3)) h2 P i [] [] rfl (.here _) h1 (by simp)
  have hlast : (base ++ P).getLast? = some name := by
    rw [← hname]
    simp only [List.getLast?_append, h3]
  refine ⟨base ++ P, ?_, leads_append hb h1, hlast⟩
  refine (folder_links_exact fs hn size most height hf n hd base _ c).2 ⟨i, P, j, hb, ho, hc, rfl, ?_, name, hlast, hsrc⟩
  rintro ⟨z, hz⟩
  rw [List.append_assoc, List.append_cancel_left_eq] at hz
  exact hgit (h2 (by rw [← hz]; simp))

/-! ### Disks on which every thing has one name -/

/-- Nothing has two entries, and the root of the disk has none. -/
def OneName (fs : Disk) : Prop :=
  (∀ i es s e, fs i = .dir es → (s, e) ∈ es → e.target ≠ some 0) ∧
  ∀ i es s e i' es' s' e' k, fs i = .dir es → (s, e) ∈ es → e.target = some k → fs i' = .dir es' → (s', e') ∈ es' →
    e'.target = some k → i = i' ∧ s = s'

theorem leads_snoc {fs : Disk} {p : APath} {s : Str} : ∀ {i j : Nat}, Leads fs i (p ++ [s]) j →
    ∃ k es e, Leads fs i p k ∧ fs k = .dir es ∧ (s, e) ∈ es ∧ e.target = some j := by
  induction p with
  | nil =>
    intro i j h
    cases h with
    | there hd he ht hp => cases hp; exact ⟨i, _, _, .here _, hd, he, ht⟩
  | cons t p ih =>
    intro i j h
    cases h with
    | there hd he ht hp =>
      obtain ⟨k, es, e, h1, h2⟩ := ih hp
      exact ⟨k, es, e, .there hd he ht h1, h2⟩

theorem one_name {fs : Disk} (ho : OneName fs) (n : Nat) : ∀ (q q' : APath) (j : Nat), q.length ≤ n → Leads fs 0 q j →
    Leads fs 0 q' j → q = q' := by
  induction n with
  | zero =>
    intro q q' j hl h h'
    have : q = [] := List.length_eq_zero_iff.1 (by omega)
    subst this
    cases h
    rcases List.eq_nil_or_concat q' with rfl | ⟨r, s, rfl⟩
    · rfl
    · rw [List.concat_eq_append] at h'
      obtain ⟨k, es, e, -, h2, h3, h4⟩ := leads_snoc h'
      exact absurd h4 (ho.1 k es s e h2 h3)
  | succ n ih =>
    intro q q' j hl h h'
    rcases List.eq_nil_or_concat q with rfl | ⟨p, s, rfl⟩
    · exact ih [] q' j (by simp) h h'
    · rw [List.concat_eq_append] at h hl ⊢
      obtain ⟨k, es, e, h1, h2, h3, h4⟩ := leads_snoc h
      rcases List.eq_nil_or_concat q' with rfl | ⟨p', s', rfl⟩
      · cases h'
        exact absurd h4 (ho.1 k es s e h2 h3)
      · rw [List.concat_eq_append] at h' ⊢
        obtain ⟨k', es', e', h1', h2', h3', h4'⟩ := leads_snoc h'
        obtain ⟨rfl, rfl⟩ := ho.2 k es s e k' es' s' e' j h2 h3 h4 h2' h3' h4'
        rw [ih p p' k (by simp at hl; omega) h1 h1']

/-- **C104, what holds: each file once.** On a disk on which every thing has one name nothing is loaded twice. -/
theorem once_partial (fs : Disk) (hn : Named fs) (size most : Nat) (height : Nat → Nat) (hf : Finite fs size height most)
    (n : Nat) (hd : deepest size most ≤ n) (ho : OneName fs) (base : APath) :
    ((loadFolder fs n base).map (fun x => lookup fs 0 x.1)).Nodup := by
  have h1 := folder_links_names_once fs hn n base
  have h2 : ∀ x ∈ loadFolder fs n base, ∃ j, Leads fs 0 x.1 j := by
    rintro ⟨q, c⟩ hx
    obtain ⟨i, p, j, a, b, -, rfl, -⟩ := (folder_links_exact fs hn size most height hf n hd base q c).1 hx
    exact ⟨j, leads_append a (onward_leads b)⟩
  rw [List.Nodup, List.pairwise_map] at h1 ⊢
  refine h1.imp_of_mem ?_
  intro x y hx hy hne heq
  obtain ⟨j, hj⟩ := h2 x hx
  rw [leads_lookup hn hj] at heq
  exact hne (one_name ho _ _ _ j (Nat.le_refl _) hj (lookup_leads heq.symm))

/-- **C104, what holds: nothing of `.git`.** On such a disk no file in the `.git` directory of the folder is loaded. -/
theorem git_partial (fs : Disk) (hn : Named fs) (size most : Nat) (height : Nat → Nat) (hf : Finite fs size height most)
    (n : Nat) (hd : deepest size most ≤ n) (ho : OneName fs) (base q g : APath) (c : Option Bytes) (j : Nat)
    (hq : (q, c) ∈ loadFolder fs n base) (hg : Leads fs 0 (base ++ ".git".toList :: g) j) : ¬ Leads fs 0 q j := by
  intro hj
  obtain ⟨i, p, _, -, -, -, -, h, -⟩ := (folder_links_exact fs hn size most height hf n hd base q c).1 hq
  refine h ?_
  rw [one_name ho _ _ _ j (Nat.le_refl _) hj hg]
  exact ⟨g, by simp⟩

/-! ### Where the property fails -/

/-- `/w` is a folder with a link `l` to its parent, `a.sp`, a second name `b.sp` for it, and `.git/x.sp`; `/w/d/up` leads
back to `/w`. -/
def disk : Disk
  | 0 => .dir [("w".toList, .hard 1)]
  | 1 => .dir [("a.sp".toList, .hard 2), ("b.sp".toList, .soft (some 2)), ("d".toList, .hard 3), (".git".toList, .hard 5),
      ("gone.sp".toList, .soft none)]
  | 2 => .file (some [1])
  | 3 => .dir [("up".toList, .soft (some 1)), ("top".toList, .soft (some 0)), ("c.inc".toList, .hard 4)]
  | 4 => .file (some [2])
  | 5 => .dir [("x.sp".toList, .hard 6)]
  | 6 => .file (some [3])
  | _ => .other

theorem disk_named : Named disk := by
  intro i es h
  match i with
  | 0 => cases h; decide
  | 1 => cases h; decide
  | 2 => cases h
  | 3 => cases h; decide
  | 4 => cases h
  | 5 => cases h; decide
  | 6 => cases h
  | _ + 7 => cases h

/-- Heights of the things of `disk`. -/
def diskHeight : Nat → Nat
  | 0 => 3
  | 1 => 2
  | 3 => 1
  | 5 => 1
  | _ => 0

/-- The things of `disk` with a number below 7. -/
theorem disk_low {i : Nat} {es : List (Str × Edge)} (h : disk i = .dir es) : i < 7 := by
  match i with
  | 0 | 1 | 2 | 3 | 4 | 5 | 6 => omega
  | _ + 7 => cases h

/-- The entries of a thing. -/
def entries : Thing → List (Str × Edge)
  | .dir es => es
  | _ => []

theorem disk_finite : Finite disk 7 diskHeight 3 := by
  refine ⟨?_, by decide, ?_, ?_⟩
  · intro i es s e k h he ht
    have hall : ∀ i < 7, ∀ x ∈ entries (disk i), x.2.target.all (fun k => decide (k < 7)) = true := by decide
    have := hall i (disk_low h) (s, e) (by rw [h]; exact he)
    simpa [ht] using this
  · intro i es s k h he
    have hall : ∀ i < 7, ∀ x ∈ entries (disk i), ∀ k < 7, x.2 = .hard k → diskHeight k < diskHeight i := by decide
    have hlow : ∀ i < 7, ∀ x ∈ entries (disk i), x.2.target.all (fun k => decide (k < 7)) = true := by decide
    have hk := hlow i (disk_low h) (s, .hard k) (by rw [h]; exact he)
    simp only [Edge.target, Option.all_some, decide_eq_true_eq] at hk
    exact hall i (disk_low h) (s, .hard k) (by rw [h]; exact he) k hk rfl
  · intro i
    match i with
    | 0 | 1 | 2 | 3 | 4 | 5 | 6 => decide
    | _ + 7 => exact Nat.zero_le 3

/-- Non-vacuity: the disk meets the hypotheses, with links in circles, and the scan of `/w` finds `a.sp`, `b.sp`, `d/c.inc`,
and, through the link to the parent of the folder, everything a second time. -/
example : Named disk ∧ Finite disk 7 diskHeight 3 ∧ (loadFolder disk (deepest 7 3) ["w".toList]).map Prod.fst =
    [["w".toList, "a.sp".toList], ["w".toList, "b.sp".toList],
     ["w".toList, "d".toList, "top".toList, "w".toList, "a.sp".toList],
     ["w".toList, "d".toList, "top".toList, "w".toList, "b.sp".toList],
     ["w".toList, "d".toList, "top".toList, "w".toList, "d".toList, "c.inc".toList],
     ["w".toList, "d".toList, "top".toList, "w".toList, ".git".toList, "x.sp".toList],
     ["w".toList, "d".toList, "c.inc".toList]] :=
  ⟨disk_named, disk_finite, by decide +kernel⟩

/-- Non-vacuity of `every_file_found`: `/w/d/up/d/up/a.sp` is a roundabout way to `/w/a.sp`. -/
example : Leads disk 1 ["d".toList, "up".toList, "d".toList, "up".toList, "a.sp".toList] 2 :=
  lookup_leads (by decide)

/-- A disk on which every thing has one name: `/w/a.sp`, `/w/.git/x.sp`, and `/w/l`, which is a link to a directory outside. -/
def plainDisk : Disk
  | 0 => .dir [("w".toList, .hard 1)]
  | 1 => .dir [("a.sp".toList, .hard 2), ("l".toList, .soft (some 3)), (".git".toList, .hard 5)]
  | 2 => .file (some [1])
  | 3 => .dir [("c.inc".toList, .hard 4)]
  | 4 => .file (some [2])
  | 5 => .dir [("x.sp".toList, .hard 6)]
  | 6 => .file (some [3])
  | _ => .other

/-- Non-vacuity of the last two theorems. -/
example : OneName plainDisk ∧ (loadFolder plainDisk 30 ["w".toList]).map Prod.fst =
    [["w".toList, "a.sp".toList], ["w".toList, "l".toList, "c.inc".toList]] := by
  have hlow : ∀ i es, plainDisk i = .dir es → i < 7 := by
    intro i es h
    match i with
    | 0 | 1 | 2 | 3 | 4 | 5 | 6 => omega
    | _ + 7 => cases h
  refine ⟨⟨?_, ?_⟩, by decide +kernel⟩
  · intro i es s e h he
    have hall : ∀ i < 7, ∀ x ∈ entries (plainDisk i), x.2.target ≠ some 0 := by decide
    exact hall i (hlow i es h) (s, e) (by rw [h]; exact he)
  · intro i es s e i' es' s' e' k h he ht h' he' ht'
    have hall : ∀ i < 7, ∀ x ∈ entries (plainDisk i), ∀ i' < 7, ∀ x' ∈ entries (plainDisk i'), x.2.target = x'.2.target →
        i = i' ∧ x.1 = x'.1 := by decide +kernel
    exact hall i (hlow i es h) (s, e) (by rw [h]; exact he) i' (hlow i' es' h') (s', e') (by rw [h']; exact he') (ht.trans ht'.symm)

/-- **C104 is false of the code: each file once.** A file with two names is loaded twice, as two files. -/
theorem twice_refuted :
    ¬ ∀ (fs : Disk) (size most : Nat) (height : Nat → Nat), Named fs → Finite fs size height most →
      ∀ base q q' c c' j, (q, c) ∈ loadFolder fs (deepest size most) base → (q', c') ∈ loadFolder fs (deepest size most) base →
        Leads fs 0 q j → Leads fs 0 q' j → q = q' := by
  intro h
  have := h disk 7 3 diskHeight disk_named disk_finite ["w".toList] ["w".toList, "a.sp".toList] ["w".toList, "b.sp".toList]
    (some [1]) (some [1]) 2 (by decide +kernel) (by decide +kernel) (lookup_leads (by decide)) (lookup_leads (by decide))
  exact absurd this (by decide)

/-- **C104 is false of the code: nothing of `.git`.** A file in the `.git` directory of the folder is loaded if a link leads
above the folder. -/
theorem git_refuted :
    ¬ ∀ (fs : Disk) (size most : Nat) (height : Nat → Nat), Named fs → Finite fs size height most →
      ∀ base p c g j, (p, c) ∈ loadFolder fs (deepest size most) base → Leads fs 0 (base ++ ".git".toList :: g) j →
        ¬ Leads fs 0 p j := by
  intro h
  exact h disk 7 3 diskHeight disk_named disk_finite ["w".toList]
    ["w".toList, "d".toList, "top".toList, "w".toList, ".git".toList, "x.sp".toList] (some [3]) ["x.sp".toList] 6
    (by decide +kernel) (lookup_leads (by decide)) (lookup_leads (by decide))

end Verif.Props.Links
