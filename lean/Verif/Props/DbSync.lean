import Verif.DbSync.Invariant
/-!
# C06, C11, C12: the analysis database follows the file system
-/

namespace Verif.Props.DbSync
open Verif.Vfs Verif.DbSync Verif.DbSync.Spec
variable {P T R : Type} [DecidableEq P] [DecidableEq R]

/-- **C06/C12, partial.** For every history of updates and processings in which every path lies under a source root and
in which, between two processings, no path is created or deleted more than twice in total: nothing panics, and after
a final processing every path agrees (existing files have the decoded text of their last contents and a source root
that knows them under that path; missing files have the empty text or are unknown).

Missing from the full property: batches with three or more existence changes of one path and paths outside every root,
see the refutations below. -/
theorem db_follows_vfs_partial (cfg : Config P T R) (evs : List (Ev P)) (hcov : Covered cfg evs)
    (hcalm : ∀ p, Calm p false 0 evs) :
    ∃ s, Server.init.run cfg (evs ++ [.process]) = some s ∧ ∀ p, Agrees cfg s p (lastContents p evs) := by
  obtain ⟨s, e1, hr, hi, h0, hf, hc⟩ := run_inv cfg evs Server.init (fun _ => false) (inv_init cfg)
    (by intro id h; exact absurd rfl h) (by intro id; exact Nat.zero_le _) hcov
    (fun p => by
      have : (Server.init : Server P T R).vfs.content p = none := by simp [Vfs.content, Server.init, Vfs.empty]
      rw [this]; exact hcalm p)
  obtain ⟨s', hs', hv, hi', ht'⟩ := process_inv hi hf
  refine ⟨s', by rw [DbSync.run_append, hr]; simp [Server.run, Server.step, hs'], ?_⟩
  intro p
  have hvc : s'.vfs.content p = s.vfs.content p := by rw [hv]; rfl
  have hdat : (fun id => (dat s'.vfs id).isSome) = (fun id => (dat s.vfs id).isSome) := by rw [hv]; rfl
  have := agrees_of_inv (hdat ▸ hi') ht' p
  rw [hvc, hc] at this
  have hl : (Server.init : Server P T R).vfs.content p = none := by simp [Vfs.content, Server.init, Vfs.empty]
  rw [hl] at this
  exact this

/-- **C12, partial.** Under the same conditions no prefix of the history panics (same proof for each prefix). -/
theorem process_never_panics_partial (cfg : Config P T R) (evs : List (Ev P)) (hcov : Covered cfg evs)
    (hcalm : ∀ p, Calm p false 0 evs) : (Server.init.run cfg evs).isSome := by
  obtain ⟨s, e1, hr, _⟩ := run_inv cfg evs Server.init (fun _ => false) (inv_init cfg)
    (by intro id h; exact absurd rfl h) (by intro id; exact Nat.zero_le _) hcov
    (fun p => by
      have : (Server.init : Server P T R).vfs.content p = none := by simp [Vfs.content, Server.init, Vfs.empty]
      rw [this]; exact hcalm p)
  simp [hr]

/-- A small configuration: one root `0` containing the paths below 10, texts are byte strings, decoding never fails. -/
def cfg0 : Config Nat Bytes Nat :=
  ⟨[0], fun _ p => p < 10, fun b => some b, [], fun _ => true⟩

def history : List (Ev Nat) :=
  [.set 1 (some [1]), .set 2 (some [2]), .set 1 (some [3]), .process, .set 1 none, .set 2 none, .set 2 (some [4]),
   .set 3 (some [5]), .set 3 none]

/-- The hypotheses of the theorem hold for a history with modifications, deletions and re-creations. -/
example : Covered cfg0 history ∧ ∀ p, Calm p false 0 history := by
  refine ⟨?_, ?_⟩
  · intro p c h
    simp [history] at h
    refine ⟨0, by simp [cfg0], ?_⟩
    simp only [cfg0, decide_eq_true_eq]
    rcases h with ⟨rfl, _⟩ | ⟨rfl, _⟩ | ⟨rfl, _⟩ | ⟨rfl, _⟩ | ⟨rfl, _⟩ | ⟨rfl, _⟩ | ⟨rfl, _⟩ | ⟨rfl, _⟩ <;> decide
  · intro p
    by_cases h1 : 1 = p
    · subst h1; simp [history, Calm]
    · by_cases h2 : 2 = p
      · subst h2; simp [history, Calm]
      · by_cases h3 : 3 = p
        · subst h3; simp [history, Calm]
        · simp [history, Calm, h1, h2, h3]

/-- **C06, refuted** for three existence changes in one batch: a known file that is deleted, created and deleted again
before the changes are processed keeps its old text in the database. -/
theorem db_follows_vfs_refuted :
    ∃ s, Server.init.run cfg0 [.set 1 (some [65]), .process, .set 1 none, .set 1 (some [66]), .set 1 none, .process]
        = some s ∧
      lastContents 1 [.set 1 (some [65]), .process, .set 1 none, .set 1 (some [66]), .set 1 none, .process] = none ∧
      s.vfs.fileId 1 = some none ∧ s.db.text 0 = some [65] :=
  ⟨_, rfl, rfl, rfl, rfl⟩

/-- **C12, refuted**: a new file created, deleted and created again within one batch makes the processing panic. -/
theorem process_panics_on_recreate_refuted :
    Covered cfg0 [.set 1 (some [65]), .set 1 none, .set 1 (some [66]), .process] ∧
    Server.init.run cfg0 [.set 1 (some [65]), .set 1 none, .set 1 (some [66]), .process] = none := by
  refine ⟨?_, rfl⟩
  intro p c h
  simp at h
  refine ⟨0, by simp [cfg0], ?_⟩
  rcases h with ⟨rfl, _⟩ | ⟨rfl, _⟩ | ⟨rfl, _⟩ <;> rfl

/-- **C12, refuted**: opening a file outside every source root makes the processing panic. -/
theorem process_panics_outside_roots_refuted :
    Server.init.run cfg0 [.set 11 (some [65]), .process] = none := rfl

/-- More generally, the *first* processing after an update of a path outside every root always panics when the file
exists at that point: the panic of the previous theorem does not depend on the particular configuration. -/
theorem process_panics_outside_roots (cfg : Config P T R) (p : P) (b : Bytes)
    (hout : ∀ r ∈ cfg.roots, cfg.under r p = false) :
    Server.init.run cfg [.set p (some b), .process] = none := by
  have hset : (Vfs.empty : Vfs P).setFileContents p (some b) =
      some (⟨[p], [some b], [⟨0, .create⟩]⟩, true) := by
    simp [Vfs.setFileContents, Vfs.allocFileId, intern, internGet, Vfs.empty, Vfs.get, changeKindOf]
  have hfiles : (⟨[p], [some b], []⟩ : Vfs P).files = [(0, p)] := by
    simp [Vfs.files, Vfs.iter, Vfs.get, Vfs.filePath, List.range, List.range.loop]
  have hroot : ∀ (x : Option (Nat)), (match ((partition cfg.under cfg.roots [(0, p)]).zipIdx.reverse.find?
      (fun e => decide ((0 : FileId) ∈ e.1.1.ids))) with | some e => some e.2 | none => x) = x := by
    intro x
    have : ((partition cfg.under cfg.roots [(0, p)]).zipIdx.reverse.find?
        (fun e => decide ((0 : FileId) ∈ e.1.1.ids))) = none := by
      rw [List.find?_eq_none]
      rintro ⟨⟨fs, r⟩, i⟩ hm
      rw [List.mem_reverse, List.mem_zipIdx_iff_getElem?] at hm
      simp only [partition, List.getElem?_map, Option.map_eq_some_iff, Prod.mk.injEq] at hm
      obtain ⟨x, hx, h1, rfl⟩ := hm
      have hx' : x ∈ cfg.roots := mem_dedup.1 (List.mem_of_getElem? hx)
      have := hout x hx'
      rw [← h1]
      simp [insertIfUnder, this, FileSet.ids, FileSet.empty]
    rw [this]
  simp only [Server.run, Server.step, Server.init, hset, Option.map_some, Server.processChanges, Vfs.takeChanges]
  have hcf : changedFiles [⟨0, .create⟩] = [⟨0, .create⟩] := by decide
  simp only [hcf, textsOf, Vfs.fileContents, Vfs.get]
  have hsr : ((Db.init : Db P T R).setRoots (partition cfg.under cfg.roots [(0, p)])).sourceRootOf 0 = none := hroot none
  simp [hfiles, Db.setTexts, Db.setText, hsr]

/-! ### C11 -/

theorem nodup_map_of_nodup {α β : Type} {l : List α} {f : α → β} (h : (l.map f).Nodup) {a b : α} (ha : a ∈ l)
    (hb : b ∈ l) (hab : f a = f b) : a = b := by
  induction l with
  | nil => simp at ha
  | cons x l ih =>
    simp only [List.map_cons, List.nodup_cons, List.mem_map, not_exists, not_and] at h
    simp only [List.mem_cons] at ha hb
    rcases ha with rfl | ha <;> rcases hb with rfl | hb
    · rfl
    · exact absurd hab.symm (h.1 b hb)
    · exact absurd hab (h.1 a ha)
    · exact ih h.2 ha hb

/-- **C11** (source-root partition). For every history of the file system and every list of roots: the partition has
one entry per root (adjacent repetitions of a root are merged); the entry of root `r` maps a path to a file id, and the
id to the path, exactly when the file exists under that path and lies under `r`. -/
theorem partition_correct (under : R → P → Bool) (roots : List R) (ops : List (Op P)) :
    ∃ v d, Vfs.empty.run ops = some (v, d) ∧
      (partition under roots v.files).map (·.2) = dedup roots ∧ (∀ r, r ∈ dedup roots ↔ r ∈ roots) ∧
      ∀ fs r, (fs, r) ∈ partition under roots v.files → ∀ id p,
        (fs.fileForPath p = some id ↔ v.fileId p = some (some id) ∧ under r p = true) ∧
        (fs.pathForFile id = some p ↔ v.fileId p = some (some id) ∧ under r p = true) ∧
        (id ∈ fs.ids ↔ ∃ q, v.fileId q = some (some id) ∧ under r q = true) := by
  obtain ⟨v, d, h, w, _⟩ := run_spec ops (WF.empty (P := P))
  refine ⟨v, d, h, by simp [partition, Function.comp_def], fun r => mem_dedup, ?_⟩
  intro fs r hm id p
  simp only [partition, List.mem_map, Prod.mk.injEq] at hm
  obtain ⟨r', _, hfs, rfl⟩ := hm
  have hfile : ∀ q i, v.fileId q = some (some i) ↔ (i, q) ∈ v.files := by
    intro q i
    rw [mem_files, fileId_spec w]
    constructor
    · intro hq
      split at hq <;> simp at hq
      next hs => rw [content_of_id hq] at hs; exact ⟨internGet_eq_some hq, hs⟩
    · rintro ⟨h1, h2⟩
      have hg := internGet_of_getElem? w.nodup h1
      have : (v.content q).isSome := by rw [content_of_id hg]; exact h2
      simp [this, hg]
  have hu := (fold_insert under r' v.files FileSet.empty).1
  have hf := (fold_insert under r' v.files FileSet.empty).2
  simp only [FileSet.empty, List.append_nil] at hu hf
  refine ⟨?_, ?_, ?_⟩
  · rw [← hfs, FileSet.fileForPath]
    simp only [FileSet.empty]
    rw [hf, ← lookup_of_mem, hfile]
    · simp only [List.mem_map, List.mem_reverse, List.mem_filter, Prod.mk.injEq]
      constructor
      · rintro ⟨e, ⟨h1, h2⟩, rfl, rfl⟩; exact ⟨h1, h2⟩
      · rintro ⟨h1, h2⟩; exact ⟨(id, p), ⟨h1, h2⟩, rfl, rfl⟩
    · rw [List.map_map, List.map_reverse, nodup_rev]
      exact (files_paths_nodup w).sublist (List.Sublist.map _ List.filter_sublist)
  · rw [← hfs, FileSet.pathForFile]
    simp only [FileSet.empty]
    rw [hu, ← lookup_of_mem, hfile]
    · simp only [List.mem_reverse, List.mem_filter]
    · rw [List.map_reverse, nodup_rev]
      exact (files_ids_nodup v).sublist (List.Sublist.map _ List.filter_sublist)
  · rw [← hfs, FileSet.ids]
    simp only [FileSet.empty]
    rw [hu]
    simp only [List.mem_map, List.mem_reverse, List.mem_filter, hfile]
    constructor
    · rintro ⟨e, ⟨h1, h2⟩, rfl⟩; exact ⟨e.2, h1, h2⟩
    · rintro ⟨q, h1, h2⟩; exact ⟨(id, q), ⟨h1, h2⟩, rfl⟩

/-- Two roots, one file in both, one in the second only, one in none. -/
example : ∃ v d, (Vfs.empty (P := Nat)).run [.set 3 (some []), .set 15 (some []), .set 99 (some []), .set 4 none] = some (v, d) ∧
    (partition (fun r p => p < r) [10, 10, 20] v.files).map (fun e => (e.1.ids, e.2)) = [([0], 10), ([1, 0], 20)] :=
  ⟨_, _, rfl, by decide⟩

end Verif.Props.DbSync
