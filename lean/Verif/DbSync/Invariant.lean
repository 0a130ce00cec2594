import Verif.DbSync.Lemmas
/-! The invariant connecting file system and database between two processings. -/

namespace Verif.DbSync
open Verif.Vfs Verif.DbSync.Spec
variable {P T R : Type} [DecidableEq P] [DecidableEq R]

/-- Contents by id. -/
def dat (v : Vfs P) (id : FileId) : Option Bytes := (v.data[id]?).join

def RootOK (cfg : Config P T R) (db : Db P T R) (id : FileId) (p : P) : Prop :=
  ∃ i fs r, db.sourceRootOf id = some i ∧ db.root i = some (fs, r) ∧ cfg.under r p = true ∧
    fs.fileForPath p = some id ∧ fs.pathForFile id = some p

def NoText (cfg : Config P T R) (db : Db P T R) (id : FileId) : Prop :=
  db.text id = none ∨ db.text id = some cfg.noText

def TextOK (cfg : Config P T R) (s : Server P T R) (id : FileId) : Prop :=
  match dat s.vfs id with
  | some b => s.db.text id = some (expectedText cfg (some b))
  | none => NoText cfg s.db id

/-- `e0 id`: did the file exist at the last processing. -/
structure Inv (cfg : Config P T R) (s : Server P T R) (e0 : FileId → Bool) : Prop where
  wf : WF s.vfs
  chain : ∀ id, chain (e0 id) (kindsOf id s.vfs.changes) = some (dat s.vfs id).isSome
  sync : ∀ id, kindsOf id s.vfs.changes = [] → TextOK cfg s id
  old : ∀ id, e0 id = false → NoText cfg s.db id
  root : ∀ id, e0 id = true → ∃ p, s.vfs.interner[id]? = some p ∧ RootOK cfg s.db id p
  covered : ∀ p ∈ s.vfs.interner, ∃ r ∈ cfg.roots, cfg.under r p = true

omit [DecidableEq P] [DecidableEq R] in
theorem dat_lt {v : Vfs P} (w : WF v) {id : FileId} (h : (dat v id).isSome) : ∃ p, v.interner[id]? = some p := by
  simp only [dat] at h
  rcases Nat.lt_or_ge id v.data.length with h1 | h1
  · rw [w.len] at h1; exact ⟨v.interner[id], by simp [h1]⟩
  · simp [List.getElem?_eq_none h1] at h

omit [DecidableEq P] in
theorem mem_files {v : Vfs P} {id : FileId} {p : P} :
    (id, p) ∈ v.files ↔ v.interner[id]? = some p ∧ (dat v id).isSome := by
  simp only [Vfs.files, Vfs.iter, List.mem_filterMap, List.mem_map, List.mem_filter, List.mem_range, Vfs.filePath, Vfs.get, dat]
  constructor
  · rintro ⟨⟨i, q⟩, ⟨j, ⟨hj, hs⟩, he⟩, hm⟩
    simp only [Prod.mk.injEq] at he
    obtain ⟨rfl, rfl⟩ := he
    simp only [Option.map_eq_some_iff, Prod.mk.injEq] at hm
    obtain ⟨q, hq, rfl, rfl⟩ := hm
    exact ⟨hq, hs⟩
  · rintro ⟨h1, h2⟩
    refine ⟨(id, some p), ⟨id, ⟨?_, h2⟩, by rw [h1]⟩, rfl⟩
    rcases Nat.lt_or_ge id v.data.length with h3 | h3
    · exact h3
    · simp [List.getElem?_eq_none h3] at h2

omit [DecidableEq P] in
theorem files_ids_nodup (v : Vfs P) : (v.files.map (·.1)).Nodup := by
  have : (v.files.map (·.1)).Sublist (List.range v.data.length) := by
    simp only [Vfs.files, Vfs.iter]
    have h1 : ∀ l : List (FileId × Option P),
        ((l.filterMap (fun e => e.2.map (fun p => (e.1, p)))).map (·.1)).Sublist (l.map (·.1)) := by
      intro l
      induction l with
      | nil => simp
      | cons e l ih =>
        obtain ⟨i, q⟩ := e
        cases q with
        | none => simp only [List.filterMap_cons, Option.map_none, List.map_cons]; exact List.Sublist.cons _ ih
        | some q => simp only [List.filterMap_cons, Option.map_some, List.map_cons]; exact List.Sublist.cons_cons _ ih
    refine (h1 _).trans ?_
    simp only [List.map_map, Function.comp_def, List.map_id']
    exact List.filter_sublist
  exact List.nodup_range.sublist this

theorem files_paths_nodup {v : Vfs P} (w : WF v) : (v.files.map (·.2)).Nodup := by
  have hi := files_ids_nodup v
  have hall : ∀ e ∈ v.files, v.interner[e.1]? = some e.2 := fun e he => (mem_files.1 he).1
  generalize v.files = l at *
  induction l with
  | nil => simp
  | cons e l ih =>
    simp only [List.map_cons, List.nodup_cons] at hi ⊢
    refine ⟨?_, ih hi.2 (fun e he => hall e (List.mem_cons_of_mem _ he))⟩
    intro hm
    simp only [List.mem_map] at hm
    obtain ⟨e', he', heq⟩ := hm
    have h1 := hall e List.mem_cons_self
    have h2 := hall e' (List.mem_cons_of_mem _ he')
    rw [heq] at h2
    have h3 := internGet_of_getElem? w.nodup h1
    have h4 := internGet_of_getElem? w.nodup h2
    rw [h3] at h4
    have : e.1 = e'.1 := Option.some.inj h4
    exact hi.1 (by rw [this]; exact List.mem_map_of_mem he')

theorem nodup_rev {α : Type} {l : List α} : l.reverse.Nodup ↔ l.Nodup := by
  simp only [List.Nodup, List.pairwise_reverse]
  constructor <;> intro h <;> exact h.imp (fun h e => h e.symm)

theorem setRoots_partition {cfg : Config P T R} {v : Vfs P} (w : WF v) (db : Db P T R) {id : FileId} {p : P}
    (hm : (id, p) ∈ v.files) (hc : ∃ r ∈ cfg.roots, cfg.under r p = true) :
    RootOK cfg (db.setRoots (partition cfg.under cfg.roots v.files)) id p := by
  obtain ⟨r, hr, hu⟩ := hc
  have hr' : r ∈ dedup cfg.roots := mem_dedup.2 hr
  -- the sets of the partition
  have hids : ∀ r, id ∈ (v.files.foldl (insertIfUnder cfg.under r) FileSet.empty).ids ↔ cfg.under r p = true := by
    intro r
    rw [FileSet.ids, (fold_insert cfg.under r v.files FileSet.empty).1]
    simp only [FileSet.empty, List.append_nil, List.mem_map, List.mem_reverse, List.mem_filter]
    constructor
    · rintro ⟨⟨i, q⟩, ⟨h1, h2⟩, rfl⟩
      have := (lookup_of_mem (files_ids_nodup v)).1 h1
      rw [(lookup_of_mem (files_ids_nodup v)).1 hm] at this
      cases this; exact h2
    · intro h; exact ⟨(id, p), ⟨hm, h⟩, rfl⟩
  have hex : ∃ e, ((partition cfg.under cfg.roots v.files).zipIdx.reverse.find? (fun e => decide (id ∈ e.1.1.ids))) = some e := by
    apply Option.isSome_iff_exists.1
    rw [List.find?_isSome]
    obtain ⟨n, hn, hnr⟩ := List.mem_iff_getElem.1 hr'
    refine ⟨((v.files.foldl (insertIfUnder cfg.under r) FileSet.empty, r), n), ?_, ?_⟩
    · rw [List.mem_reverse, List.mem_zipIdx_iff_getElem?]
      simp [partition, hn, hnr]
    · simpa using (hids r).2 hu
  obtain ⟨⟨⟨fs, r'⟩, i⟩, he⟩ := hex
  have hmem := List.mem_of_find?_eq_some he
  have hP := List.find?_some he
  rw [List.mem_reverse, List.mem_zipIdx_iff_getElem?] at hmem
  simp only at hmem
  have hget : (dedup cfg.roots)[i]? = some r' ∧ fs = v.files.foldl (insertIfUnder cfg.under r') FileSet.empty := by
    simp only [partition, List.getElem?_map, Option.map_eq_some_iff, Prod.mk.injEq] at hmem
    obtain ⟨x, hx, h1, h2⟩ := hmem
    exact ⟨by rw [hx, h2], by rw [← h1, h2]⟩
  have hu' : cfg.under r' p = true := by
    rw [hget.2] at hP; exact (hids r').1 (by simpa using hP)
  refine ⟨i, fs, r', ?_, ?_, hu', ?_, ?_⟩
  · simp only [Db.setRoots, he]
  · simp only [Db.setRoots, hmem]
  · rw [hget.2, FileSet.fileForPath, (fold_insert cfg.under r' v.files FileSet.empty).2]
    simp only [FileSet.empty, List.append_nil]
    rw [← lookup_of_mem]
    · simp only [List.mem_map, List.mem_reverse, List.mem_filter]
      exact ⟨(id, p), ⟨hm, hu'⟩, rfl⟩
    · have := files_paths_nodup w
      rw [List.map_map, List.map_reverse, nodup_rev]
      exact this.sublist (List.Sublist.map _ List.filter_sublist)
  · rw [hget.2, FileSet.pathForFile, (fold_insert cfg.under r' v.files FileSet.empty).1]
    simp only [FileSet.empty, List.append_nil]
    rw [← lookup_of_mem]
    · simp only [List.mem_reverse, List.mem_filter]; exact ⟨hm, hu'⟩
    · rw [List.map_reverse, nodup_rev]
      exact (files_ids_nodup v).sublist (List.Sublist.map _ List.filter_sublist)

omit [DecidableEq R] [DecidableEq P] in
theorem setRoots_keeps (db : Db P T R) (roots : List (FileSet P × R)) {id : FileId}
    (h : ∃ i x, db.sourceRootOf id = some i ∧ db.root i = some x) :
    ∃ i x, (db.setRoots roots).sourceRootOf id = some i ∧ (db.setRoots roots).root i = some x := by
  simp only [Db.setRoots]
  cases he : roots.zipIdx.reverse.find? (fun e => decide (id ∈ e.1.1.ids)) with
  | some e =>
    have := List.mem_of_find?_eq_some he
    rw [List.mem_reverse, List.mem_zipIdx_iff_getElem?] at this
    exact ⟨e.2, e.1, rfl, by simp [this]⟩
  | none =>
    obtain ⟨i, x, h1, h2⟩ := h
    refine ⟨i, ?_⟩
    simp only [h1]
    cases hr : roots[i]? with
    | some y => exact ⟨y, trivial, rfl⟩
    | none => exact ⟨x, trivial, h2⟩

omit [DecidableEq R] in
theorem RootOK.isSet {cfg : Config P T R} {db : Db P T R} {id : FileId} {p : P} (h : RootOK cfg db id p) :
    ∃ i x, db.sourceRootOf id = some i ∧ db.root i = some x := by
  obtain ⟨i, fs, r, h1, h2, _⟩ := h; exact ⟨i, (fs, r), h1, h2⟩

/-- Processing with calm batches succeeds and re-establishes agreement. -/
theorem process_inv {cfg : Config P T R} {s : Server P T R} {e0 : FileId → Bool} (h : Inv cfg s e0)
    (hf : ∀ id, flips (kindsOf id s.vfs.changes) ≤ 2) :
    ∃ s', s.processChanges cfg = some s' ∧ s'.vfs = { s.vfs with changes := [] } ∧
      Inv cfg s' (fun id => (dat s.vfs id).isSome) ∧ ∀ id, TextOK cfg s' id := by
  have finish : ∀ db' kn, (∀ id, TextOK cfg (⟨{ s.vfs with changes := [] }, db', kn⟩ : Server P T R) id) →
      (∀ id p, (dat s.vfs id).isSome → s.vfs.interner[id]? = some p → RootOK cfg db' id p) →
      Inv cfg (⟨{ s.vfs with changes := [] }, db', kn⟩ : Server P T R) (fun id => (dat s.vfs id).isSome) := by
    intro db' kn ht hr
    refine ⟨⟨h.wf.nodup, h.wf.len⟩, fun id => rfl, fun id _ => ht id, ?_, ?_, h.covered⟩
    · intro id hid
      have := ht id
      simp only [TextOK] at this
      have hd : dat s.vfs id = none := by simpa using hid
      have hd' : dat ({ s.vfs with changes := [] } : Vfs P) id = none := hd
      rw [hd'] at this; exact this
    · intro id hid
      obtain ⟨p, hp⟩ := dat_lt h.wf hid
      exact ⟨p, hp, hr id p hid hp⟩
  by_cases hlog : s.vfs.changes = []
  · refine ⟨s, by simp [Server.processChanges, Vfs.takeChanges, hlog], ?_, ?_, fun id => h.sync id (by simp [kindsOf, hlog])⟩
    · cases hs : s.vfs; simp_all
    · have : s = ⟨{ s.vfs with changes := [] }, s.db, s.known⟩ := by
        cases s with | mk v db kn => cases v; simp_all
      rw [this]
      refine finish s.db s.known ?_ ?_
      · intro id; rw [← this]; exact h.sync id (by simp [kindsOf, hlog])
      · intro id p hid hp
        have hc := h.chain id
        simp only [hlog, kindsOf, List.filter_nil, List.map_nil, DbSync.chain] at hc
        obtain ⟨q, hq, hr⟩ := h.root id (by rw [Option.some.inj hc]; exact hid)
        rw [hp] at hq; cases hq; exact hr
  · -- the interesting case
    have spec : ∀ id, kindsOf id s.vfs.changes ≠ [] → _ := fun id hne => merge_spec (h.chain id) (hf id) hne
    have hcontents : ∀ c ∈ changedFiles s.vfs.changes, c.kind ≠ .delete → ∃ b, dat s.vfs c.fileId = some b := by
      intro c hc hk
      obtain ⟨jc, h1, h2⟩ := mem_changedFiles.1 hc
      have hne : kindsOf c.fileId s.vfs.changes ≠ [] := by intro h0; rw [h0] at h1; simp [mergeAll] at h1
      obtain ⟨k, jc', g, g1, g2, g3, g4⟩ := spec _ hne
      rw [h1] at g; simp only [Option.some.injEq, Prod.mk.injEq] at g
      obtain ⟨rfl, rfl⟩ := g
      cases hd : dat s.vfs c.fileId with
      | some b => exact ⟨b, rfl⟩
      | none =>
        cases he : e0 c.fileId
        · exact absurd (g4 he (by simp [hd])).1 hk
        · exact absurd (g2 he (by simp [hd])).1 hk
    obtain ⟨texts, t1, t2, t3⟩ := textsOf_spec cfg ({ s.vfs with changes := [] } : Vfs P) (changedFiles s.vfs.changes)
      (fun c hc hk => by
        obtain ⟨b, hb⟩ := hcontents c hc hk
        exact ⟨b, by simpa [Vfs.fileContents, Vfs.get, dat] using hb⟩)
    have hnd : (texts.map (·.1)).Nodup := by rw [t2]; exact changedFiles_nodup _
    -- database after the roots
    have hstruct : ∃ db1 : Db P T R,
        (if (changedFiles s.vfs.changes).any (fun c => c.kind = .create || c.kind = .delete) = true
          then s.db.setRoots (partition cfg.under cfg.roots ({ s.vfs with changes := [] } : Vfs P).files) else s.db) = db1 ∧
        db1.text = s.db.text ∧
        (∀ id p, (dat s.vfs id).isSome → s.vfs.interner[id]? = some p → RootOK cfg db1 id p) ∧
        (∀ id, e0 id = true → ∃ i x, db1.sourceRootOf id = some i ∧ db1.root i = some x) := by
      by_cases hst : (changedFiles s.vfs.changes).any (fun c => c.kind = .create || c.kind = .delete) = true
      · refine ⟨_, if_pos hst, rfl, ?_, ?_⟩
        · intro id p hid hp
          exact setRoots_partition (v := { s.vfs with changes := [] }) ⟨h.wf.nodup, h.wf.len⟩ _
            (mem_files.2 ⟨hp, hid⟩) (h.covered p (List.mem_of_getElem? hp))
        · intro id hid
          obtain ⟨p, _, hr⟩ := h.root id hid
          exact setRoots_keeps _ _ hr.isSet
      · refine ⟨_, if_neg hst, rfl, ?_, ?_⟩
        · intro id p hid hp
          have he0 : e0 id = true := by
            by_cases hne : kindsOf id s.vfs.changes = []
            · have := h.chain id
              rw [hne] at this
              simp only [DbSync.chain] at this
              rw [Option.some.inj this]; exact hid
            · cases he : e0 id with
              | true => rfl
              | false =>
                obtain ⟨k, jc, g, g1, g2, g3, g4⟩ := spec id hne
                have hk := g3 he hid
                subst hk
                exfalso; apply hst
                rw [List.any_eq_true]
                exact ⟨⟨id, .create⟩, mem_changedFiles.2 ⟨jc, g, by simp⟩, by simp⟩
          obtain ⟨q, hq, hr⟩ := h.root id he0
          rw [hp] at hq; cases hq; exact hr
        · intro id hid
          obtain ⟨p, _, hr⟩ := h.root id hid
          exact hr.isSet
    obtain ⟨db1, hdb1, htext1, hroot1, hset1⟩ := hstruct
    obtain ⟨db2, d1, d2, d3, d4⟩ := setTexts_spec cfg.noText texts db1 hnd (by
      intro id hid
      rw [t2, List.mem_map] at hid
      obtain ⟨c, hc, rfl⟩ := hid
      obtain ⟨jc, h1, h2⟩ := mem_changedFiles.1 hc
      have hne : kindsOf c.fileId s.vfs.changes ≠ [] := by intro h0; rw [h0] at h1; simp [mergeAll] at h1
      cases he : e0 c.fileId with
      | true => exact hset1 _ he
      | false =>
        obtain ⟨k, jc', g, g1, g2, g3, g4⟩ := spec _ hne
        rw [h1] at g; simp only [Option.some.injEq, Prod.mk.injEq] at g
        obtain ⟨rfl, rfl⟩ := g
        cases hd : (dat s.vfs c.fileId).isSome with
        | false => exact absurd (g4 he hd) h2
        | true =>
          obtain ⟨p, hp⟩ := dat_lt h.wf hd
          exact (hroot1 _ p hd hp).isSet)
    refine ⟨⟨{ s.vfs with changes := [] }, db2,
      (({ s.vfs with changes := [] } : Vfs P).files.filter (fun e => cfg.isSource e.2)).map (·.1)⟩, ?_, rfl, ?_⟩
    · dsimp only at hdb1
      simp only [Server.processChanges, Vfs.takeChanges, hlog, if_false, t1]
      by_cases hst : (changedFiles s.vfs.changes).any (fun c => c.kind = .create || c.kind = .delete) = true
      · simp only [hst, if_true] at hdb1 ⊢
        rw [hdb1, d1]
      · simp only [hst, if_false, Bool.false_eq_true] at hdb1 ⊢
        rw [hdb1, d1]
    · have ht : ∀ id, TextOK cfg (⟨{ s.vfs with changes := [] }, db2,
          (({ s.vfs with changes := [] } : Vfs P).files.filter (fun e => cfg.isSource e.2)).map (·.1)⟩ : Server P T R) id := by
        intro id
        by_cases hne : kindsOf id s.vfs.changes = []
        · have hl : texts.lookup id = none := by
            rw [lookup_eq_none, t2, List.mem_map]
            rintro ⟨c, hc, rfl⟩
            obtain ⟨jc, h1, _⟩ := mem_changedFiles.1 hc
            rw [hne] at h1; simp [mergeAll] at h1
          have hold := h.sync id hne
          have hd := d4 id
          rw [hl, htext1] at hd
          simp only [TextOK, NoText] at hold ⊢
          rw [hd]
          exact hold
        · obtain ⟨k, jc, g, g1, g2, g3, g4⟩ := spec id hne
          have hd := d4 id
          cases hdat : dat s.vfs id with
          | some b =>
            have hk : k ≠ .delete ∧ ¬ (k = .delete ∧ jc = true) := by
              cases he : e0 id
              · rw [g3 he (by simp [hdat])]; simp
              · rw [g1 he (by simp [hdat])]; simp
            have hm := (t3 _ (mem_changedFiles.2 ⟨jc, g, hk.2⟩)).2 hk.1 b
              (by simpa [Vfs.fileContents, Vfs.get, dat] using hdat)
            rw [(lookup_of_mem hnd).1 hm] at hd
            simp only [TextOK]
            rw [show dat ({ s.vfs with changes := [] } : Vfs P) id = some b from hdat]
            exact hd
          | none =>
            simp only [TextOK]
            rw [show dat ({ s.vfs with changes := [] } : Vfs P) id = none from hdat]
            cases he : e0 id with
            | true =>
              obtain ⟨rfl, rfl⟩ := g2 he (by simp [hdat])
              have hm := (t3 _ (mem_changedFiles.2 ⟨_, g, by simp⟩)).1 rfl
              rw [(lookup_of_mem hnd).1 hm] at hd
              exact Or.inr hd
            | false =>
              obtain ⟨rfl, rfl⟩ := g4 he (by simp [hdat])
              have hl : texts.lookup id = none := by
                rw [lookup_eq_none, t2, List.mem_map]
                rintro ⟨c, hc, rfl⟩
                obtain ⟨jc, h1, h2⟩ := mem_changedFiles.1 hc
                rw [g] at h1
                simp only [Option.some.injEq, Prod.mk.injEq] at h1
                exact h2 ⟨h1.1.symm, h1.2.symm⟩
              rw [hl, htext1] at hd
              have := h.old id he
              simp only [NoText] at this ⊢
              rw [hd]; exact this
      refine ⟨finish db2 _ ht ?_, ht⟩
      intro id p hid hp
      have := hroot1 id p hid hp
      simp only [RootOK, d2, d3] at this ⊢
      exact this

theorem kindsOf_append (id : FileId) (l : List ChangedFile) (c : ChangedFile) :
    kindsOf id (l ++ [c]) = if c.fileId = id then kindsOf id l ++ [c.kind] else kindsOf id l := by
  by_cases h : c.fileId = id <;> simp [kindsOf, List.filter_append, h]

/-- Changes of existence of `p` since the last processing. -/
def flipsOf (v : Vfs P) (p : P) : Nat :=
  match internGet v.interner p with
  | some id => flips (kindsOf id v.changes)
  | none => 0

theorem set_inv {cfg : Config P T R} {s : Server P T R} {e0 : FileId → Bool} (h : Inv cfg s e0) (p : P)
    (c : Option Bytes) (hc : ∃ r ∈ cfg.roots, cfg.under r p = true)
    (h0 : ∀ id, kindsOf id s.vfs.changes ≠ [] → id < s.vfs.interner.length) :
    ∃ s', s.step cfg (.set p c) = some s' ∧ Inv cfg s' e0 ∧
      (∀ id, kindsOf id s'.vfs.changes ≠ [] → id < s'.vfs.interner.length) ∧
      (∀ q, s'.vfs.content q = if q = p then c else s.vfs.content q) ∧
      (∀ q, flipsOf s'.vfs q = flipsOf s.vfs q + if q = p ∧ c.isSome ≠ (s.vfs.content q).isSome then 1 else 0) := by
  obtain ⟨v', b, id, hset, wf', hint, hid, hdat, heq, hne⟩ := set_data h.wf p c
  obtain ⟨v2, b2, hset2, _, _, hcont, _⟩ := set_spec h.wf p c
  rw [hset] at hset2
  simp only [Option.some.injEq, Prod.mk.injEq] at hset2
  obtain ⟨rfl, rfl⟩ := hset2
  have hidlt : id < v'.interner.length := by
    have := internGet_eq_some hid
    rcases Nat.lt_or_ge id v'.interner.length with h2 | h2
    · exact h2
    · simp [List.getElem?_eq_none h2] at this
  have hlen : s.vfs.interner.length ≤ v'.interner.length := by
    rcases hint with h1 | h1 <;> rw [h1] <;> simp
  have hkeep : ∀ q j, internGet s.vfs.interner q = some j → internGet v'.interner q = some j := by
    intro q j hj
    rcases hint with h1 | h1
    · rw [h1]; exact hj
    · rw [h1]; exact internGet_append_of_nodup (h1 ▸ wf'.nodup) hj
  have hinterner : ∀ (j : Nat) (q : P), s.vfs.interner[j]? = some q → v'.interner[j]? = some q := by
    intro j q hj
    rcases hint with h1 | h1
    · rw [h1]; exact hj
    · rw [h1, List.getElem?_append_left, hj]
      rcases Nat.lt_or_ge j s.vfs.interner.length with h2 | h2
      · exact h2
      · simp [List.getElem?_eq_none h2] at hj
  have hk : ∀ j, kindsOf j v'.changes =
      if j = id ∧ dat s.vfs id ≠ c then kindsOf j s.vfs.changes ++
        [if dat s.vfs id = none then .create else if c = none then .delete else .modify]
      else kindsOf j s.vfs.changes := by
    intro j
    by_cases hd : dat s.vfs id = c
    · rw [heq hd]; simp [hd]
    · rw [hne hd, kindsOf_append]
      by_cases hj : j = id
      · subst hj; simp only [hd, if_true, ne_eq, not_false_eq_true, and_self]; rfl
      · simp [hj, Ne.symm hj]
  have hdat' : ∀ j, dat v' j = if j = id then c else dat s.vfs j := hdat
  refine ⟨{ s with vfs := v' }, by simp [Server.step, hset], ⟨wf', ?_, ?_, ?_, ?_, ?_⟩, ?_, hcont, ?_⟩
  · intro j
    simp only [hk, hdat']
    by_cases hj : j = id
    · subst hj
      by_cases hd : dat s.vfs j = c
      · have := h.chain j
        rw [hd] at this
        simpa [hd] using this
      · simp only [hd, ne_eq, not_false_eq_true, and_self, if_true]
        rw [chain_snoc (h.chain j)]
        cases hx : dat s.vfs j <;> cases hy : c <;> simp_all [DbSync.chain]
    · simp [hj, h.chain j]
  · intro j hj
    simp only [hk] at hj
    by_cases hj' : j = id
    · subst hj'
      by_cases hd : dat s.vfs j = c
      · simp only [hd, ne_eq, not_true, and_false, if_false] at hj
        have := h.sync j hj
        simp only [TextOK, hdat', if_true, ← hd] at this ⊢
        exact this
      · simp [hd] at hj
    · simp only [hj', false_and, if_false] at hj
      have := h.sync j hj
      simp only [TextOK, hdat', hj', if_false] at this ⊢
      exact this
  · exact h.old
  · intro j hj
    obtain ⟨q, hq, hr⟩ := h.root j hj
    exact ⟨q, hinterner j q hq, hr⟩
  · intro q hq
    rcases hint with h1 | h1
    · rw [h1] at hq; exact h.covered q hq
    · rw [h1, List.mem_append, List.mem_singleton] at hq
      rcases hq with hq | rfl
      · exact h.covered q hq
      · exact hc
  · intro j hj
    simp only [hk] at hj
    by_cases hj' : j = id
    · subst hj'; exact hidlt
    · simp only [hj', false_and, if_false] at hj
      exact Nat.lt_of_lt_of_le (h0 j hj) hlen
  · intro q
    simp only [flipsOf]
    by_cases hq : q = p
    · subst hq
      simp only [hid, hk, true_and]
      have hold : flipsOf s.vfs q = flips (kindsOf id s.vfs.changes) ∧ s.vfs.content q = dat s.vfs id := by
        cases hg : internGet s.vfs.interner q with
        | some j =>
          have := hkeep q j hg
          rw [hid] at this; cases this
          exact ⟨by simp [flipsOf, hg], content_of_id hg⟩
        | none =>
          have hge : s.vfs.interner.length ≤ id := by
            rcases Nat.lt_or_ge id s.vfs.interner.length with h2 | h2
            · have h3 : s.vfs.interner[id]? = some s.vfs.interner[id] := by simp [h2]
              have h4 := internGet_eq_some hid
              rw [hinterner id _ h3] at h4
              have := internGet_eq_none.1 hg
              exact absurd (Option.some.inj h4 ▸ List.getElem_mem h2) this
            · exact h2
          have hk0 : kindsOf id s.vfs.changes = [] := by
            apply Decidable.byContradiction; intro hne
            exact absurd (h0 id hne) (Nat.not_lt.2 hge)
          refine ⟨by simp [flipsOf, hg, hk0, flips], ?_⟩
          simp only [Vfs.content, hg, Option.bind_none, dat]
          rw [List.getElem?_eq_none (by rw [h.wf.len]; exact hge)]; rfl
      rw [← flipsOf, hold.1, hold.2]
      by_cases hd : dat s.vfs id = c
      · simp [hd]
      · simp only [hd, ne_eq, not_false_eq_true, if_true]
        rw [flips_snoc]
        cases hx : dat s.vfs id <;> cases hy : c <;> simp_all
    · simp only [hq, false_and, if_false, Nat.add_zero]
      cases hg : internGet s.vfs.interner q with
      | some j =>
        rw [hkeep q j hg]
        have : j ≠ id := by
          rintro rfl
          have h1 := internGet_eq_some (hkeep q j hg)
          have h2 := internGet_eq_some hid
          rw [h1] at h2; exact hq (Option.some.inj h2)
        simp [hk, this]
      | none =>
        cases hg' : internGet v'.interner q with
        | none => rfl
        | some j =>
          have h1 := List.mem_of_getElem? (internGet_eq_some hg')
          rcases hint with h2 | h2
          · rw [h2] at h1; exact absurd h1 (internGet_eq_none.1 hg)
          · rw [h2, List.mem_append, List.mem_singleton] at h1
            rcases h1 with h1 | h1
            · exact absurd h1 (internGet_eq_none.1 hg)
            · exact absurd h1 hq

theorem agrees_of_inv {cfg : Config P T R} {s : Server P T R} (h : Inv cfg s (fun id => (dat s.vfs id).isSome))
    (ht : ∀ id, TextOK cfg s id) (p : P) : Agrees cfg s p (s.vfs.content p) := by
  cases hc : s.vfs.content p with
  | some b =>
    cases hg : internGet s.vfs.interner p with
    | none => simp [Vfs.content, hg] at hc
    | some id =>
      have hd : dat s.vfs id = some b := by rw [← hc, content_of_id hg]; rfl
      refine ⟨id, by rw [fileId_spec h.wf, hc]; simp [hg], ?_, ?_⟩
      · have := ht id; simp only [TextOK, hd] at this; exact this
      · obtain ⟨q, hq, hr⟩ := h.root id (by simp [hd])
        have := internGet_eq_some hg
        rw [this] at hq; cases hq; exact hr
  | none =>
    refine ⟨by rw [fileId_spec h.wf, hc]; simp, ?_⟩
    intro id hg
    have hd : dat s.vfs id = none := by rw [← hc, content_of_id hg]; rfl
    have := ht id; simp only [TextOK, hd] at this; exact this

theorem run_append (cfg : Config P T R) (a b : List (Ev P)) : ∀ s : Server P T R,
    s.run cfg (a ++ b) = (s.run cfg a).bind (fun s' => s'.run cfg b) := by
  induction a with
  | nil => intro s; rfl
  | cons e es ih =>
    intro s
    simp only [List.cons_append, Server.run]
    cases s.step cfg e with
    | none => rfl
    | some s' => exact ih s'

/-- The main induction. -/
theorem run_inv (cfg : Config P T R) (evs : List (Ev P)) : ∀ (s : Server P T R) (e0 : FileId → Bool), Inv cfg s e0 →
    (∀ id, kindsOf id s.vfs.changes ≠ [] → id < s.vfs.interner.length) →
    (∀ id, flips (kindsOf id s.vfs.changes) ≤ 2) →
    Covered cfg evs → (∀ p, Calm p (s.vfs.content p).isSome (flipsOf s.vfs p) evs) →
    ∃ s' e1, s.run cfg evs = some s' ∧ Inv cfg s' e1 ∧
      (∀ id, kindsOf id s'.vfs.changes ≠ [] → id < s'.vfs.interner.length) ∧
      (∀ id, flips (kindsOf id s'.vfs.changes) ≤ 2) ∧
      ∀ p, s'.vfs.content p = evs.foldl (fun acc e =>
        match e with
        | .set q c => if q = p then c else acc
        | .process => acc) (s.vfs.content p) := by
  induction evs with
  | nil => intro s e0 h h0 hf _ _; exact ⟨s, e0, rfl, h, h0, hf, fun _ => rfl⟩
  | cons e es ih =>
    intro s e0 h h0 hf hcov hcalm
    have hcov' : Covered cfg es := fun p c hm => hcov p c (List.mem_cons_of_mem _ hm)
    cases e with
    | set p c =>
      obtain ⟨s1, hs1, h1, h01, hcont, hfl⟩ := set_inv h p c (hcov p c List.mem_cons_self) h0
      have hcalm' : ∀ q, Calm q (s1.vfs.content q).isSome (flipsOf s1.vfs q) es ∧
          (flipsOf s1.vfs q ≤ 2 ∨ flipsOf s1.vfs q = flipsOf s.vfs q) := by
        intro q
        have := hcalm q
        rw [hcont, hfl]
        by_cases hq : q = p
        · subst hq
          by_cases hx : c.isSome = (s.vfs.content q).isSome
          · simp only [Calm, hx, ne_eq, not_true, and_false, if_false] at this
            simp only [hx, if_true, ne_eq, not_true, and_false, if_false, Nat.add_zero, or_true, and_true]
            exact this
          · simp only [Calm, hx, ne_eq, not_false_eq_true, and_self, if_true] at this
            simp only [hx, ne_eq, not_false_eq_true, and_self, if_true]
            exact ⟨this.2, Or.inl this.1⟩
        · simp only [Calm, Ne.symm hq, false_and, if_false] at this
          simp only [hq, if_false, false_and, Nat.add_zero, or_true, and_true]
          exact this
      have hf1 : ∀ id, flips (kindsOf id s1.vfs.changes) ≤ 2 := by
        intro id
        by_cases hk : kindsOf id s1.vfs.changes = []
        · simp [hk, flips]
        · have hlt := h01 id hk
          have hg := internGet_of_getElem? h1.wf.nodup (i := id) (p := s1.vfs.interner[id]) (by simp [hlt])
          have hq := (hcalm' s1.vfs.interner[id]).2
          have he : flipsOf s1.vfs s1.vfs.interner[id] = flips (kindsOf id s1.vfs.changes) := by
            simp [flipsOf, hg]
          have hs : flipsOf s.vfs s1.vfs.interner[id] ≤ 2 := by
            simp only [flipsOf]; split
            · exact hf _
            · omega
          omega
      obtain ⟨s2, e2, hr, hi, h02, hf2, hc2⟩ := ih s1 e0 h1 h01 hf1 hcov' (fun q => (hcalm' q).1)
      refine ⟨s2, e2, by simp [Server.run, hs1, hr], hi, h02, hf2, ?_⟩
      intro q
      rw [hc2, List.foldl_cons, hcont]
      by_cases hq : q = p
      · subst hq; simp
      · simp [hq, Ne.symm hq]
    | process =>
      obtain ⟨s1, hs1, hv, h1, _⟩ := process_inv h hf
      have hk : ∀ id, kindsOf id s1.vfs.changes = [] := by intro id; rw [hv]; rfl
      have hc : ∀ q, s1.vfs.content q = s.vfs.content q := by intro q; rw [hv]; rfl
      obtain ⟨s2, e2, hr, hi, h02, hf2, hc2⟩ := ih s1 _ h1 (fun id hne => absurd (hk id) hne)
        (fun id => by simp [hk, flips]) hcov' (fun q => by
          have := hcalm q
          simp only [Calm] at this
          rw [hc]
          have h0 : flipsOf s1.vfs q = 0 := by
            simp only [flipsOf]; split
            · simp [hk, flips]
            · rfl
          rw [h0]; exact this)
      refine ⟨s2, e2, by simp [Server.run, Server.step, hs1, hr], hi, h02, hf2, ?_⟩
      intro q
      rw [hc2, List.foldl_cons, hc]

theorem inv_init (cfg : Config P T R) : Inv cfg Server.init (fun _ => false) := by
  refine ⟨WF.empty, fun id => rfl, ?_, fun id _ => Or.inl rfl, by simp, ?_⟩
  · intro id _
    simp [TextOK, dat, Server.init, Vfs.empty, NoText, Db.init]
  · simp [Server.init, Vfs.empty]

end Verif.DbSync
