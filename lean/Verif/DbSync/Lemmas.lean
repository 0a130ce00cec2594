import Verif.DbSync.Spec
import Verif.Vfs.Lemmas
/-! Helper lemmas for `Verif.Props.DbSync`. -/

namespace Verif.DbSync
open Verif.Vfs Verif.DbSync.Spec

/-! ### Event chains of one file -/

/-- Existence after a list of events, `none` if the events are inconsistent. -/
def chain : Bool → List ChangeKind → Option Bool
  | e, [] => some e
  | true, .modify :: r => chain true r
  | true, .delete :: r => chain false r
  | false, .create :: r => chain true r
  | true, .create :: _ => none
  | false, .modify :: _ => none
  | false, .delete :: _ => none

def flips (ks : List ChangeKind) : Nat := (ks.filter (fun k => k ≠ .modify)).length

def mergeAll (e : Option (ChangeKind × Bool)) (ks : List ChangeKind) : Option (ChangeKind × Bool) :=
  ks.foldl (fun e k => some (mergeOpt e k)) e

theorem merge_S3 {ks e1} (h : chain true ks = some e1) (hf : flips ks ≤ 0) :
    e1 = true ∧ mergeAll (some (.modify, true)) ks = some (.modify, true) := by
  induction ks with
  | nil => simp [chain] at h; simp [h, mergeAll]
  | cons k r ih =>
    cases k <;> simp [chain, flips] at h hf
    exact ih h (by simp [flips]; exact hf)

theorem merge_S2 {ks e1} (h : chain false ks = some e1) (hf : flips ks ≤ 1) :
    (e1 = true → mergeAll (some (.delete, false)) ks = some (.modify, true)) ∧
    (e1 = false → mergeAll (some (.delete, false)) ks = some (.delete, false)) := by
  cases ks with
  | nil => simp [chain] at h; simp [← h, mergeAll]
  | cons k r =>
    cases k <;> simp [chain] at h
    have := merge_S3 h (by simp [flips] at hf ⊢; exact hf)
    simp [this.1]; exact this.2

theorem merge_S1 {ks e1} (h : chain true ks = some e1) (hf : flips ks ≤ 2) :
    (e1 = true → ∃ b, mergeAll (some (.modify, false)) ks = some (.modify, b)) ∧
    (e1 = false → mergeAll (some (.modify, false)) ks = some (.delete, false)) := by
  induction ks with
  | nil => simp [chain] at h; simp [← h, mergeAll]
  | cons k r ih =>
    cases k <;> simp [chain] at h
    · exact ih h (by simp [flips] at hf ⊢; exact hf)
    · have := merge_S2 h (by simp [flips] at hf ⊢; omega)
      exact ⟨fun he => ⟨_, this.1 he⟩, this.2⟩

theorem merge_T1 {ks e1} (h : chain true ks = some e1) (hf : flips ks ≤ 1) :
    (e1 = true → mergeAll (some (.create, true)) ks = some (.create, true)) ∧
    (e1 = false → mergeAll (some (.create, true)) ks = some (.delete, true)) := by
  induction ks with
  | nil => simp [chain] at h; simp [← h, mergeAll]
  | cons k r ih =>
    cases k <;> simp [chain] at h
    · exact ih h (by simp [flips] at hf ⊢; exact hf)
    · have hr : r = [] := by
        cases r with
        | nil => rfl
        | cons k r => cases k <;> simp [chain, flips] at h hf
      subst hr
      simp [chain] at h
      subst h
      simp [mergeAll, mergeOpt, mergeEvent]

/-- What coalescing makes of the events of one file if its existence changed at most twice. -/
theorem merge_spec {e0 e1 ks} (h : chain e0 ks = some e1) (hf : flips ks ≤ 2) (hne : ks ≠ []) :
    ∃ k jc, mergeAll none ks = some (k, jc) ∧
      (e0 = true → e1 = true → k = .modify) ∧
      (e0 = true → e1 = false → k = .delete ∧ jc = false) ∧
      (e0 = false → e1 = true → k = .create) ∧
      (e0 = false → e1 = false → k = .delete ∧ jc = true) := by
  cases ks with
  | nil => exact absurd rfl hne
  | cons k r =>
    cases e0 <;> cases k <;> simp [chain] at h
    · -- create
      have := merge_T1 h (by simp [flips] at hf ⊢; omega)
      cases e1
      · exact ⟨.delete, true, this.2 rfl, by simp⟩
      · exact ⟨.create, true, this.1 rfl, by simp⟩
    · have := merge_S1 h (by simp [flips] at hf ⊢; omega)
      cases e1
      · exact ⟨.delete, false, this.2 rfl, by simp⟩
      · obtain ⟨b, hb⟩ := this.1 rfl
        exact ⟨.modify, b, hb, by simp⟩
    · have := merge_S2 h (by simp [flips] at hf ⊢; omega)
      cases e1
      · exact ⟨.delete, false, this.2 rfl, by simp⟩
      · exact ⟨.modify, true, this.1 rfl, by simp⟩

theorem chain_snoc {e ks k e1} (h : chain e ks = some e1) : chain e (ks ++ [k]) = chain e1 [k] := by
  induction ks generalizing e with
  | nil => simp [chain] at h; simp [h]
  | cons a r ih => cases e <;> cases a <;> simp [chain] at h ⊢ <;> exact ih h

theorem flips_snoc (ks k) : flips (ks ++ [k]) = flips ks + if k = .modify then 0 else 1 := by
  by_cases h : k = .modify <;> simp [flips, List.filter_append, h]

/-! ### The coalescing map -/

def kindsOf (id : FileId) (log : List ChangedFile) : List ChangeKind :=
  (log.filter (fun c => c.fileId = id)).map (·.kind)

theorem lookup_upsert (m : FileChanges) (c : ChangedFile) (id : FileId) :
    (upsert m c).lookup id = if id = c.fileId then some (mergeOpt (m.lookup id) c.kind) else m.lookup id := by
  induction m with
  | nil =>
    simp only [upsert, List.lookup_cons, List.lookup_nil]
    by_cases h : id = c.fileId
    · simp [h]
    · have : (id == c.fileId) = false := by simpa using h
      simp [h, this]
  | cons e r ih =>
    obtain ⟨i, e⟩ := e
    simp only [upsert]
    by_cases hi : i = c.fileId
    · simp only [hi, if_true, List.lookup_cons]
      by_cases h : id = c.fileId
      · simp [h]
      · have : (id == c.fileId) = false := by simpa using h
        simp [h, this]
    · simp only [hi, if_false, List.lookup_cons]
      by_cases h : id = i
      · subst h; simp [hi]
      · have : (id == i) = false := by simpa using h
        simp only [this]; exact ih

theorem keys_upsert (m : FileChanges) (c : ChangedFile) :
    (upsert m c).map (·.1) = if c.fileId ∈ m.map (·.1) then m.map (·.1) else m.map (·.1) ++ [c.fileId] := by
  induction m with
  | nil => simp [upsert]
  | cons e r ih =>
    obtain ⟨i, e⟩ := e
    simp only [upsert]
    by_cases hi : i = c.fileId
    · simp [hi]
    · simp only [hi, if_false, List.map_cons, ih, List.mem_cons, Ne.symm hi, false_or]
      split <;> simp

theorem nodup_upsert {m : FileChanges} (c : ChangedFile) (h : (m.map (·.1)).Nodup) :
    ((upsert m c).map (·.1)).Nodup := by
  rw [keys_upsert]
  split
  · exact h
  · next hn =>
    rw [List.nodup_append]
    refine ⟨h, by simp, ?_⟩
    intro a ha b hb; simp at hb; subst hb; intro hab; subst hab; exact hn ha

theorem coalesce_aux (log : List ChangedFile) : ∀ (m : FileChanges), (m.map (·.1)).Nodup →
    ((log.foldl upsert m).map (·.1)).Nodup ∧
    ∀ id, (log.foldl upsert m).lookup id = mergeAll (m.lookup id) (kindsOf id log) := by
  induction log with
  | nil => intro m h; exact ⟨h, fun id => rfl⟩
  | cons c cs ih =>
    intro m h
    obtain ⟨h1, h2⟩ := ih (upsert m c) (nodup_upsert c h)
    refine ⟨h1, fun id => ?_⟩
    rw [List.foldl_cons, h2 id, lookup_upsert]
    by_cases hid : id = c.fileId
    · subst hid; simp [kindsOf, mergeAll]
    · simp [kindsOf, mergeAll, hid, Ne.symm hid]

theorem lookup_of_mem {κ α : Type} [BEq κ] [LawfulBEq κ] {m : List (κ × α)} (h : (m.map (·.1)).Nodup) {id : κ} {a : α} :
    (id, a) ∈ m ↔ m.lookup id = some a := by
  induction m with
  | nil => simp
  | cons e r ih =>
    obtain ⟨i, b⟩ := e
    simp only [List.map_cons, List.nodup_cons] at h
    simp only [List.mem_cons, Prod.mk.injEq, List.lookup_cons]
    by_cases hi : id = i
    · subst hi
      simp only [true_and, beq_self_eq_true]
      constructor
      · rintro (rfl | hm)
        · rfl
        · exact absurd (List.mem_map_of_mem (f := (·.1)) hm) h.1
      · intro he; left; simpa using he.symm
    · have : (id == i) = false := by simpa using hi
      simp only [hi, false_and, false_or, this]
      exact ih h.2

theorem lookup_eq_none {κ α : Type} [BEq κ] [LawfulBEq κ] {m : List (κ × α)} {id : κ} : m.lookup id = none ↔ id ∉ m.map (·.1) := by
  induction m with
  | nil => simp
  | cons e r ih =>
    obtain ⟨i, b⟩ := e
    simp only [List.lookup_cons, List.map_cons, List.mem_cons, not_or]
    by_cases hi : id = i
    · subst hi; simp
    · have : (id == i) = false := by simpa using hi
      simp only [this, ih, hi, not_false_iff, true_and]

theorem coalesce_spec (log : List ChangedFile) :
    ((coalesce log).map (·.1)).Nodup ∧ ∀ id, (coalesce log).lookup id = mergeAll none (kindsOf id log) := by
  have := coalesce_aux log [] (by simp)
  simpa [coalesce] using this

theorem changedFiles_nodup (log : List ChangedFile) : ((changedFiles log).map (·.fileId)).Nodup := by
  have h := (coalesce_spec log).1
  have : (changedFiles log).map (·.fileId) = ((coalesce log).filter keep).map (·.1) := by
    simp [changedFiles, Function.comp_def]
  rw [this]
  exact h.sublist (List.Sublist.map _ (List.filter_sublist))

theorem mem_changedFiles {log : List ChangedFile} {id : FileId} {k : ChangeKind} :
    ⟨id, k⟩ ∈ changedFiles log ↔ ∃ jc, mergeAll none (kindsOf id log) = some (k, jc) ∧ ¬ (k = .delete ∧ jc = true) := by
  obtain ⟨h1, h2⟩ := coalesce_spec log
  simp only [changedFiles, List.mem_map, List.mem_filter, ChangedFile.mk.injEq]
  constructor
  · rintro ⟨⟨i, k', jc⟩, ⟨hm, hk⟩, rfl, rfl⟩
    refine ⟨jc, ?_, ?_⟩
    · rw [← h2, ← lookup_of_mem h1]; exact hm
    · simp [keep] at hk; grind
  · rintro ⟨jc, h3, h4⟩
    refine ⟨(id, k, jc), ⟨?_, ?_⟩, rfl, rfl⟩
    · rw [lookup_of_mem h1, h2]; exact h3
    · simp [keep]; grind

/-! ### Database updates -/

variable {P T R : Type} [DecidableEq P] [DecidableEq R]

omit [DecidableEq P] [DecidableEq R] in
theorem setTexts_spec (noText : T) (l : List (FileId × Option T)) : ∀ (db : Db P T R), (l.map (·.1)).Nodup →
    (∀ id ∈ l.map (·.1), ∃ r x, db.sourceRootOf id = some r ∧ db.root r = some x) →
    ∃ db', db.setTexts noText l = some db' ∧ db'.sourceRootOf = db.sourceRootOf ∧ db'.root = db.root ∧
      ∀ id, db'.text id = match l.lookup id with
        | some t => some (t.getD noText)
        | none => db.text id := by
  induction l with
  | nil => intro db _ _; exact ⟨db, rfl, rfl, rfl, fun _ => rfl⟩
  | cons e l ih =>
    intro db hn hr
    obtain ⟨i, t⟩ := e
    obtain ⟨r, x, h1, h2⟩ := hr i (by simp)
    simp only [List.map_cons, List.nodup_cons] at hn
    have hset : db.setText noText i t = some { db with text := fun j => if j = i then some (t.getD noText) else db.text j } := by
      simp [Db.setText, h1, h2]
    obtain ⟨db', g1, g2, g3, g4⟩ := ih { db with text := fun j => if j = i then some (t.getD noText) else db.text j } hn.2
      (fun id hid => hr id (by simp at hid ⊢; exact Or.inr hid))
    refine ⟨db', by simp only [Db.setTexts, hset]; exact g1, g2, g3, ?_⟩
    intro id
    rw [g4 id]
    simp only [List.lookup_cons]
    by_cases hid : id = i
    · subst hid
      have : l.lookup id = none := lookup_eq_none.2 hn.1
      simp [this]
    · have : (id == i) = false := by simpa using hid
      simp [this, hid]

omit [DecidableEq P] [DecidableEq R] in
/-- Texts computed for the changed files. -/
theorem textsOf_spec (cfg : Config P T R) (v : Vfs P) (l : List ChangedFile)
    (h : ∀ c ∈ l, c.kind ≠ .delete → ∃ b, v.fileContents c.fileId = some b) :
    ∃ texts, textsOf cfg v l = some texts ∧ texts.map (·.1) = l.map (·.fileId) ∧
      ∀ c ∈ l, (c.kind = .delete → (c.fileId, none) ∈ texts) ∧
        (c.kind ≠ .delete → ∀ b, v.fileContents c.fileId = some b → (c.fileId, cfg.decode b) ∈ texts) := by
  induction l with
  | nil => exact ⟨[], rfl, rfl, by simp⟩
  | cons c cs ih =>
    obtain ⟨ts, h1, h2, h3⟩ := ih (fun c hc => h c (List.mem_cons_of_mem _ hc))
    by_cases hk : c.kind = .delete
    · refine ⟨(c.fileId, none) :: ts, by simp [textsOf, hk, h1], by simp [h2], ?_⟩
      intro d hd
      rcases List.mem_cons.1 hd with rfl | hd
      · simp [hk]
      · obtain ⟨a, b⟩ := h3 d hd
        exact ⟨fun x => List.mem_cons_of_mem _ (a x), fun x y z => List.mem_cons_of_mem _ (b x y z)⟩
    · obtain ⟨b, hb⟩ := h c List.mem_cons_self hk
      refine ⟨(c.fileId, cfg.decode b) :: ts, by simp [textsOf, hk, h1, hb], by simp [h2], ?_⟩
      intro d hd
      rcases List.mem_cons.1 hd with rfl | hd
      · refine ⟨fun x => absurd x hk, fun _ b' hb' => ?_⟩
        rw [hb] at hb'; cases hb'; simp
      · obtain ⟨a, b⟩ := h3 d hd
        exact ⟨fun x => List.mem_cons_of_mem _ (a x), fun x y z => List.mem_cons_of_mem _ (b x y z)⟩

/-! ### Partition -/

omit [DecidableEq P] in
theorem mem_dedup {r : R} {l : List R} : r ∈ dedup l ↔ r ∈ l := by
  induction l with
  | nil => simp [dedup]
  | cons a l ih =>
    cases l with
    | nil => simp [dedup]
    | cons b l =>
      simp only [dedup]
      split
      · next h => subst h; rw [ih]; simp
      · rw [List.mem_cons, ih]; simp

omit [DecidableEq P] [DecidableEq R] in
theorem fold_insert (under : R → P → Bool) (r : R) (l : List (FileId × P)) : ∀ (s : FileSet P),
    (l.foldl (insertIfUnder under r) s).uris = ((l.filter (fun e => under r e.2)).reverse) ++ s.uris ∧
    (l.foldl (insertIfUnder under r) s).files =
      (((l.filter (fun e => under r e.2)).reverse).map (fun e => (e.2, e.1))) ++ s.files := by
  induction l with
  | nil => intro s; simp
  | cons e l ih =>
    intro s
    simp only [List.foldl_cons]
    obtain ⟨h1, h2⟩ := ih (insertIfUnder under r s e)
    rw [h1, h2]
    by_cases hu : under r e.2 = true
    · simp [insertIfUnder, hu, FileSet.insert]
    · simp [insertIfUnder, hu]

end Verif.DbSync
