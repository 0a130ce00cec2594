import Verif.Vfs.Lemmas
/-!
# C04, C05: the virtual file system
-/

namespace Verif.Props.Vfs
open Verif.Vfs
variable {P : Type} [DecidableEq P]

/-- **C04a** (ids are stable). If at two points of a history the same path has an id, it is the same id. No
operation of the history panics. -/
theorem file_id_stable (pre post : List (Op P)) (p : P) :
    ∃ v₁ d₁ v₂ d₂, Vfs.empty.run pre = some (v₁, d₁) ∧ Vfs.empty.run (pre ++ post) = some (v₂, d₂) ∧
      ∀ i j, v₁.fileId p = some (some i) → v₂.fileId p = some (some j) → i = j := by
  obtain ⟨v₁, d₁, h₁, w₁, _⟩ := run_spec pre (WF.empty (P := P))
  obtain ⟨v₂, d₂, h₂, w₂, e, he⟩ := run_spec post w₁
  refine ⟨v₁, d₁, v₂, d₁ ++ d₂, h₁, by simp [run_append, h₁, h₂], ?_⟩
  intro i j hi hj
  rw [fileId_spec w₁] at hi
  rw [fileId_spec w₂] at hj
  split at hi <;> split at hj <;> simp at hi hj
  have := internGet_append_of_nodup (he ▸ w₂.nodup) hi
  rw [← he, hj] at this
  exact (Option.some.inj this).symm

/-- **C04b** (ids are injective and invertible). At any point two different paths have different ids, and the path
reported for the id of a file is the path of that file. -/
theorem file_id_injective (ops : List (Op P)) :
    ∃ v d, Vfs.empty.run ops = some (v, d) ∧
      (∀ p q i, v.fileId p = some (some i) → v.fileId q = some (some i) → p = q) ∧
      (∀ p i, v.fileId p = some (some i) → v.filePath i = some p) := by
  obtain ⟨v, d, h, w, _⟩ := run_spec ops (WF.empty (P := P))
  have key : ∀ p i, v.fileId p = some (some i) → v.interner[i]? = some p := by
    intro p i hi
    rw [fileId_spec w] at hi
    split at hi <;> simp at hi
    exact internGet_eq_some hi
  refine ⟨v, d, h, ?_, key⟩
  intro p q i hp hq
  have := (key p i hp).symm.trans (key q i hq)
  exact Option.some.inj this

/-- **C04c** (an id is never given to another path). The path reported for an id stays the same for the rest of the
history, also when the file is deleted. -/
theorem file_path_stable (pre post : List (Op P)) (i : FileId) (p : P) :
    ∃ v₁ d₁ v₂ d₂, Vfs.empty.run pre = some (v₁, d₁) ∧ Vfs.empty.run (pre ++ post) = some (v₂, d₂) ∧
      (v₁.filePath i = some p → v₂.filePath i = some p) := by
  obtain ⟨v₁, d₁, h₁, w₁, _⟩ := run_spec pre (WF.empty (P := P))
  obtain ⟨v₂, d₂, h₂, w₂, e, he⟩ := run_spec post w₁
  refine ⟨v₁, d₁, v₂, d₁ ++ d₂, h₁, by simp [run_append, h₁, h₂], ?_⟩
  intro hi
  simp only [Vfs.filePath] at *
  rw [he, List.getElem?_append_left, hi]
  rcases Nat.lt_or_ge i v₁.interner.length with h2 | h2
  · exact h2
  · simp [List.getElem?_eq_none h2] at hi

/-- Ids of a file that is deleted and created again, with another file in between. -/
example : ∃ v d v' d', (Vfs.empty (P := String)).run [.set "a" (some [1]), .set "b" (some [2])] = some (v, d) ∧
    (Vfs.empty (P := String)).run ([.set "a" (some [1]), .set "b" (some [2])] ++
      [.set "b" none, .set "c" (some []), .take, .set "b" (some [3])]) = some (v', d') ∧
    v.fileId "b" = some (some 1) ∧ v'.fileId "b" = some (some 1) ∧ v'.fileId "c" = some (some 2) :=
  ⟨_, _, _, _, rfl, rfl, by decide, by decide, by decide⟩

/-- What a client of the VFS reads for a path: look up the id, then the contents. -/
def read (v : Vfs P) (p : P) : Option Bytes :=
  match v.fileId p with
  | some (some id) => v.fileContents id
  | _ => none

theorem read_eq_content {v : Vfs P} (w : WF v) (p : P) : read v p = v.content p := by
  rw [read, fileId_spec w]
  cases h : v.content p with
  | none => simp
  | some c =>
    simp only [Vfs.content] at h
    cases hg : internGet v.interner p with
    | none => simp [hg] at h
    | some i =>
      simp [hg] at h
      simp [Vfs.fileContents, Vfs.get, h]

/-- Abstraction of the journal: events by path. -/
def byPath (v : Vfs P) (l : List ChangedFile) : List (Option P × ChangeKind) :=
  l.map (fun e => (v.filePath e.fileId, e.kind))

theorem refine_aux (ops : List (Op P)) : ∀ (v : Vfs P) (s : Spec.State P), WF v →
    (∀ p, v.content p = s.content p) →
    byPath v v.changes = s.pending.map (fun e => (some e.1, e.2)) →
    ∃ v' d, v.run ops = some (v', d) ∧ WF v' ∧
      (∀ p, v'.content p = (s.run ops).1.content p) ∧
      byPath v' v'.changes = (s.run ops).1.pending.map (fun e => (some e.1, e.2)) ∧
      d.map (byPath v') = (s.run ops).2.map (fun l => l.map (fun e => (some e.1, e.2))) := by
  induction ops with
  | nil => intro v s w hc hp; exact ⟨v, [], rfl, w, hc, hp, rfl⟩
  | cons o os ih =>
    intro v s w hc hp
    have stab : ∀ {v1 v2 : Vfs P} (l : List ChangedFile) (e : List P), v2.interner = v1.interner ++ e →
        (∀ x ∈ byPath v1 l, x.1.isSome) → byPath v2 l = byPath v1 l := by
      intro v1 v2 l e he hl
      simp only [byPath, List.map_inj_left]
      intro a ha
      have := hl _ (List.mem_map_of_mem ha)
      simp only [Vfs.filePath] at this ⊢
      rw [he]
      rcases Nat.lt_or_ge a.fileId v1.interner.length with h2 | h2
      · rw [List.getElem?_append_left h2]
      · simp [List.getElem?_eq_none h2] at this
    have allSome : ∀ (l : List (P × ChangeKind)),
        ∀ x ∈ l.map (fun e => ((some e.1 : Option P), e.2)), x.1.isSome := by
      intro l x hx; simp at hx; obtain ⟨a, b, _, rfl⟩ := hx; rfl
    cases o with
    | set p c =>
      obtain ⟨v1, b, h1, w1, ⟨e, he⟩, hcont, hf, ht⟩ := set_spec w p c
      have hold : byPath v1 v.changes = s.pending.map (fun e => (some e.1, e.2)) := by
        rw [stab v.changes e he (by rw [hp]; exact allSome _), hp]
      have hs : (∀ q, v1.content q = (s.step (.set p c)).1.content q) ∧
          byPath v1 v1.changes = (s.step (.set p c)).1.pending.map (fun e => (some e.1, e.2)) ∧
          (s.step (.set p c)).2 = [] := by
        cases b with
        | false =>
          obtain ⟨hcp, hch⟩ := hf rfl
          have : s.content p = c := by rw [← hc, hcp]
          simp only [Spec.State.step, this, if_true]
          refine ⟨?_, by rw [hch]; exact hold, trivial⟩
          intro q; rw [hcont]; split
          · next hq => subst hq; exact this.symm
          · exact hc q
        | true =>
          obtain ⟨hcp, id, hid, hch⟩ := ht rfl
          have hne : s.content p ≠ c := by rw [← hc]; exact hcp
          simp only [Spec.State.step, hne, if_false]
          refine ⟨?_, ?_, trivial⟩
          · intro q; rw [hcont]; simp only [hc]
          · rw [hch, byPath, List.map_append, List.map_append]
            have : List.map (fun e => (v1.filePath e.fileId, e.kind)) v.changes = byPath v1 v.changes := rfl
            rw [this, hold]
            simp [Vfs.filePath, internGet_eq_some hid, hc]
      obtain ⟨v', d, hr, w', hc', hp', hd⟩ := ih v1 (s.step (.set p c)).1 w1 hs.1 hs.2.1
      refine ⟨v', [] :: d, by simp [Vfs.run, Vfs.step, h1, hr], w', hc', hp', ?_⟩
      simp [Spec.State.run, hd, hs.2.2, byPath]
    | take =>
      obtain ⟨v', d, hr, w', hc', hp', hd⟩ := ih v.takeChanges.1 (s.step .take).1 ⟨w.nodup, w.len⟩
        (fun q => hc q) rfl
      refine ⟨v', v.changes :: d, by simp [Vfs.run, Vfs.step, Vfs.takeChanges] at hr ⊢; simp [hr], w', hc', hp', ?_⟩
      simp only [Spec.State.run, Spec.State.step, List.map_cons]
      congr 1
      obtain ⟨v'', d'', hr'', _, e, he⟩ := run_spec os (v := v.takeChanges.1) ⟨w.nodup, w.len⟩
      rw [hr] at hr''
      obtain ⟨rfl, rfl⟩ : v' = v'' ∧ d = d'' := by simpa using hr''
      rw [← hp]
      exact stab (v1 := v) v.changes e he (by rw [hp]; exact allSome _)

/-- **C05** (contents and journal). For every history, no operation panics, every path reads the contents of its last
`set`, the events drained by each `take` are exactly those the ideal journal reports (create / modify / delete
relative to the previous contents, none for a write of equal contents), in order, and so are the still pending ones. -/
theorem vfs_refines_map (ops : List (Op P)) :
    ∃ v d, Vfs.empty.run ops = some (v, d) ∧
      (∀ p, read v p = ((Spec.State.init (P := P)).run ops).1.content p) ∧
      d.map (byPath v) = (Spec.State.init.run ops).2.map (fun l => l.map (fun e => (some e.1, e.2))) ∧
      byPath v v.changes = (Spec.State.init.run ops).1.pending.map (fun e => (some e.1, e.2)) := by
  obtain ⟨v, d, hr, w, hc, hp, hd⟩ := refine_aux ops (Vfs.empty (P := P)) Spec.State.init WF.empty
    (fun p => by simp [Vfs.content, Vfs.empty, Spec.State.init]) rfl
  exact ⟨v, d, hr, fun p => by rw [read_eq_content w]; exact hc p, hd, hp⟩

theorem spec_run_content (ops : List (Op P)) (p : P) : ∀ s : Spec.State P,
    (s.run ops).1.content p = ops.foldl (fun acc o =>
      match o with
      | .set q c => if q = p then c else acc
      | .take => acc) (s.content p) := by
  induction ops with
  | nil => intro s; rfl
  | cons o os ih =>
    intro s
    simp only [Spec.State.run, List.foldl_cons]
    rw [ih]
    congr 1
    cases o with
    | take => rfl
    | set q c =>
      simp only [Spec.State.step]
      by_cases h : s.content q = c
      · simp only [h, if_true]
        by_cases hq : q = p
        · subst hq; simp [h]
        · simp [hq]
      · simp only [h, if_false]
        by_cases hq : q = p
        · subst hq; simp
        · simp [hq, Ne.symm hq]

/-- **C05'** The contents read for a path are those of the last `set` for it in the history. -/
theorem vfs_reads_last_write (ops : List (Op P)) (p : P) :
    ∃ v d, Vfs.empty.run ops = some (v, d) ∧ read v p = Spec.lastContents p ops := by
  obtain ⟨v, d, hr, hc, _, _⟩ := vfs_refines_map ops
  exact ⟨v, d, hr, by rw [hc p, spec_run_content]; rfl⟩

/-- **C05''** `iter` lists exactly the existing files, each with its path. -/
theorem vfs_iter_exact (ops : List (Op P)) :
    ∃ v d, Vfs.empty.run ops = some (v, d) ∧
      ∀ i q, (i, q) ∈ v.iter ↔ ∃ p, q = some p ∧ v.fileId p = some (some i) := by
  obtain ⟨v, d, h, w, _⟩ := run_spec ops (WF.empty (P := P))
  refine ⟨v, d, h, ?_⟩
  intro i q
  simp only [Vfs.iter, List.mem_map, List.mem_filter, List.mem_range, Prod.mk.injEq]
  constructor
  · rintro ⟨j, ⟨hj, hs⟩, rfl, rfl⟩
    rw [w.len] at hj
    refine ⟨v.interner[j], by simp [Vfs.filePath, hj], ?_⟩
    have hg := internGet_of_getElem? w.nodup (i := j) (p := v.interner[j]) (by simp [hj])
    rw [fileId_spec w, content_of_id hg]
    simp only [Vfs.get] at hs
    simp [hs, hg]
  · rintro ⟨p, rfl, hp⟩
    rw [fileId_spec w] at hp
    split at hp <;> simp at hp
    next hs =>
      rw [content_of_id hp] at hs
      have h1 := internGet_eq_some hp
      refine ⟨i, ⟨?_, hs⟩, rfl, h1⟩
      rcases Nat.lt_or_ge i v.data.length with h2 | h2
      · exact h2
      · simp [List.getElem?_eq_none h2] at hs

/-- A history with a create, a no-op write, a modification, a drain, a deletion and a re-creation. -/
example : ∃ v d, (Vfs.empty (P := String)).run [.set "a" (some [1]), .set "a" (some [1]), .set "b" (some []),
      .set "a" (some [2]), .take, .set "b" none, .set "c" none, .set "b" (some [7])] = some (v, d) ∧
    read v "a" = some [2] ∧ read v "b" = some [7] ∧ read v "c" = none ∧
    byPath v v.changes = [(some "b", .delete), (some "b", .create)] ∧
    (d.map (byPath v))[4]? = some [(some "a", .create), (some "b", .create), (some "a", .modify)] :=
  ⟨_, _, rfl, by decide, by decide, by decide, by decide, by decide⟩

end Verif.Props.Vfs
