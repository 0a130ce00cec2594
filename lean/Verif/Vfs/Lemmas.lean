import Verif.Vfs.Spec
/-! Helper lemmas for `Verif.Props.Vfs`. -/

namespace Verif.Vfs
variable {P : Type} [DecidableEq P]

theorem internGet_eq_some {m : List P} {p : P} {i : Nat} (h : internGet m p = some i) :
    m[i]? = some p := by
  unfold internGet at h
  rw [List.findIdx?_eq_some_iff_getElem] at h
  obtain ⟨hi, h1, _⟩ := h
  simp at h1
  simp [hi, h1]

theorem internGet_eq_none {m : List P} {p : P} : internGet m p = none ↔ p ∉ m := by
  unfold internGet
  rw [List.findIdx?_eq_none_iff]
  simp
  constructor
  · intro h hp; exact h p hp rfl
  · intro h x hx hxp; exact h (hxp ▸ hx)

theorem internGet_of_getElem? {m : List P} (hn : m.Nodup) {p : P} {i : Nat} (h : m[i]? = some p) :
    internGet m p = some i := by
  cases hg : internGet m p with
  | none =>
    have := internGet_eq_none.1 hg
    exact absurd (List.mem_of_getElem? h) this
  | some j =>
    have hj := internGet_eq_some hg
    have hlt : i < m.length := by
      rcases Nat.lt_or_ge i m.length with h1 | h1
      · exact h1
      · simp [List.getElem?_eq_none h1] at h
    have := (List.getElem?_inj hlt hn).1 (h.trans hj.symm)
    rw [this]

/-- Internal consistency of the VFS. -/
structure WF (v : Vfs P) : Prop where
  nodup : v.interner.Nodup
  len : v.data.length = v.interner.length

omit [DecidableEq P] in
theorem WF.empty : WF (Vfs.empty : Vfs P) := ⟨List.nodup_nil, rfl⟩

/-- Contents by path, straight from the tables. -/
def Vfs.content (v : Vfs P) (p : P) : Option Bytes :=
  (internGet v.interner p).bind (fun i => (v.data[i]?).join)

theorem alloc_known {v : Vfs P} (hv : WF v) {p : P} {i : Nat} (h : internGet v.interner p = some i) :
    v.allocFileId p = (v, i) := by
  have h' := internGet_eq_some h
  have hi : i < v.interner.length := by
    rcases Nat.lt_or_ge i v.interner.length with h1 | h1
    · exact h1
    · simp [List.getElem?_eq_none h1] at h'
  simp only [Vfs.allocFileId, intern, h]
  have : max v.data.length (i + 1) - v.data.length = 0 := by
    have := hv.len; omega
  simp [this]

theorem alloc_new {v : Vfs P} (hv : WF v) {p : P} (h : internGet v.interner p = none) :
    v.allocFileId p =
      ({ v with interner := v.interner ++ [p], data := v.data ++ [none] }, v.interner.length) := by
  simp only [Vfs.allocFileId, intern, h]
  have : max v.data.length (v.interner.length + 1) - v.data.length = 1 := by
    have := hv.len; omega
  simp [this]

/-- Everything `alloc_file_id` guarantees. -/
theorem alloc_spec {v : Vfs P} (hv : WF v) (p : P) :
    ∃ v' id, v.allocFileId p = (v', id) ∧ WF v' ∧ internGet v'.interner p = some id ∧
      (∀ q j, internGet v.interner q = some j → internGet v'.interner q = some j) ∧
      (∀ q, v'.content q = v.content q) ∧ v'.changes = v.changes ∧ id < v'.data.length ∧
      (∃ ext, v'.interner = v.interner ++ ext) := by
  cases h : internGet v.interner p with
  | some i =>
    refine ⟨v, i, alloc_known hv h, hv, h, fun _ _ hh => hh, fun _ => rfl, rfl, ?_, [], by simp⟩
    have h' := internGet_eq_some h
    rw [hv.len]
    rcases Nat.lt_or_ge i v.interner.length with h1 | h1
    · exact h1
    · simp [List.getElem?_eq_none h1] at h'
  | none =>
    have hp := internGet_eq_none.1 h
    have hnd : (v.interner ++ [p]).Nodup := by
      rw [List.nodup_append]
      refine ⟨hv.nodup, by simp, ?_⟩
      intro a ha b hb; simp at hb; subst hb; intro hab; subst hab; exact hp ha
    have hpres : ∀ q j, internGet v.interner q = some j → internGet (v.interner ++ [p]) q = some j := by
      intro q j hq
      apply internGet_of_getElem? hnd
      have h1 := internGet_eq_some hq
      have : j < v.interner.length := by
        rcases Nat.lt_or_ge j v.interner.length with h2 | h2
        · exact h2
        · simp [List.getElem?_eq_none h2] at h1
      rw [List.getElem?_append_left this]; exact h1
    refine ⟨_, _, alloc_new hv h, ⟨hnd, by simp [hv.len]⟩, ?_, hpres, ?_, rfl, by simp [hv.len], [p], rfl⟩
    · exact internGet_of_getElem? hnd (by simp)
    · intro q
      simp only [Vfs.content]
      by_cases hq : q ∈ v.interner
      · cases hg : internGet v.interner q with
        | none => exact absurd hq (internGet_eq_none.1 hg)
        | some j =>
          rw [hpres q j hg]
          have h1 := internGet_eq_some hg
          have : j < v.data.length := by
            rw [hv.len]
            rcases Nat.lt_or_ge j v.interner.length with h2 | h2
            · exact h2
            · simp [List.getElem?_eq_none h2] at h1
          simp [List.getElem?_append_left this]
      · have hg := internGet_eq_none.2 hq
        rw [hg]
        by_cases hqp : q = p
        · subst hqp
          rw [internGet_of_getElem? hnd (i := v.interner.length) (by simp)]
          simp [← hv.len]
        · have : internGet (v.interner ++ [p]) q = none := by
            rw [internGet_eq_none]; simp [hq, hqp]
          simp [this]

theorem content_of_id {v : Vfs P} {p : P} {i : Nat} (h : internGet v.interner p = some i) :
    v.content p = (v.data[i]?).join := by simp [Vfs.content, h]

theorem changeKindOf_none {o n : Option Bytes} : changeKindOf o n = none ↔ o = n := by
  cases o <;> cases n <;> simp [changeKindOf]

theorem changeKindOf_some {o n : Option Bytes} {k} (h : changeKindOf o n = some k) :
    o ≠ n ∧ k = if o = none then ChangeKind.create else if n = none then .delete else .modify := by
  cases o <;> cases n <;> simp [changeKindOf] at h ⊢ <;> grind

/-- Everything `set_file_contents` guarantees. -/
theorem set_spec {v : Vfs P} (hv : WF v) (p : P) (c : Option Bytes) :
    ∃ v' b, v.setFileContents p c = some (v', b) ∧ WF v' ∧
      (∃ ext, v'.interner = v.interner ++ ext) ∧
      (∀ q, v'.content q = if q = p then c else v.content q) ∧
      (b = false → v.content p = c ∧ v'.changes = v.changes) ∧
      (b = true → v.content p ≠ c ∧ ∃ id, internGet v'.interner p = some id ∧
        v'.changes = v.changes ++ [⟨id, if v.content p = none then .create else if c = none then .delete else .modify⟩]) := by
  obtain ⟨v1, id, ha, hwf, hid, _, hcont, hch, hlt, hext⟩ := alloc_spec hv p
  have hdata : v1.data[id]? = some (v1.content p) := by
    rw [content_of_id hid, List.getElem?_eq_getElem hlt]; rfl
  simp only [Vfs.setFileContents, ha, Vfs.get, hdata]
  have hcp := hcont p
  cases hk : changeKindOf (v1.content p) c with
  | none =>
    have he := changeKindOf_none.1 hk
    refine ⟨v1, false, rfl, hwf, hext, ?_, ?_, by simp⟩
    · intro q; by_cases hq : q = p
      · subst hq; simp [he]
      · simp [hq, hcont]
    · intro _; exact ⟨by rw [← hcp, he], hch⟩
  | some k =>
    obtain ⟨hne, hkk⟩ := changeKindOf_some hk
    refine ⟨_, true, rfl, ⟨hwf.nodup, by simp [hwf.len]⟩, hext, ?_, by simp, ?_⟩
    · intro q
      by_cases hq : q = p
      · subst hq; simp [Vfs.content, hid, hlt]
      · simp only [hq, if_false]
        rw [← hcont q]
        simp only [Vfs.content]
        cases hg : internGet v1.interner q with
        | none => rfl
        | some j =>
          have hj : j ≠ id := by
            intro hji; subst hji
            have h1 := internGet_eq_some hg
            have h2 := internGet_eq_some hid
            rw [h1] at h2; exact hq (Option.some.inj h2)
          simp [List.getElem?_set, Ne.symm hj]
    · intro _
      refine ⟨by rw [← hcp]; exact hne, id, hid, ?_⟩
      simp [hch, hkk, hcp]

/-- One step, summarised. -/
theorem step_spec {v : Vfs P} (hv : WF v) (o : Op P) :
    ∃ v' d, v.step o = some (v', d) ∧ WF v' ∧ ∃ ext, v'.interner = v.interner ++ ext := by
  cases o with
  | set p c =>
    obtain ⟨v', b, h, hwf, hext, _⟩ := set_spec hv p c
    exact ⟨v', [], by simp [Vfs.step, h], hwf, hext⟩
  | take => exact ⟨_, _, rfl, ⟨hv.nodup, hv.len⟩, [], by simp⟩

theorem run_spec (os : List (Op P)) : ∀ {v : Vfs P}, WF v →
    ∃ v' d, v.run os = some (v', d) ∧ WF v' ∧ ∃ ext, v'.interner = v.interner ++ ext := by
  induction os with
  | nil => intro v hv; exact ⟨v, [], rfl, hv, [], by simp⟩
  | cons o os ih =>
    intro v hv
    obtain ⟨v1, d1, h1, hwf1, e1, he1⟩ := step_spec hv o
    obtain ⟨v2, d2, h2, hwf2, e2, he2⟩ := ih hwf1
    exact ⟨v2, d1 :: d2, by simp [Vfs.run, h1, h2], hwf2, e1 ++ e2, by simp [he2, he1]⟩

theorem run_append (a b : List (Op P)) : ∀ (v : Vfs P), v.run (a ++ b) =
    (v.run a).bind (fun r => (r.1.run b).map (fun r' => (r'.1, r.2 ++ r'.2))) := by
  induction a with
  | nil => intro v; simp [Vfs.run]
  | cons o os ih =>
    intro v
    simp only [List.cons_append, Vfs.run]
    cases v.step o with
    | none => rfl
    | some r =>
      simp only [ih]
      cases r.1.run os with
      | none => rfl
      | some r2 => simp; cases r2.1.run b <;> simp

theorem internGet_append_of_nodup {m e : List P} (h : (m ++ e).Nodup) {p : P} {i : Nat}
    (hi : internGet m p = some i) : internGet (m ++ e) p = some i := by
  apply internGet_of_getElem? h
  have h1 := internGet_eq_some hi
  have : i < m.length := by
    rcases Nat.lt_or_ge i m.length with h2 | h2
    · exact h2
    · simp [List.getElem?_eq_none h2] at h1
  rw [List.getElem?_append_left this]; exact h1

theorem fileId_spec {v : Vfs P} (hv : WF v) (p : P) :
    v.fileId p = some (if (v.content p).isSome then internGet v.interner p else none) := by
  simp only [Vfs.fileId]
  cases h : internGet v.interner p with
  | none => simp [Vfs.content, h]
  | some i =>
    have h1 := internGet_eq_some h
    have hlt : i < v.data.length := by
      rw [hv.len]
      rcases Nat.lt_or_ge i v.interner.length with h2 | h2
      · exact h2
      · simp [List.getElem?_eq_none h2] at h1
    simp only [Vfs.get, content_of_id h, List.getElem?_eq_getElem hlt]
    cases v.data[i] <;> simp

theorem alloc_data (v : Vfs P) (p : P) (j : Nat) :
    ((v.allocFileId p).1.data[j]?).join = (v.data[j]?).join := by
  simp only [Vfs.allocFileId]
  rw [List.getElem?_append]
  split
  · rfl
  · next h =>
    rw [List.getElem?_eq_none (by omega : v.data.length ≤ j), List.getElem?_replicate]
    split <;> rfl

theorem alloc_ext (v : Vfs P) (p : P) :
    (v.allocFileId p).1.interner = v.interner ∨ (v.allocFileId p).1.interner = v.interner ++ [p] := by
  simp only [Vfs.allocFileId, intern]
  cases internGet v.interner p <;> simp

/-- `set_file_contents` at the level of ids. -/
theorem set_data {v : Vfs P} (hv : WF v) (p : P) (c : Option Bytes) :
    ∃ v' b id, v.setFileContents p c = some (v', b) ∧ WF v' ∧
      (v'.interner = v.interner ∨ v'.interner = v.interner ++ [p]) ∧
      internGet v'.interner p = some id ∧
      (∀ j : Nat, (v'.data[j]?).join = if j = id then c else (v.data[j]?).join) ∧
      ((v.data[id]?).join = c → v'.changes = v.changes) ∧
      ((v.data[id]?).join ≠ c → v'.changes = v.changes ++
        [⟨id, if (v.data[id]?).join = none then .create else if c = none then .delete else .modify⟩]) := by
  obtain ⟨v1, id, ha, hwf, hid, _, hcont, hch, hlt, hext⟩ := alloc_spec hv p
  have hd : ∀ j : Nat, (v1.data[j]?).join = (v.data[j]?).join := by
    intro j; have := alloc_data v p j; rw [ha] at this; exact this
  have he := alloc_ext v p
  rw [ha] at he
  have hdata : v1.data[id]? = some ((v.data[id]?).join) := by
    rw [← hd, List.getElem?_eq_getElem hlt]; rfl
  simp only [Vfs.setFileContents, ha, Vfs.get, hdata]
  cases hk : changeKindOf ((v.data[id]?).join) c with
  | none =>
    have hec := changeKindOf_none.1 hk
    refine ⟨v1, false, id, rfl, hwf, he, hid, ?_, fun _ => hch, fun h => absurd hec h⟩
    intro j; rw [hd j]; split
    · next h => rw [h, hec]
    · rfl
  | some k =>
    obtain ⟨hne, hkk⟩ := changeKindOf_some hk
    refine ⟨_, true, id, rfl, ⟨hwf.nodup, by simp [hwf.len]⟩, he, hid, ?_, fun h => absurd h hne, fun _ => ?_⟩
    · intro j
      rw [List.getElem?_set]
      by_cases hj : id = j
      · subst hj; simp [hlt]
      · simp [hj, Ne.symm hj, hd]
    · simp [hch, hkk]

end Verif.Vfs
