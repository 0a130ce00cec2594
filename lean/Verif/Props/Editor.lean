import Verif.Lsp.Editor
import Verif.Vfs.Lemmas
import Verif.Props.Vfs
import Verif.Props.Diagnostics
import Mathlib.Data.List.Induction
/-! # C07 (open editors win over the disk), C52 (closed documents have no diagnostics) -/

namespace Verif.Props.Editor
open Verif.Vfs Verif.TextSync Verif.Lsp.Editor Verif.Lsp.Editor.Spec
open Verif.Lsp.Diagnostics (Coll)
open Verif.Props.Vfs (read read_eq_content)

variable {P D : Type} [DecidableEq P]

/-- The server's documents against the client's. -/
structure Inv (u : Utf8) (s : St P D) (doc : P → Option (Int × Text)) : Prop where
  wf : WF s.vfs
  docs : ∀ p v, (p, v) ∈ s.memDocs ↔ ∃ t, doc p = some (v, t)
  text : ∀ p v t, doc p = some (v, t) → s.vfs.content p = some (u.enc t)

theorem isOpen_iff {u : Utf8} {s : St P D} {doc} (h : Inv u s doc) (p : P) : s.isOpen p = (doc p).isSome := by
  rw [Bool.eq_iff_iff]
  simp only [St.isOpen, List.any_eq_true, decide_eq_true_eq, Option.isSome_iff_exists]
  constructor
  · rintro ⟨⟨q, v⟩, hm, rfl⟩
    obtain ⟨t, ht⟩ := (h.docs q v).1 hm
    exact ⟨_, ht⟩
  · rintro ⟨⟨v, t⟩, ht⟩
    exact ⟨(p, v), (h.docs p v).2 ⟨t, ht⟩, rfl⟩

theorem mem_insertDoc (m : List (P × Int)) (p q : P) (v w : Int) :
    (q, w) ∈ insertDoc m p v ↔ (q = p ∧ w = v) ∨ (q ≠ p ∧ (q, w) ∈ m) := by
  simp only [insertDoc, List.mem_cons, Prod.mk.injEq, List.mem_filter, decide_eq_true_eq]
  constructor
  · rintro (h | h)
    · exact Or.inl h
    · exact Or.inr ⟨h.2, h.1⟩
  · rintro (h | h)
    · exact Or.inl h
    · exact Or.inr ⟨h.2, h.1⟩

/-- Setting the text of `p` as an open document keeps the invariant. -/
theorem inv_put {u : Utf8} {s : St P D} {doc} (h : Inv u s doc) (p : P) (v : Int) (t : Text)
    (dg : Coll D) (fl) :
    ∃ r, s.vfs.setFileContents p (some (u.enc t)) = some r ∧
      Inv u (⟨insertDoc s.memDocs p v, r.1, dg, fl⟩ : St P D) (fun q => if q = p then some (v, t) else doc q) := by
  obtain ⟨v', b, hset, hwf, _, hc, _⟩ := set_spec h.wf p (some (u.enc t))
  refine ⟨(v', b), hset, hwf, ?_, ?_⟩
  · intro q w
    rw [mem_insertDoc]
    by_cases hq : q = p
    · subst hq
      simp only [true_and, ne_eq, not_true, false_and, or_false, if_true, Option.some.injEq, Prod.mk.injEq]
      constructor
      · rintro rfl; exact ⟨t, rfl, rfl⟩
      · rintro ⟨_, h1, _⟩; exact h1.symm
    · simp [hq, h.docs q w]
  · intro q w t' hq
    rw [hc q]
    by_cases he : q = p
    · simp only [he, if_true, Option.some.injEq, Prod.mk.injEq] at hq
      simp [he, hq.2]
    · simp only [he, if_false] at hq ⊢
      exact h.text q w t' hq

theorem fileId_of_content {v : Vfs P} (hv : WF v) {p : P} {c} (h : v.content p = some c) :
    ∃ id, v.fileId p = some (some id) ∧ v.fileContents id = some c := by
  rw [fileId_spec hv, h]
  simp only [Option.isSome_some, if_true]
  cases hi : internGet v.interner p with
  | none => simp [Vfs.content, hi] at h
  | some id => exact ⟨id, rfl, by rw [← h, content_of_id hi]; rfl⟩

theorem loaded_inv {u : Utf8} {doc} (fs : List (P × Option Bytes)) : ∀ {s : St P D}, Inv u s doc →
    ∃ s', s.loaded fs = some s' ∧ Inv u s' doc := by
  induction fs with
  | nil => intro s h; exact ⟨s, rfl, h⟩
  | cons f fs ih =>
    intro s h
    obtain ⟨p, c⟩ := f
    simp only [St.loaded]
    by_cases ho : s.isOpen p = true
    · simp only [ho, if_true]; exact ih h
    · simp only [ho]
      obtain ⟨v', b, hset, hwf, _, hc, _⟩ := set_spec h.wf p c
      simp only [hset, Option.bind_some]
      apply ih
      refine ⟨hwf, h.docs, ?_⟩
      intro q w t hq
      rw [hc q]
      have hne : q ≠ p := by
        rintro rfl
        rw [isOpen_iff h, hq] at ho
        exact ho rfl
      simp only [hne, if_false]
      exact h.text q w t hq

theorem subscriptions_some {v : Vfs P} (hv : WF v) (ds : List (P × Int))
    (h : ∀ d ∈ ds, (v.content d.1).isSome) : ∃ subs, subscriptions v ds = some subs := by
  induction ds with
  | nil => exact ⟨[], rfl⟩
  | cons d ds ih =>
    obtain ⟨subs, hs⟩ := ih (fun x hx => h x (List.mem_cons_of_mem _ hx))
    obtain ⟨c, hc⟩ := Option.isSome_iff_exists.1 (h d List.mem_cons_self)
    obtain ⟨id, hid, _⟩ := fileId_of_content hv hc
    exact ⟨id :: subs, by simp [subscriptions, hid, hs]⟩

theorem step_inv {u : Utf8} {enc : Encoding} {same : D → D → Bool} {s : St P D} {doc} (h : Inv u s doc) (a : Act P D)
    (hok : ∀ p v cs d, a = .didChange p v cs → doc p = some d →
      applyDocumentChanges enc d.2 cs = some (TextSync.Spec.applyAll enc d.2 cs)) :
    ∃ s', s.step u enc same a = some s' ∧ Inv u s' (fun p => clientStep enc p (doc p) a) := by
  cases a with
  | didOpen p v t =>
    obtain ⟨r, hr, hi⟩ := inv_put h p v t s.diags s.inflight
    refine ⟨_, by simp only [St.step, St.didOpen, hr, Option.map_some]; rfl, ?_⟩
    have : (fun q => clientStep enc q (doc q) (Act.didOpen p v t : Act P D)) = fun q => if q = p then some (v, t) else doc q := by
      funext q; simp only [clientStep, eq_comm]
    rw [this]; exact hi
  | didChange p v cs =>
    cases hd : doc p with
    | none =>
      refine ⟨s, by simp [St.step, St.didChange, isOpen_iff h, hd], ?_⟩
      have : (fun q => clientStep enc q (doc q) (Act.didChange p v cs : Act P D)) = doc := by
        funext q
        simp only [clientStep]
        split
        · next e => subst e; simp [hd]
        · rfl
      rw [this]; exact h
    | some d =>
      obtain ⟨w, t⟩ := d
      have hc := h.text p w t hd
      obtain ⟨id, hid, hb⟩ := fileId_of_content h.wf hc
      have ha := hok p v cs (w, t) rfl hd
      obtain ⟨r, hr, hi⟩ := inv_put h p v (TextSync.Spec.applyAll enc t cs) s.diags s.inflight
      refine ⟨⟨insertDoc s.memDocs p v, r.1, s.diags, s.inflight⟩, ?_, ?_⟩
      · simp only at ha
        simp [St.step, St.didChange, isOpen_iff h, hd, hid, hb, u.dec_enc, ha, hr]
      · have : (fun q => clientStep enc q (doc q) (Act.didChange p v cs : Act P D)) =
            fun q => if q = p then some (v, TextSync.Spec.applyAll enc t cs) else doc q := by
          funext q
          simp only [clientStep]
          by_cases e : q = p
          · subst e; simp [hd]
          · simp [e, Ne.symm e]
        rw [this]; exact hi
  | didClose p =>
    refine ⟨_, by simp only [St.step, St.didClose, fileId_spec h.wf, Option.map_some]; rfl, ?_⟩
    refine ⟨h.wf, ?_, ?_⟩
    · intro q w
      simp only [List.mem_filter, decide_eq_true_eq, h.docs q w, clientStep]
      by_cases e : q = p
      · subst e; simp
      · simp [e, Ne.symm e]
    · intro q w t hq
      simp only [clientStep] at hq
      split at hq
      · simp at hq
      · exact h.text q w t hq
  | loaded fs => exact loaded_inv fs h
  | refresh =>
    obtain ⟨subs, hs⟩ := subscriptions_some h.wf s.memDocs (by
      intro d hd
      obtain ⟨t, ht⟩ := (h.docs d.1 d.2).1 hd
      rw [h.text _ _ _ ht]; rfl)
    refine ⟨_, by simp only [St.step, St.refresh, hs, Option.map_some]; rfl, ?_⟩
    exact ⟨h.wf, h.docs, h.text⟩
  | diagsDone i r =>
    refine ⟨_, rfl, ?_⟩
    simp only [St.diagsDone]
    split
    · exact h
    · exact ⟨h.wf, h.docs, h.text⟩

theorem run_append (u : Utf8) (enc : Encoding) (same : D → D → Bool) (a b : List (Act P D)) : ∀ s : St P D,
    s.run u enc same (a ++ b) = (s.run u enc same a).bind (fun s' => s'.run u enc same b) := by
  induction a with
  | nil => intro s; rfl
  | cons x a ih =>
    intro s
    simp only [List.cons_append, St.run]
    cases s.step u enc same x with
    | none => rfl
    | some s' => exact ih s'

theorem run_inv (u : Utf8) (enc : Encoding) (same : D → D → Bool) (as : List (Act P D)) (hok : SyncOk enc as) :
    ∃ s, St.init.run u enc same as = some s ∧ Inv u s (fun p => clientDoc enc p as) := by
  induction as using List.reverseRecOn with
  | nil =>
    refine ⟨St.init, rfl, WF.empty, ?_, ?_⟩
    · intro p v; simp [St.init, clientDoc]
    · intro p v t h; simp [clientDoc] at h
  | append_singleton as a ih =>
    obtain ⟨s, hs, hi⟩ := ih (fun pre p v cs post d he => hok pre p v cs (post ++ [a]) d (by rw [he]; simp))
    obtain ⟨s', hs', hi'⟩ := step_inv (u := u) (enc := enc) (same := same) hi a (by
      intro p v cs d ha hd
      exact hok as p v cs [] d (by rw [ha]) hd)
    refine ⟨s', by simp [run_append, hs, St.run, hs'], ?_⟩
    have : (fun p => clientDoc enc p (as ++ [a])) = fun p => clientStep enc p (clientDoc enc p as) a := by
      funext p; simp [clientDoc, List.foldl_append]
    rw [this]; exact hi'

/-- **C07**. In every interleaving of editor notifications, loader messages and diagnostics jobs the server does not
abort; a document is open in the server iff it is open in the client, with the same version; and the text the server has
for an open document is the client's text, whatever the loader reported. -/
theorem open_docs_win (u : Utf8) (enc : Encoding) (same : D → D → Bool) (as : List (Act P D)) (hok : SyncOk enc as) :
    ∃ s, St.init.run u enc same as = some s ∧
      (∀ p v, (p, v) ∈ s.memDocs ↔ ∃ t, clientDoc enc p as = some (v, t)) ∧
      (∀ p v t, clientDoc enc p as = some (v, t) → read s.vfs p = some (u.enc t)) := by
  obtain ⟨s, hs, hi⟩ := run_inv u enc same as hok
  exact ⟨s, hs, hi.docs, fun p v t h => by rw [read_eq_content hi.wf]; exact hi.text p v t h⟩

/-! ### After the document is closed the disk is in charge again -/

/-- **C07'**. For a document that is not open, a report of the loader is what the server has afterwards (so that closing
a document and reloading it gives the text on disk). -/
theorem closed_docs_follow_disk (u : Utf8) (enc : Encoding) (same : D → D → Bool) (as : List (Act P D)) (hok : SyncOk enc as)
    (p : P) (c : Option Bytes) (hclosed : clientDoc enc p as = none) :
    ∃ s, St.init.run u enc same (as ++ [.loaded [(p, c)]]) = some s ∧ read s.vfs p = c := by
  obtain ⟨s, hs, hi⟩ := run_inv u enc same as hok
  obtain ⟨v', b, hset, hwf, _, hc, _⟩ := set_spec hi.wf p c
  refine ⟨{ s with vfs := v' }, ?_, ?_⟩
  · have ho : s.isOpen p = false := by rw [isOpen_iff hi]; simp [hclosed]
    simp [run_append, hs, St.run, St.step, St.loaded, ho, hset]
  · rw [read_eq_content hwf]; simpa using hc p

/-! ### C52: stale diagnostics -/

/-- **C52, refuted**. A diagnostics job that was started while the document was open and finishes after it was closed
brings the diagnostics back, and nothing removes them: the document is closed and its diagnostics stay. -/
theorem closed_has_no_diagnostics_refuted (u : Utf8) (enc : Encoding) (same : Nat → Nat → Bool) :
    ∃ s : St Nat Nat, St.init.run u enc same [.didOpen 5 1 ['a'], .refresh, .didClose 5, .diagsDone 0 (fun _ => some [42])] = some s ∧
      clientDoc enc 5 [(.didOpen 5 1 ['a'] : Act Nat Nat), .refresh, .didClose 5, .diagsDone 0 (fun _ => some [42])] = none ∧
      nativeFor s 5 = [42] := by
  refine ⟨_, rfl, rfl, rfl⟩

theorem lookup_filter_ne (m : List (Nat × List D)) (f : Nat) :
    (m.filter (fun e => decide (e.1 ≠ f))).lookup f = none := by
  apply Verif.Props.Diagnostics.lookup_none_of_not_mem
  simp [List.mem_map, List.mem_filter]

theorem lookup_filter_other (m : List (Nat × List D)) (f g : Nat) (h : f ≠ g) :
    (m.filter (fun e => decide (e.1 ≠ g))).lookup f = m.lookup f := by
  induction m with
  | nil => rfl
  | cons e r ih =>
    obtain ⟨k, v⟩ := e
    by_cases hk : k = g
    · subst hk
      have : (f == k) = false := by simpa using h
      rw [List.filter_cons_of_neg (by simp), ih]; simp [List.lookup, this]
    · rw [List.filter_cons_of_pos (by simp [hk])]
      simp only [List.lookup_cons, ih]

/-- No diagnostics job that is running concerns `p`. -/
def NoJobFor (s : St P D) (p : P) : Prop := ∀ id, s.vfs.filePath id = some p → ∀ subs ∈ s.inflight, id ∉ subs

theorem setNative_lookup (same : D → D → Bool) (c : Coll D) (f g : Nat) (ds : List D) (h : f ≠ g) :
    (c.setNative same g ds).native.lookup f = c.native.lookup f := by
  simp only [Coll.setNative]
  split
  · split
    · rfl
    · simp [Verif.Props.Diagnostics.lookup_upsert, h]
  · simp [Verif.Props.Diagnostics.lookup_upsert, h]

theorem fold_lookup (same : D → D → Bool) (r : Nat → Option (List D)) (f : Nat) (subs : List Nat) (h : f ∉ subs) : ∀ c : Coll D,
    (setAllNative same r c subs).native.lookup f = c.native.lookup f := by
  induction subs with
  | nil => intro c; rfl
  | cons g subs ih =>
    intro c
    simp only [List.mem_cons, not_or] at h
    rw [setAllNative, ih h.2]
    split
    · exact setNative_lookup same c f g _ h.1
    · rfl

/-- Ids used by jobs and by the diagnostics are ids of known paths. -/
structure Known (s : St P D) : Prop where
  wf : WF s.vfs
  jobs : ∀ subs ∈ s.inflight, ∀ id ∈ subs, id < s.vfs.interner.length
  native : ∀ id, s.vfs.interner.length ≤ id → s.diags.native.lookup id = none

theorem subscriptions_mem {v : Vfs P} (ds : List (P × Int)) {subs} (h : subscriptions v ds = some subs) :
    ∀ id ∈ subs, ∃ d ∈ ds, v.fileId d.1 = some (some id) := by
  induction ds generalizing subs with
  | nil => simp only [subscriptions, Option.some.injEq] at h; subst h; simp
  | cons d ds ih =>
    simp only [subscriptions] at h
    cases h1 : v.fileId d.1 with
    | none => simp [h1] at h
    | some o =>
      cases o with
      | none => simp [h1] at h
      | some i =>
        cases h2 : subscriptions v ds with
        | none => simp [h1, h2] at h
        | some l =>
          simp only [h1, h2, Option.join_some, Option.bind_some, Option.map_some, Option.some.injEq] at h
          subst h
          intro id hid
          rcases List.mem_cons.1 hid with rfl | hid
          · exact ⟨d, List.mem_cons_self, h1⟩
          · obtain ⟨d', hd', he⟩ := ih h2 id hid
            exact ⟨d', List.mem_cons_of_mem _ hd', he⟩

theorem fileId_path {v : Vfs P} (hv : WF v) {p : P} {id} (h : v.fileId p = some (some id)) : v.filePath id = some p := by
  rw [fileId_spec hv] at h
  split at h <;> simp at h
  exact internGet_eq_some h

theorem filePath_lt {v : Vfs P} {p : P} {id} (h : v.filePath id = some p) : id < v.interner.length := by
  rcases Nat.lt_or_ge id v.interner.length with h1 | h1
  · exact h1
  · simp [Vfs.filePath, List.getElem?_eq_none h1] at h

theorem filePath_ext {v v' : Vfs P} (he : ∃ ext, v'.interner = v.interner ++ ext) {id : Nat} (h : id < v.interner.length) :
    v'.filePath id = v.filePath id := by
  obtain ⟨ext, he⟩ := he
  simp [Vfs.filePath, he, List.getElem?_append_left h]

theorem known_set {s : St P D} (h : Known s) {q : P} {c} {r} (hr : s.vfs.setFileContents q c = some r) (m : List (P × Int)) :
    Known ({ s with memDocs := m, vfs := r.1 } : St P D) ∧ ∃ ext, r.1.interner = s.vfs.interner ++ ext := by
  obtain ⟨v', b, hset, hwf, ⟨ext, he⟩, _⟩ := set_spec h.wf q c
  rw [hset] at hr
  simp only [Option.some.injEq] at hr
  subst hr
  refine ⟨⟨hwf, ?_, ?_⟩, ext, he⟩
  · intro subs hs id hid
    have := h.jobs subs hs id hid
    simp only [he, List.length_append]; exact Nat.lt_add_right _ this
  · intro id hid
    apply h.native
    simp only [he, List.length_append] at hid; exact Nat.le_trans (Nat.le_add_right _ _) hid

/-- The server has nothing for `p`: closed, no job, no diagnostics. -/
structure Quiet (s : St P D) (p : P) : Prop where
  known : Known s
  closed : s.isOpen p = false
  nojob : NoJobFor s p
  nodiag : ∀ id, s.vfs.filePath id = some p → s.diags.native.lookup id = none

theorem quiet_set {s : St P D} {p : P} (h : Quiet s p) {q : P} {c} {r} (hr : s.vfs.setFileContents q c = some r) (m : List (P × Int))
    (hm : ({ s with memDocs := m, vfs := r.1 } : St P D).isOpen p = false) :
    Quiet ({ s with memDocs := m, vfs := r.1 } : St P D) p := by
  obtain ⟨hk, hext⟩ := known_set h.known hr m
  refine ⟨hk, hm, ?_, ?_⟩
  · intro id hid subs hs hmem
    have hlt := h.known.jobs subs hs id hmem
    simp only at hid
    rw [filePath_ext hext hlt] at hid
    exact h.nojob id hid subs hs hmem
  · intro id hid
    simp only at hid ⊢
    rcases Nat.lt_or_ge id s.vfs.interner.length with h1 | h1
    · rw [filePath_ext hext h1] at hid; exact h.nodiag id hid
    · exact h.known.native id h1

theorem insertDoc_any (m : List (P × Int)) (p q : P) (v : Int) (h : m.any (fun d => decide (d.1 = p)) = false) (hne : q ≠ p) :
    (insertDoc m q v).any (fun d => decide (d.1 = p)) = false := by
  rw [Bool.eq_false_iff] at h ⊢
  intro hc
  apply h
  simp only [List.any_eq_true, decide_eq_true_eq] at hc ⊢
  obtain ⟨⟨a, b⟩, hm, rfl⟩ := hc
  rw [mem_insertDoc] at hm
  rcases hm with hm | hm
  · exact absurd hm.1.symm hne
  · exact ⟨_, hm.2, rfl⟩

theorem quiet_loaded {p : P} (fs : List (P × Option Bytes)) : ∀ {s s' : St P D}, Quiet s p → s.loaded fs = some s' → Quiet s' p := by
  induction fs with
  | nil => intro s s' h hs; simp only [St.loaded, Option.some.injEq] at hs; exact hs ▸ h
  | cons f fs ih =>
    intro s s' h hs
    obtain ⟨q, c⟩ := f
    simp only [St.loaded] at hs
    split at hs
    · exact ih h hs
    · cases hr : s.vfs.setFileContents q c with
      | none => simp [hr] at hs
      | some r =>
        simp only [hr, Option.bind_some] at hs
        exact ih (quiet_set h hr s.memDocs h.closed) hs

theorem quiet_step {u : Utf8} {enc : Encoding} {same : D → D → Bool} {p : P} {s s' : St P D} (h : Quiet s p) (a : Act P D)
    (hno : ∀ v t, a ≠ .didOpen p v t) (hs : s.step u enc same a = some s') : Quiet s' p := by
  cases a with
  | didOpen q v t =>
    have hne : q ≠ p := fun e => hno v t (by rw [e])
    simp only [St.step, St.didOpen] at hs
    cases hr : s.vfs.setFileContents q (some (u.enc t)) with
    | none => simp [hr] at hs
    | some r =>
      simp only [hr, Option.map_some, Option.some.injEq] at hs
      subst hs
      exact quiet_set h hr _ (insertDoc_any _ _ _ _ h.closed hne)
  | didChange q v cs =>
    simp only [St.step, St.didChange] at hs
    split at hs
    · next ho =>
      have hne : q ≠ p := by
        rintro rfl
        rw [h.closed] at ho; simp at ho
      simp only [Option.bind_eq_some_iff, Option.map_eq_some_iff] at hs
      obtain ⟨_, _, _, _, _, _, t, _, r, hr, rfl⟩ := hs
      exact quiet_set h hr _ (insertDoc_any _ _ _ _ h.closed hne)
    · simp only [Option.some.injEq] at hs; exact hs ▸ h
  | didClose q =>
    simp only [St.step, St.didClose, fileId_spec h.known.wf, Option.map_some, Option.some.injEq] at hs
    subst hs
    have hn : ∀ id : Nat, s.diags.native.lookup id = none → (match (if (s.vfs.content q).isSome = true then internGet s.vfs.interner q else none) with
        | some id => s.diags.clearNativeFor id
        | none => s.diags).native.lookup id = none := by
      intro id hid
      split
      · next id' _ =>
        simp only [Coll.clearNativeFor]
        by_cases he : id = id'
        · subst he; exact lookup_filter_ne _ _
        · rw [lookup_filter_other _ _ _ he]; exact hid
      · exact hid
    refine ⟨⟨h.known.wf, h.known.jobs, fun id hid => hn id (h.known.native id hid)⟩, ?_, h.nojob, fun id hid => hn id (h.nodiag id hid)⟩
    have hc := h.closed
    simp only [St.isOpen] at hc ⊢
    rw [Bool.eq_false_iff] at hc ⊢
    intro hh; apply hc
    simp only [List.any_eq_true, List.mem_filter] at hh ⊢
    obtain ⟨x, hx, hy⟩ := hh
    exact ⟨x, hx.1, hy⟩
  | loaded fs => exact quiet_loaded fs h hs
  | refresh =>
    simp only [St.step, St.refresh, Option.map_eq_some_iff] at hs
    obtain ⟨subs, hsub, rfl⟩ := hs
    refine ⟨⟨h.known.wf, ?_, h.known.native⟩, h.closed, ?_, h.nodiag⟩
    · intro l hl id hid
      rcases List.mem_append.1 hl with hl | hl
      · exact h.known.jobs l hl id hid
      · simp only [List.mem_singleton] at hl; subst hl
        obtain ⟨d, _, hd⟩ := subscriptions_mem _ hsub id hid
        exact filePath_lt (fileId_path h.known.wf hd)
    · intro id hid l hl hmem
      rcases List.mem_append.1 hl with hl | hl
      · exact h.nojob id hid l hl hmem
      · simp only [List.mem_singleton] at hl; subst hl
        obtain ⟨d, hdm, hd⟩ := subscriptions_mem _ hsub id hmem
        have h1 := fileId_path h.known.wf hd
        simp only at hid
        rw [h1] at hid
        simp only [Option.some.injEq] at hid
        have hc := h.closed
        simp only [St.isOpen, Bool.eq_false_iff] at hc
        exact hc (List.any_eq_true.2 ⟨d, hdm, by simp [hid]⟩)
  | diagsDone i r =>
    simp only [St.step, Option.some.injEq] at hs
    subst hs
    simp only [St.diagsDone]
    split
    · exact h
    · next subs hsub =>
      have hmem : subs ∈ s.inflight := List.mem_of_getElem? hsub
      refine ⟨⟨h.known.wf, fun l hl => h.known.jobs l (List.mem_of_mem_eraseIdx hl), ?_⟩, h.closed,
        fun id hid l hl => h.nojob id hid l (List.mem_of_mem_eraseIdx hl), ?_⟩
      · intro id hid
        simp only
        rw [fold_lookup same r id subs]
        · exact h.known.native id hid
        · intro hm; exact absurd (h.known.jobs subs hmem id hm) (Nat.not_lt.2 hid)
      · intro id hid
        simp only
        rw [fold_lookup same r id subs (h.nojob id hid subs hmem)]
        exact h.nodiag id hid

theorem known_step {u : Utf8} {enc : Encoding} {same : D → D → Bool} {s s' : St P D} (h : Known s) (a : Act P D)
    (hs : s.step u enc same a = some s') : Known s' := by
  cases a with
  | didOpen q v t =>
    simp only [St.step, St.didOpen, Option.map_eq_some_iff] at hs
    obtain ⟨r, hr, rfl⟩ := hs
    exact (known_set h hr _).1
  | didChange q v cs =>
    simp only [St.step, St.didChange] at hs
    split at hs
    · simp only [Option.bind_eq_some_iff, Option.map_eq_some_iff] at hs
      obtain ⟨_, _, _, _, _, _, t, _, r, hr, rfl⟩ := hs
      exact (known_set h hr _).1
    · simp only [Option.some.injEq] at hs; exact hs ▸ h
  | didClose q =>
    simp only [St.step, St.didClose, fileId_spec h.wf, Option.map_some, Option.some.injEq] at hs
    subst hs
    refine ⟨h.wf, h.jobs, ?_⟩
    intro id hid
    have hid' := h.native id hid
    simp only
    split
    · next id' _ =>
      simp only [Coll.clearNativeFor]
      by_cases he : id = id'
      · subst he; exact lookup_filter_ne _ _
      · rw [lookup_filter_other _ _ _ he]; exact hid'
    · exact hid'
  | loaded fs =>
    simp only [St.step] at hs
    induction fs generalizing s with
    | nil => simp only [St.loaded, Option.some.injEq] at hs; exact hs ▸ h
    | cons f fs ih =>
      obtain ⟨q, c⟩ := f
      simp only [St.loaded] at hs
      split at hs
      · exact ih h hs
      · simp only [Option.bind_eq_some_iff] at hs
        obtain ⟨r, hr, hs⟩ := hs
        exact ih (known_set h hr s.memDocs).1 hs
  | refresh =>
    simp only [St.step, St.refresh, Option.map_eq_some_iff] at hs
    obtain ⟨subs, hsub, rfl⟩ := hs
    refine ⟨h.wf, ?_, h.native⟩
    intro l hl id hid
    rcases List.mem_append.1 hl with hl | hl
    · exact h.jobs l hl id hid
    · simp only [List.mem_singleton] at hl; subst hl
      obtain ⟨d, _, hd⟩ := subscriptions_mem _ hsub id hid
      exact filePath_lt (fileId_path h.wf hd)
  | diagsDone i r =>
    simp only [St.step, Option.some.injEq] at hs
    subst hs
    simp only [St.diagsDone]
    split
    · exact h
    · next subs hsub =>
      have hmem : subs ∈ s.inflight := List.mem_of_getElem? hsub
      refine ⟨h.wf, fun l hl => h.jobs l (List.mem_of_mem_eraseIdx hl), ?_⟩
      intro id hid
      simp only
      rw [fold_lookup same r id subs]
      · exact h.native id hid
      · intro hm; exact absurd (h.jobs subs hmem id hm) (Nat.not_lt.2 hid)

theorem known_run {u : Utf8} {enc : Encoding} {same : D → D → Bool} (as : List (Act P D)) : ∀ {s s' : St P D}, Known s →
    s.run u enc same as = some s' → Known s' := by
  induction as with
  | nil => intro s s' h hs; simp only [St.run, Option.some.injEq] at hs; exact hs ▸ h
  | cons a as ih =>
    intro s s' h hs
    simp only [St.run, Option.bind_eq_some_iff] at hs
    obtain ⟨s1, h1, h2⟩ := hs
    exact ih (known_step h a h1) h2

theorem known_init : Known (St.init : St P D) := ⟨WF.empty, by simp [St.init], by simp [St.init, Coll.init]⟩

/-- **C52, partial**. If no diagnostics job for the document is running when it is closed, then after closing it, and in
every later history that does not open it again, the server holds no diagnostics of its own for it. Missing: jobs in
flight while the document is closed, for which the claim is false (above). -/
theorem closed_has_no_diagnostics_partial (u : Utf8) (enc : Encoding) (same : D → D → Bool) (pre post : List (Act P D)) (p : P)
    (s₁ s₂ : St P D) (h₁ : St.init.run u enc same pre = some s₁) (hjob : NoJobFor s₁ p) (hlast : (s₁.vfs.fileId p).join.isSome)
    (h₂ : s₁.run u enc same (.didClose p :: post) = some s₂) (hno : ∀ v t, Act.didOpen p v t ∉ post) :
    nativeFor s₂ p = [] := by
  have hk := known_run pre known_init h₁
  simp only [St.run, Option.bind_eq_some_iff] at h₂
  obtain ⟨s3, h3, h4⟩ := h₂
  have hk3 := known_step hk _ h3
  have hq : Quiet s3 p := by
    refine ⟨hk3, ?_, ?_, ?_⟩
    all_goals
      simp only [St.step, St.didClose, Option.map_eq_some_iff] at h3
      obtain ⟨oid, hoid, rfl⟩ := h3
    · simp [St.isOpen]
    · exact hjob
    · intro id hid
      rw [hoid] at hlast
      cases oid with
      | none => simp at hlast
      | some id' =>
        have h5 := fileId_path hk.wf hoid
        have : id = id' := by
          simp only [Vfs.filePath] at hid h5
          have h6 := internGet_of_getElem? hk.wf.nodup hid
          have h7 := internGet_of_getElem? hk.wf.nodup h5
          rw [h6] at h7; simpa using h7
        subst this
        simp only [Coll.clearNativeFor]
        exact lookup_filter_ne _ _
  have hfin : Quiet s₂ p := by
    clear h3 hk3
    induction post generalizing s3 with
    | nil => simp only [St.run, Option.some.injEq] at h4; exact h4 ▸ hq
    | cons a as ih =>
      simp only [St.run, Option.bind_eq_some_iff] at h4
      obtain ⟨s4, h5, h6⟩ := h4
      exact ih (fun v t hm => hno v t (List.mem_cons_of_mem _ hm)) s4 h6
        (quiet_step hq a (fun v t he => hno v t (by rw [he]; exact List.mem_cons_self)) h5)
  simp only [nativeFor]
  split
  · next id hid => rw [hfin.nodiag id (fileId_path hfin.known.wf hid)]; rfl
  · rfl

/-- Two documents, a loader that reports both, a change to an open one, one closed again. -/
example (u : Utf8) : SyncOk .utf16 ([.didOpen 1 7 ['a'], .loaded [(1, none), (2, some [9])], .didChange 1 8 [⟨none, ['b']⟩],
    .refresh, .didClose 2] : List (Act Nat Nat)) := by
  intro pre p v cs post d he hd
  match pre, he with
  | [_, _], he =>
    simp at he
    obtain ⟨_, _, ⟨rfl, rfl, rfl⟩, _⟩ := he
    rfl
  | [], he => simp at he
  | [_], he => simp at he
  | [_, _, _], he => simp at he
  | [_, _, _, _], he => simp at he
  | _ :: _ :: _ :: _ :: _ :: l, he => simp at he

end Verif.Props.Editor
