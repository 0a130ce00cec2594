import Verif.Lsp.Diagnostics
/-! # C33: published diagnostics -/

namespace Verif.Props.Diagnostics
open Verif.Lsp.Diagnostics Verif.Lsp.Diagnostics.Spec
variable {D : Type}

theorem lookup_upsert {α : Type} (m : List (Nat × α)) (k : Nat) (d : α) (f : α → α) (j : Nat) :
    (upsert m k d f).lookup j = if j = k then some (f ((m.lookup k).getD d)) else m.lookup j := by
  induction m with
  | nil =>
    by_cases h : j = k
    · simp [upsert, h]
    · have : (j == k) = false := by simpa using h
      simp [upsert, List.lookup, h, this]
  | cons e r ih =>
    obtain ⟨k', v⟩ := e
    simp only [upsert]
    by_cases h : k' = k
    · subst h
      by_cases hj : j = k'
      · simp [hj]
      · have : (j == k') = false := by simpa using hj
        simp [List.lookup, this, hj]
    · have hk : (k == k') = false := by simpa using Ne.symm h
      simp only [h, if_false, List.lookup_cons, ih, hk]
      by_cases hj : j = k'
      · subst hj; simp [h]
      · have : (j == k') = false := by simpa using hj
        simp [this]

/-- The part of `diagnostics_for` that comes from the checks. -/
def checkPart (m : List (Nat × List (FileId × List D))) (f : FileId) : List D :=
  m.flatMap (fun e => (e.2.lookup f).getD [])

theorem checkPart_upsert (m : List (Nat × List (FileId × List D))) (fc : Nat)
    (g : List (FileId × List D) → List (FileId × List D)) (f : FileId)
    (h : ∀ x, ((g x).lookup f).getD [] = (x.lookup f).getD []) :
    checkPart (upsert m fc [] g) f = checkPart m f := by
  induction m with
  | nil => simp [upsert, checkPart, h]
  | cons e r ih =>
    simp only [upsert]
    split
    · simp [checkPart, h]
    · simp only [checkPart, List.flatMap_cons] at ih ⊢
      rw [ih]

theorem lookup_none_of_not_mem {α : Type} {m : List (Nat × α)} {f : Nat} (h : f ∉ m.map (·.1)) : m.lookup f = none := by
  induction m with
  | nil => rfl
  | cons e r ih =>
    simp only [List.map_cons, List.mem_cons, not_or] at h
    have : (f == e.1) = false := by simpa using h.1
    obtain ⟨k, v⟩ := e
    simp [List.lookup, this, ih h.2]

theorem checkPart_drain (m : List (Nat × List (FileId × List D))) (fc : Nat) (f : FileId)
    (h : f ∉ (drain m fc).2) : checkPart (drain m fc).1 f = checkPart m f := by
  induction m with
  | nil => rfl
  | cons e r ih =>
    obtain ⟨k, v⟩ := e
    simp only [drain] at h ⊢
    split
    · next hk =>
      simp only [hk, if_true] at h
      simp [checkPart, lookup_none_of_not_mem h]
    · next hk =>
      simp only [hk, if_false] at h
      have := ih h
      simp only [checkPart, List.flatMap_cons] at this ⊢
      rw [this]

theorem checkPart_clear (m : List (Nat × List (FileId × List D))) (f : FileId)
    (h : f ∉ m.flatMap (fun e => e.2.map (·.1))) :
    checkPart (m.map (fun e => (e.1, ([] : List (FileId × List D))))) f = checkPart m f := by
  induction m with
  | nil => rfl
  | cons e r ih =>
    simp only [List.flatMap_cons, List.mem_append, not_or] at h
    have := ih h.2
    simp only [checkPart, List.map_cons, List.flatMap_cons] at this ⊢
    rw [this, lookup_none_of_not_mem h.1]; rfl

/-- A file whose diagnostics are not marked as changed has the same diagnostics as before the operation. -/
theorem step_frame (same : D → D → Bool) (patch : D → D) (s : Sys D) (e : Ev D) (f : FileId)
    (hf : f ∉ (s.step same patch e).coll.changes) (hp : ∀ o, e ≠ .publish o) :
    f ∉ s.coll.changes ∧ (s.step same patch e).coll.diagnosticsFor f = s.coll.diagnosticsFor f ∧
      (s.step same patch e).client = s.client := by
  cases e with
  | publish o => exact absurd rfl (hp o)
  | clearCheck fc =>
    simp only [Sys.step, Coll.clearCheck, List.mem_append, not_or] at hf
    exact ⟨hf.1, by have := checkPart_drain s.coll.check fc f hf.2; simp only [checkPart] at this; simp [Sys.step, Coll.clearCheck, Coll.diagnosticsFor, this], rfl⟩
  | clearCheckAll =>
    simp only [Sys.step, Coll.clearCheckAll, List.mem_append, not_or] at hf
    refine ⟨hf.1, ?_, rfl⟩
    have := checkPart_clear s.coll.check f hf.2
    simp only [checkPart] at this
    simp [Sys.step, Coll.clearCheckAll, Coll.diagnosticsFor, this]
  | clearNativeFor g =>
    simp only [Sys.step, Coll.clearNativeFor, List.mem_append, List.mem_singleton, not_or] at hf
    refine ⟨hf.1, ?_, rfl⟩
    simp only [Sys.step, Coll.clearNativeFor, Coll.diagnosticsFor]
    congr 2
    have : ∀ m : List (FileId × List D), (m.filter (fun e => e.1 ≠ g)).lookup f = m.lookup f := by
      intro m
      induction m with
      | nil => rfl
      | cons e r ih =>
        obtain ⟨k, v⟩ := e
        by_cases hk : k = g
        · subst hk
          have : (f == k) = false := by simpa using hf.2
          simp [List.lookup, this, ih]
          simpa using ih
        · simp only [List.filter_cons, decide_eq_true_eq, ne_eq, hk, not_false_eq_true, if_true, List.lookup_cons, ih]
    rw [this]
  | addCheck fc g d =>
    simp only [Sys.step, Coll.addCheck] at hf ⊢
    split
    · next hany =>
      simp only [hany, if_true] at hf
      refine ⟨hf, ?_, trivial⟩
      have := checkPart_upsert s.coll.check fc (fun m => upsert m g [] id) f (by
        intro x; rw [lookup_upsert]; split
        · next h => subst h; cases x.lookup f <;> rfl
        · rfl)
      simp only [checkPart] at this
      simp [Coll.diagnosticsFor, this]
    · next hany =>
      simp only [hany] at hf
      simp only [Bool.false_eq_true, if_false, List.mem_append, List.mem_singleton, not_or] at hf
      refine ⟨hf.1, ?_, trivial⟩
      have := checkPart_upsert s.coll.check fc (fun m => upsert m g [] (fun ds => ds ++ [d])) f (by
        intro x; rw [lookup_upsert]; simp [hf.2])
      simp only [checkPart] at this
      simp [Coll.diagnosticsFor, this]
  | setNative g ds =>
    simp only [Sys.step, Coll.setNative] at hf ⊢
    have key : f ∉ s.coll.changes ++ [g] → f ∉ s.coll.changes ∧
        ({ s.coll with native := upsert s.coll.native g [] (fun _ => ds), changes := s.coll.changes ++ [g] } : Coll D).diagnosticsFor f
          = s.coll.diagnosticsFor f := by
      intro h
      simp only [List.mem_append, List.mem_singleton, not_or] at h
      exact ⟨h.1, by simp [Coll.diagnosticsFor, lookup_upsert, h.2]⟩
    split
    · next old ho =>
      simp only [ho] at hf
      split
      · next he => simp only [he, if_true] at hf; exact ⟨hf, rfl, trivial⟩
      · next he =>
        simp only [he] at hf
        exact ⟨(key hf).1, (key hf).2, trivial⟩
    · next ho =>
      simp only [ho] at hf
      exact ⟨(key hf).1, (key hf).2, trivial⟩

/-- Publications only reorder. -/
def Honest : List (Ev D) → Prop
  | [] => True
  | .publish order :: es => (∀ f l, (order f l).Perm l) ∧ Honest es
  | _ :: es => Honest es

theorem run_inv (same : D → D → Bool) (patch : D → D) (es : List (Ev D)) : ∀ s : Sys D, Honest es →
    (∀ f, f ∉ s.coll.changes → (s.client f).Perm ((s.coll.diagnosticsFor f).map patch)) →
    ∀ f, f ∉ (s.run same patch es).coll.changes →
      ((s.run same patch es).client f).Perm (((s.run same patch es).coll.diagnosticsFor f).map patch) := by
  induction es with
  | nil => intro s _ h; exact h
  | cons e es ih =>
    intro s ho h
    have hrun : s.run same patch (e :: es) = (s.step same patch e).run same patch es := rfl
    rw [hrun]
    have ho' : Honest es := by cases e <;> first | exact ho | exact ho.2
    apply ih _ ho'
    intro f hf
    by_cases hp : ∃ o, e = .publish o
    · obtain ⟨o, rfl⟩ := hp
      simp only [Sys.step, Sys.publish] at hf ⊢
      have hd : ({ s.coll with changes := [] } : Coll D).diagnosticsFor f = s.coll.diagnosticsFor f := rfl
      rw [hd]
      split
      · exact (ho.1 f _).map patch
      · next hn => exact h f hn
    · obtain ⟨h1, h2, h3⟩ := step_frame same patch s e f hf (fun o he => hp ⟨o, he⟩)
      rw [h2, h3]; exact h f h1

/-- **C33a**. After every history that ends with the publication of a loop turn, what the client was last told about each
file is (up to order and up to the patching of empty messages) exactly what the server holds for it. -/
theorem published_matches (same : D → D → Bool) (patch : D → D) (es : List (Ev D)) (order : FileId → List D → List D)
    (h : Honest (es ++ [.publish order])) (f : FileId) :
    ((Sys.init.run same patch (es ++ [.publish order])).client f).Perm
      (((Sys.init.run same patch (es ++ [.publish order])).coll.diagnosticsFor f).map patch) := by
  apply run_inv same patch _ _ h
  · intro f _; simp [Sys.init, Coll.init, Coll.diagnosticsFor]
  · simp [Sys.run, Sys.step, Sys.publish]

/-! ### What the server holds -/

theorem native_held (same : D → D → Bool) (patch : D → D) (es : List (Ev D)) (f : FileId)
    (hsame : ∀ a b, same a b = true → a = b) : ∀ s : Sys D,
    ((s.run same patch es).coll.native.lookup f).getD [] = es.foldl (fun acc e =>
      match e with
      | .setNative g ds => if g = f then ds else acc
      | .clearNativeFor g => if g = f then [] else acc
      | _ => acc) ((s.coll.native.lookup f).getD []) := by
  induction es with
  | nil => intro s; rfl
  | cons e es ih =>
    intro s
    have hrun : s.run same patch (e :: es) = (s.step same patch e).run same patch es := rfl
    rw [hrun, ih, List.foldl_cons]
    congr 1
    cases e with
    | clearCheck fc => rfl
    | clearCheckAll => rfl
    | publish o => rfl
    | addCheck fc g d => simp only [Sys.step, Coll.addCheck]; split <;> rfl
    | clearNativeFor g =>
      simp only [Sys.step, Coll.clearNativeFor]
      induction s.coll.native with
      | nil => split <;> rfl
      | cons e r ihr =>
        obtain ⟨k, v⟩ := e
        by_cases hk : k = g
        · subst hk
          rw [List.filter_cons_of_neg (by simp), ihr]
          by_cases hf : k = f
          · simp [hf]
          · have : (f == k) = false := by simpa using Ne.symm hf
            simp [hf, List.lookup, this]
        · rw [List.filter_cons_of_pos (by simp [hk])]
          simp only [List.lookup_cons]
          by_cases hf : f = k
          · subst hf; simp [Ne.symm hk]
          · have : (f == k) = false := by simpa using hf
            simp only [this]; exact ihr
    | setNative g ds =>
      simp only [Sys.step, Coll.setNative]
      have hup : ((upsert s.coll.native g [] (fun _ => ds)).lookup f).getD [] =
          if g = f then ds else (s.coll.native.lookup f).getD [] := by
        rw [lookup_upsert]
        by_cases hf : f = g
        · subst hf; simp
        · simp [hf, Ne.symm hf]
      split
      · next old ho =>
        split
        · next he =>
          by_cases hf : g = f
          · subst hf
            simp only [if_true, ho, Option.getD_some]
            simp only [Bool.and_eq_true, decide_eq_true_eq, List.all_eq_true] at he
            obtain ⟨hl, ha⟩ := he
            apply List.ext_getElem hl
            intro i h1 h2
            have := ha (ds[i], old[i]) (by
              rw [List.mem_iff_getElem]; exact ⟨i, by simp; omega, by simp⟩)
            exact (hsame _ _ this).symm
          · simp [hf]
        · exact hup
      · exact hup

/-- **C33b**. If diagnostics that differ in any way are recognised as different, the native diagnostics held for a file
are those computed last. -/
theorem held_native_is_last (same : D → D → Bool) (patch : D → D) (es : List (Ev D)) (f : FileId)
    (hsame : ∀ a b, same a b = true → a = b) :
    ((Sys.init.run same patch es).coll.native.lookup f).getD [] = lastNative f es := by
  rw [native_held same patch es f hsame]; rfl

/-- A diagnostic as in `lsp_types`: the compared fields (source, severity, range, message), and the ignored ones (code,
tags). -/
structure D0 where
  compared : Nat
  ignored : Nat
  deriving DecidableEq

/-- `are_diagnostics_equal` (diagnostics.rs:137-142) ignores code and tags. -/
def same0 (a b : D0) : Bool := a.compared = b.compared

/-- **C33c, refuted**. With the comparison used by the server, diagnostics that only change their code or tags (for
instance, become "unnecessary") are neither stored nor published: the client keeps the outdated ones. -/
theorem held_native_is_last_refuted :
    ((Sys.init.run same0 id [.setNative 1 [⟨7, 0⟩], .publish (fun _ l => l), .setNative 1 [⟨7, 1⟩],
      .publish (fun _ l => l)]).client 1 = [⟨7, 0⟩]) ∧
    lastNative 1 [.setNative 1 [⟨7, 0⟩], .publish (fun _ l => l), .setNative 1 [(⟨7, 1⟩ : D0)], .publish (fun _ l => l)]
      = [⟨7, 1⟩] := by decide

theorem checkFor_step (same : D → D → Bool) (patch : D → D) (s : Sys D) (e : Ev D) (fc : Nat) (f : FileId) :
    (s.step same patch e).coll.checkFor fc f =
      match e with
      | .addCheck fc' g d =>
        if fc' = fc ∧ g = f then
          (if (s.coll.checkFor fc f).any (fun x => same x d) then s.coll.checkFor fc f else s.coll.checkFor fc f ++ [d])
        else s.coll.checkFor fc f
      | .clearCheck fc' => if fc' = fc then [] else s.coll.checkFor fc f
      | .clearCheckAll => []
      | _ => s.coll.checkFor fc f := by
  cases e with
  | publish o => rfl
  | clearNativeFor g => rfl
  | setNative g ds => simp only [Sys.step, Coll.setNative]; split <;> (try split) <;> rfl
  | clearCheckAll =>
    simp only [Sys.step, Coll.clearCheckAll, Coll.checkFor]
    have : ∀ m : List (Nat × List (FileId × List D)),
        ((m.map (fun e => (e.1, ([] : List (FileId × List D))))).lookup fc).getD [] = [] := by
      intro m
      induction m with
      | nil => rfl
      | cons e r ih =>
        simp only [List.map_cons, List.lookup_cons]
        split
        · rfl
        · exact ih
    rw [this]; rfl
  | clearCheck fc' =>
    simp only [Sys.step, Coll.clearCheck, Coll.checkFor]
    have : ∀ m : List (Nat × List (FileId × List D)), ((drain m fc').1.lookup fc).getD [] =
        if fc' = fc then [] else (m.lookup fc).getD [] := by
      intro m
      induction m with
      | nil => simp [drain]
      | cons e r ih =>
        obtain ⟨k, v⟩ := e
        simp only [drain]
        by_cases hk : k = fc'
        · subst hk
          simp only [if_true, List.lookup_cons]
          by_cases hf : fc = k
          · subst hf; simp
          · have : (fc == k) = false := by simpa using hf
            simp [this, Ne.symm hf]
        · simp only [hk, if_false, List.lookup_cons]
          by_cases hf : fc = k
          · subst hf; simp [Ne.symm hk]
          · have : (fc == k) = false := by simpa using hf
            simp only [this]; exact ih
    rw [this]; split <;> rfl
  | addCheck fc' g d =>
    simp only [Sys.step, Coll.addCheck]
    have hlook : ∀ h : List D → List D, (((upsert s.coll.check fc' [] (fun m => upsert m g [] h)).lookup fc).getD []).lookup f
        = if fc' = fc then (if g = f then some (h (s.coll.checkFor fc f)) else ((s.coll.check.lookup fc).getD []).lookup f)
          else ((s.coll.check.lookup fc).getD []).lookup f := by
      intro h
      rw [lookup_upsert]
      by_cases h1 : fc = fc'
      · subst h1
        simp only [if_true, Option.getD_some, lookup_upsert]
        by_cases h2 : f = g
        · subst h2; simp [Coll.checkFor]
        · simp [h2, Ne.symm h2]
      · simp [h1, Ne.symm h1]
    by_cases h1 : fc' = fc
    · subst h1
      by_cases h2 : g = f
      · subst h2
        simp only [and_self, if_true]
        split
        · next ha => simp [Coll.checkFor, hlook]
        · next ha =>
          have := hlook (fun ds => ds ++ [d])
          simp only [if_true] at this
          simp [Coll.checkFor] at this ⊢
          rw [this]; rfl
      · simp only [h2, and_false, if_false]
        split
        · have := hlook id
          simp only [h2, if_false, if_true] at this
          simp [Coll.checkFor, this]
        · have := hlook (fun ds => ds ++ [d])
          simp only [h2, if_false, if_true] at this
          simp [Coll.checkFor, this]
    · simp only [h1, false_and, if_false]
      split
      · have := hlook id
        simp only [h1, if_false] at this
        simp [Coll.checkFor, this]
      · have := hlook (fun ds => ds ++ [d])
        simp only [h1, if_false] at this
        simp [Coll.checkFor, this]

/-- **C33d**. The compiler diagnostics held for a file and a flycheck are those received since the last start of that
flycheck, without repetitions. -/
theorem held_check_is_latest_run (same : D → D → Bool) (patch : D → D) (es : List (Ev D)) (fc : Nat) (f : FileId) :
    (Sys.init.run same patch es).coll.checkFor fc f = checkDiags same fc f es := by
  have : ∀ s : Sys D, (s.run same patch es).coll.checkFor fc f = es.foldl (fun acc e =>
    match e with
    | .addCheck fc' g d => if fc' = fc ∧ g = f then (if acc.any (fun x => same x d) then acc else acc ++ [d]) else acc
    | .clearCheck fc' => if fc' = fc then [] else acc
    | .clearCheckAll => []
    | _ => acc) (s.coll.checkFor fc f) := by
    induction es with
    | nil => intro s; rfl
    | cons e es ih =>
      intro s
      have hrun : s.run same patch (e :: es) = (s.step same patch e).run same patch es := rfl
      rw [hrun, ih, List.foldl_cons, checkFor_step]
  rw [this]; rfl

/-- Two flychecks and native diagnostics for the same file, one run restarted. -/
example : (Sys.init.run (fun a b => decide (a = b)) id [.addCheck 0 1 10, .addCheck 5 1 20, .setNative 1 [30], .publish (fun _ l => l),
      .clearCheck 0, .addCheck 0 1 11, .addCheck 0 1 11, .publish (fun _ l => l.reverse)]).client 1 = [20, 11, 30] := by decide

end Verif.Props.Diagnostics
