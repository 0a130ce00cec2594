import Verif.Vfs.Usage
import Verif.Vfs.Lemmas
import Verif.Props.Vfs
import Mathlib.Data.List.Perm.Basic
import Mathlib.Data.List.Nodup
import Mathlib.Algebra.BigOperators.Group.List.Basic
/-! # C116: the status report shows what the files occupy -/

namespace Verif.Props.Usage
open Verif.Vfs
variable {P : Type} [DecidableEq P]

def size : Option Bytes → Nat
  | some c => c.length
  | none => 0

omit [DecidableEq P] in
theorem usage_sum (l : List (Option Bytes)) : ((l.filterMap id).map List.length).sum = (l.map size).sum := by
  induction l with
  | nil => rfl
  | cons a l ih => cases a <;> simpa [size] using ih

theorem held_sum (ops : List (Op P)) (ps : List P) : Spec.held ops ps = (ps.map fun p => size (Spec.lastContents p ops)).sum := by
  induction ps with
  | nil => rfl
  | cons p ps ih =>
    simp only [Spec.held, List.map_cons, List.sum_cons, ih]
    cases Spec.lastContents p ops <;> rfl

omit [DecidableEq P] in
theorem sum_filter (f : P → Nat) (l : List P) : (l.map f).sum = ((l.filter fun p => decide (f p ≠ 0)).map f).sum := by
  induction l with
  | nil => rfl
  | cons a l ih =>
    by_cases h : f a = 0 <;> simp [h, ih]

theorem internGet_getElem {m : List P} (hn : m.Nodup) {i : Nat} (hi : i < m.length) : internGet m m[i] = some i := by
  unfold internGet
  rw [List.findIdx?_eq_some_iff_getElem]
  refine ⟨hi, by simp, fun j hj => ?_⟩
  have := (List.nodup_iff_injective_getElem.1 hn).ne (a₁ := ⟨j, by omega⟩) (a₂ := ⟨i, hi⟩) (by simp; omega)
  simpa using this

theorem data_eq {v : Vfs P} (w : WF v) : v.data = v.interner.map v.content := by
  apply List.ext_getElem (by simp [w.len])
  intro i h1 h2
  have hi : i < v.interner.length := by rw [← w.len]; exact h1
  rw [List.getElem_map, content_of_id (internGet_getElem w.nodup hi), List.getElem?_eq_getElem h1]
  rfl

theorem content_mem {v : Vfs P} {p : P} (h : v.content p ≠ none) : p ∈ v.interner := by
  unfold Vfs.content at h
  cases hg : internGet v.interner p with
  | none => simp [hg] at h
  | some i =>
    unfold internGet at hg
    obtain ⟨hi, h1, _⟩ := List.findIdx?_eq_some_iff_getElem.1 hg
    have : v.interner[i] = p := by simpa using h1
    exact this ▸ List.getElem_mem hi

/-- **C116** (what is counted). After any history, the usage is the sum of the sizes of the files that are there, each with the contents last
given to it: `ps` are any paths without repetition among which all files are. -/
theorem usage_exact (ops : List (Op P)) (ps : List P) (hn : ps.Nodup) (hall : ∀ p, Spec.lastContents p ops ≠ none → p ∈ ps) :
    ∃ v d, Vfs.empty.run ops = some (v, d) ∧ v.memoryUsage = Spec.held ops ps := by
  obtain ⟨v, d, hr, w, _⟩ := run_spec ops (WF.empty (P := P))
  refine ⟨v, d, hr, ?_⟩
  have hc : ∀ p, v.content p = Spec.lastContents p ops := by
    intro p
    obtain ⟨v', d', hr', hl⟩ := Verif.Props.Vfs.vfs_reads_last_write ops p
    rw [hr] at hr'
    cases hr'
    rw [← Verif.Props.Vfs.read_eq_content w, hl]
  have hf : (fun p => size (Spec.lastContents p ops)) = fun p => size (v.content p) := by funext p; rw [hc]
  rw [Vfs.memoryUsage, usage_sum, held_sum, hf, data_eq w, List.map_map]
  show (v.interner.map fun p => size (v.content p)).sum = _
  rw [sum_filter _ v.interner, sum_filter _ ps]
  apply List.Perm.sum_eq
  apply List.Perm.map
  rw [List.perm_ext_iff_of_nodup (w.nodup.filter _) (hn.filter _)]
  intro p
  have key : size (v.content p) ≠ 0 → v.content p ≠ none := by
    intro h h'
    exact h (by rw [h']; rfl)
  simp only [List.mem_filter, decide_eq_true_eq]
  exact ⟨fun ⟨_, h⟩ => ⟨hall p (hc p ▸ key h), h⟩, fun ⟨_, h⟩ => ⟨content_mem (key h), h⟩⟩

/-- **C116** (what is shown). The amount shown is the number of whole units, and up to 4096 bytes it is exact. -/
theorem shown_close (n : Nat) :
    ∃ k : Nat, ∃ s, showBytes n = ((k : Int), s) ∧ k * Spec.unit s ≤ n ∧ n < (k + 1) * Spec.unit s ∧ (s = .b ↔ n ≤ 4096) ∧ (s = .mb ↔ 4097 * 1024 ≤ n) := by
  unfold showBytes
  have e : ((n : Int).tdiv 1024) = ((n / 1024 : Nat) : Int) := rfl
  have e' : (((n / 1024 : Nat) : Int).tdiv 1024) = ((n / 1024 / 1024 : Nat) : Int) := rfl
  simp only [e, e', Int.natAbs_natCast]
  split
  · split
    · exact ⟨n / 1024 / 1024, .mb, rfl, by simp only [Spec.unit]; omega, by simp only [Spec.unit]; omega, by simp; omega, by simp; omega⟩
    · exact ⟨n / 1024, .kb, rfl, by simp only [Spec.unit]; omega, by simp only [Spec.unit]; omega, by simp; omega, by simp; omega⟩
  · exact ⟨n, .b, rfl, by simp [Spec.unit], by simp [Spec.unit], by simp; omega, by simp; omega⟩

/-- **C116** (more is not shown as less). -/
theorem shown_mono {a b : Nat} (h : a ≤ b) : (showBytes a).1 * Spec.unit (showBytes a).2 ≤ (showBytes b).1 * Spec.unit (showBytes b).2 := by
  obtain ⟨k, s, hs, h1, h2, h3, h4⟩ := shown_close a
  obtain ⟨k', s', hs', h1', h2', h3', h4'⟩ := shown_close b
  rw [hs, hs']
  have : k * Spec.unit s ≤ k' * Spec.unit s' := by
    by_cases e : s = s'
    · subst e
      have hk : k < k' + 1 := Nat.lt_of_mul_lt_mul_right (Nat.lt_of_le_of_lt (Nat.le_trans h1 h) h2')
      exact Nat.mul_le_mul_right _ (Nat.le_of_lt_succ hk)
    · -- a unit that is larger by at least 1024 is shown at least four times
      have b1 : s' = .b → s = .b := fun hb => h3.2 (Nat.le_trans h (h3'.1 hb))
      have m1 : s = .mb → s' = .mb := fun hm => h4'.2 (Nat.le_trans (h4.1 hm) h)
      cases s' with
      | b => exact absurd (b1 rfl) e
      | kb =>
        cases s with
        | b =>
          have := h3.1 rfl
          have := mt h3'.2 (by decide)
          simp only [Spec.unit] at h1 h2' ⊢
          omega
        | kb => exact absurd rfl e
        | mb => exact absurd (m1 rfl) (by decide)
      | mb =>
        have g := h4'.1 rfl
        have g2 : 4 * 1048576 ≤ k' * 1048576 := by
          have : Spec.unit .mb = 1048576 := rfl
          rw [this] at h2'
          omega
        cases s with
        | b => have := h3.1 rfl; have h1 : k * 1 ≤ a := h1; show k * 1 ≤ k' * 1048576; omega
        | kb =>
          have l := mt h4.2 (by decide)
          have h1 : k * 1024 ≤ a := h1
          have hk : k < 4097 := Nat.lt_of_mul_lt_mul_right (Nat.lt_of_le_of_lt h1 (Nat.lt_of_not_le l))
          exact Nat.le_trans (Nat.mul_le_mul_right 1024 (Nat.le_of_lt_succ hk)) g2
        | mb => exact absurd rfl e
  show (k : Int) * (Spec.unit s : Nat) ≤ (k' : Int) * (Spec.unit s' : Nat)
  exact_mod_cast this

/-- **C116** (a size that is taken away is shown as it would be, with its sign). -/
theorem shown_neg (n : Int) : showBytes (-n) = (-(showBytes n).1, (showBytes n).2) := by
  unfold showBytes
  simp only [Int.neg_tdiv, Int.natAbs_neg]
  split
  · split <;> rfl
  · rfl

/-- **C116** (the line of the report). After any history the line says how many whole units the files hold. -/
theorem line_exact (ops : List (Op P)) (ps : List P) (hn : ps.Nodup) (hall : ∀ p, Spec.lastContents p ops ≠ none → p ∈ ps) :
    ∃ v d, Vfs.empty.run ops = some (v, d) ∧ ∃ k : Nat, ∃ s, v.usageLine = ((k : Int), s) ∧
      k * Spec.unit s ≤ Spec.held ops ps ∧ Spec.held ops ps < (k + 1) * Spec.unit s := by
  obtain ⟨v, d, hr, hu⟩ := usage_exact ops ps hn hall
  obtain ⟨k, s, h, h1, h2, _⟩ := shown_close v.memoryUsage
  exact ⟨v, d, hr, k, s, h, hu ▸ h1, hu ▸ h2⟩

/-- A file that is written twice, one that is deleted and one that is empty. -/
def sample : List (Op Nat) := [.set 7 (some [1]), .set 8 (some [1, 2]), .take, .set 7 (some [1, 2, 3]), .set 9 (some []), .set 8 none]

example : ([9, 7] : List Nat).Nodup ∧ ∀ p, Spec.lastContents p sample ≠ none → p ∈ [9, 7] := by
  refine ⟨by decide, fun p h => ?_⟩
  simp only [sample, Spec.lastContents, List.foldl_cons, List.foldl_nil] at h
  by_cases h8 : 8 = p
  · simp [h8] at h
  · by_cases h9 : 9 = p
    · simp [← h9]
    · by_cases h7 : 7 = p
      · simp [← h7]
      · simp [h7, h8, h9] at h
example : Spec.held sample [9, 7] = 3 := by decide
example : (Vfs.empty.run sample).map (fun r => r.1.usageLine) = some (3, .b) := by decide
example : showBytes 4096 = (4096, .b) ∧ showBytes 5119 = (4, .kb) ∧ showBytes 5000000 = (4, .mb) ∧ showBytes (-5119) = (-4, .kb) := by decide

end Verif.Props.Usage
