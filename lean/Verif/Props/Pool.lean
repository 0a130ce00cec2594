import Verif.Stdx.Pool
import Mathlib.Data.List.Perm.Basic
/-!
# C82: work handed to the background threads is done, once, the oldest first
-/

namespace Verif.Props.Pool
open Verif.Stdx.Pool Verif.Stdx.Pool.Spec

theorem split_at {α : Type} (l : List α) : ∀ (w : Nat) (x : α), l[w]? = some x → ∃ a b, l = a ++ x :: b ∧ ∀ y, l.set w y = a ++ y :: b := by
  induction l with
  | nil => intro w x h; simp at h
  | cons c l ih =>
    intro w x h
    cases w with
    | zero => simp only [List.getElem?_cons_zero, Option.some.injEq] at h; subst h; exact ⟨[], l, rfl, fun y => rfl⟩
    | succ w =>
      rw [List.getElem?_cons_succ] at h
      obtain ⟨a, b, h1, h2⟩ := ih w x h
      exact ⟨c :: a, b, by rw [h1]; rfl, fun y => by rw [List.set_cons_succ, h2]; rfl⟩

theorem perm_mid {α : Type} (r a b l : List α) (j : α) : (r ++ (a ++ j :: b) ++ l).Perm (j :: (r ++ (a ++ b) ++ l)) := by
  have : r ++ (a ++ j :: b) ++ l = (r ++ a) ++ j :: (b ++ l) := by simp
  rw [this]
  exact List.perm_middle.trans (by simp)

/-- Is the thread one that a panic ended? -/
def gone : Worker → Bool
  | .panicked => true
  | _ => false

structure Inv (n : Nat) (as : List Act) (s : St) : Prop where
  len : s.workers.length = n
  gone : s.workers.countP gone = panics as
  pre : s.started.map Prod.fst ++ s.queue <+: spawned as
  full : panics as < n → s.started.map Prod.fst ++ s.queue = spawned as ∧ s.aborted = false
  ended : .ended ∈ s.workers → s.closed = true ∧ s.queue = []
  intents : ∀ p ∈ s.started, p.2 = p.1.intent
  busy : ∀ t j, .busy t j ∈ s.workers → t.current = t.cls
  idle : ∀ t, .idle t ∈ s.workers → t.current = t.cls
  tally : ∃ lost : List Job, lost.length = panics as ∧ (∀ j ∈ lost, j.guarded = false) ∧
    (s.returned ++ running s ++ lost).Perm (s.started.map Prod.fst)
  extant : s.extant = (running s).length + panics as

theorem spawned_snoc (as : List Act) (a : Act) : spawned (as ++ [a]) = spawned as ++ spawned [a] := by
  induction as with
  | nil => rfl
  | cons b as ih => cases b <;> simp [spawned, ih]

theorem panics_snoc (as : List Act) (a : Act) : panics (as ++ [a]) = panics as + panics [a] := by
  induction as with
  | nil => simp [panics]
  | cons b as ih =>
    cases b with
    | finish w p => cases p <;> (simp [panics, ih]; try omega)
    | _ => simp [panics, ih]

theorem adjust_eq {t : Thread} (ht : t.current = t.cls) (j : Job) : adjust t j = ⟨j.intent, j.intent⟩ := by
  obtain ⟨c, k⟩ := t
  simp only at ht
  subst ht
  unfold adjust; split
  · rfl
  · rename_i h; simp only [ne_eq, not_not] at h; rw [h]

/-- If no thread is alive and not all were ended by a panic, one has ended by itself. -/
theorem ended_of (ws : List Worker) (ha : ws.any Worker.alive = false) (hg : ws.countP gone < ws.length) : .ended ∈ ws := by
  induction ws with
  | nil => simp at hg
  | cons w ws ih =>
    rw [List.any_cons, Bool.or_eq_false_iff] at ha
    cases w with
    | ended => exact List.mem_cons_self ..
    | panicked =>
      refine List.mem_cons_of_mem _ (ih ha.2 ?_)
      rw [List.countP_cons_of_pos (by rfl), List.length_cons] at hg; omega
    | _ => simp [Worker.alive] at ha

theorem drain_inv {n : Nat} {as : List Act} {s : St} (h : Inv n as s) : Inv n as s.drain := by
  unfold St.drain
  split
  · exact h
  · rename_i ha
    simp only [Bool.not_eq_true] at ha
    have hq : panics as < n → s.queue = [] := fun hp =>
      (h.ended (ended_of _ ha (by rw [h.len, h.gone]; exact hp))).2
    exact { h with
      pre := by
        refine List.IsPrefix.trans ?_ h.pre
        simp
      full := fun hp => by have := h.full hp; rw [hq hp] at this; exact this
      ended := fun he => ⟨(h.ended he).1, rfl⟩ }

theorem step_inv {n : Nat} {as : List Act} {s s' : St} (h : Inv n as s) (a : Act) (hs : s.step a = some s') : Inv n (as ++ [a]) s' := by
  cases a with
  | spawn j =>
    have hp : panics (as ++ [.spawn j]) = panics as := by rw [panics_snoc]; rfl
    have hsp : spawned (as ++ [.spawn j]) = spawned as ++ [j] := by rw [spawned_snoc]; rfl
    simp only [St.step] at hs
    split at hs
    · cases hs
    · rename_i hc
      simp only [Bool.or_eq_true, not_or, Bool.not_eq_true] at hc
      injection hs with hs
      subst hs
      unfold St.spawn
      split
      · rename_i ha
        have hne : Worker.ended ∉ s.workers := fun he => by rw [(h.ended he).1] at hc; cases hc.1
        by_cases hpn : panics as < n
        · have hf := h.full hpn
          exact { h with
            gone := by rw [hp]; exact h.gone
            pre := by rw [hsp, ← List.append_assoc, hf.1]; exact List.prefix_rfl
            full := fun _ => ⟨by rw [hsp, ← List.append_assoc, hf.1], hf.2⟩
            ended := fun he => absurd he hne
            tally := by rw [hp]; exact h.tally
            extant := by rw [hp]; exact h.extant }
        · exfalso
          have h1 : s.workers.countP gone = s.workers.length := by
            have := List.countP_le_length (p := Verif.Props.Pool.gone) (l := s.workers)
            have := h.gone; have := h.len; omega
          rw [List.countP_eq_length] at h1
          rw [List.any_eq_true] at ha
          obtain ⟨w, hw, hal⟩ := ha
          have := h1 w hw
          cases w <;> simp [Worker.alive, Verif.Props.Pool.gone] at this hal
      · rename_i ha
        simp only [Bool.not_eq_true] at ha
        have hnp : ¬ panics as < n := fun hpn => by
          have := (h.ended (ended_of _ ha (by rw [h.len, h.gone]; exact hpn))).1
          rw [this] at hc; cases hc.1
        exact { h with
          gone := by rw [hp]; exact h.gone
          pre := by rw [hsp]; exact h.pre.trans (List.prefix_append ..)
          full := fun hpn => by rw [hp] at hpn; exact absurd hpn hnp
          tally := by rw [hp]; exact h.tally
          extant := by rw [hp]; exact h.extant }
  | close =>
    have hp : panics (as ++ [.close]) = panics as := by rw [panics_snoc]; rfl
    have hsp : spawned (as ++ [.close]) = spawned as := by rw [spawned_snoc]; exact List.append_nil _
    simp only [St.step] at hs
    split at hs
    · cases hs
    · injection hs with hs
      subst hs
      exact { h with
        gone := by rw [hp]; exact h.gone
        pre := by rw [hsp]; exact h.pre
        full := fun hpn => by rw [hsp]; rw [hp] at hpn; exact h.full hpn
        ended := fun he => ⟨rfl, (h.ended he).2⟩
        tally := by rw [hp]; exact h.tally
        extant := by rw [hp]; exact h.extant }
  | take w =>
    have hp : panics (as ++ [.take w]) = panics as := by rw [panics_snoc]; rfl
    have hsp : spawned (as ++ [.take w]) = spawned as := by rw [spawned_snoc]; exact List.append_nil _
    have h' : Inv n (as ++ [.take w]) s := { h with
        gone := by rw [hp]; exact h.gone
        pre := by rw [hsp]; exact h.pre
        full := fun hpn => by rw [hsp]; rw [hp] at hpn; exact h.full hpn
        tally := by rw [hp]; exact h.tally
        extant := by rw [hp]; exact h.extant }
    unfold St.step St.take at hs
    simp only at hs
    split at hs
    · rename_i i hw
      obtain ⟨a, b, hab, hset⟩ := split_at _ _ _ hw
      split at hs
      · rename_i j q hq
        injection hs with hs
        subst hs
        have hi : i.current = i.cls := h.idle i (by rw [hab]; simp)
        have hne : Worker.ended ∉ s.workers := fun he => by
          have := (h.ended he).2; rw [hq] at this; cases this
        have hsq : (s.started ++ [(j, (adjust i j).cls)]).map Prod.fst ++ q = s.started.map Prod.fst ++ s.queue := by simp [hq]
        exact {
          len := by have := h'.len; simpa using this
          gone := by
            have := h'.gone
            rw [hab] at this
            simp only [hset]
            rw [← this]
            simp [List.countP_append, List.countP_cons, Verif.Props.Pool.gone]
          pre := by have := h'.pre; simp only at *; rw [hsq]; exact this
          full := fun hpn => by have := h'.full hpn; simp only at *; rw [hsq]; exact this
          ended := fun he => by
            exfalso
            apply hne
            simp only [hset] at he
            rw [hab]
            simp only [List.mem_append, List.mem_cons] at he ⊢
            rcases he with he | he | he
            · exact Or.inl he
            · cases he
            · exact Or.inr (Or.inr he)
          intents := fun p hpm => by
            simp only [List.mem_append, List.mem_singleton] at hpm
            rcases hpm with hpm | rfl
            · exact h'.intents p hpm
            · rw [adjust_eq hi]
          busy := fun i' j' hb => by
            simp only [hset, List.mem_append, List.mem_cons] at hb
            rcases hb with hb | hb | hb
            · exact h'.busy i' j' (by rw [hab]; simp [hb])
            · injection hb with h1 h2; subst h1; subst h2; rw [adjust_eq hi]
            · exact h'.busy i' j' (by rw [hab]; simp [hb])
          idle := fun i' hb => by
            simp only [hset, List.mem_append, List.mem_cons] at hb
            rcases hb with hb | hb | hb
            · exact h'.idle i' (by rw [hab]; simp [hb])
            · cases hb
            · exact h'.idle i' (by rw [hab]; simp [hb])
          tally := by
            obtain ⟨lost, hl1, hl2, hl3⟩ := h'.tally
            refine ⟨lost, hl1, hl2, ?_⟩
            simp only [running, job, hset, List.filterMap_append, List.filterMap_cons, List.map_append, List.map_cons, List.map_nil]
            simp only [running, job, hab, List.filterMap_append, List.filterMap_cons] at hl3
            refine List.Perm.trans ?_ (List.perm_append_singleton _ _).symm
            exact (perm_mid _ _ _ _ _).trans (List.Perm.cons j hl3)
          extant := by
            have := h'.extant
            simp only [running, job, hab, List.filterMap_append, List.filterMap_cons, List.length_append, List.length_cons] at this
            simp only [running, job, hset, List.filterMap_append, List.filterMap_cons, List.length_append, List.length_cons]
            rw [this]; push_cast; omega }
      · rename_i hq
        split at hs
        · rename_i hc
          injection hs with hs
          subst hs
          apply drain_inv
          exact { h' with
            len := by have := h'.len; simpa using this
            gone := by
              have := h'.gone
              rw [hab] at this
              simp only [hset]
              rw [← this]
              simp [List.countP_append, List.countP_cons, Verif.Props.Pool.gone]
            ended := fun _ => ⟨hc, hq⟩
            busy := fun i' j' hb => by
              simp only [hset, List.mem_append, List.mem_cons] at hb
              rcases hb with hb | hb | hb
              · exact h'.busy i' j' (by rw [hab]; simp [hb])
              · cases hb
              · exact h'.busy i' j' (by rw [hab]; simp [hb])
            idle := fun i' hb => by
              simp only [hset, List.mem_append, List.mem_cons] at hb
              rcases hb with hb | hb | hb
              · exact h'.idle i' (by rw [hab]; simp [hb])
              · cases hb
              · exact h'.idle i' (by rw [hab]; simp [hb])
            tally := by
              have := h'.tally
              simp only [running, job, hab, List.filterMap_append, List.filterMap_cons] at this
              simpa only [running, job, hset, List.filterMap_append, List.filterMap_cons] using this
            extant := by
              have := h'.extant
              simp only [running, job, hab, List.filterMap_append, List.filterMap_cons] at this
              simpa only [running, job, hset, List.filterMap_append, List.filterMap_cons] using this }
        · cases hs
    · cases hs
  | finish w p =>
    have hsp : spawned (as ++ [.finish w p]) = spawned as := by rw [spawned_snoc]; exact List.append_nil _
    unfold St.step St.finish at hs
    simp only at hs
    split at hs
    · rename_i i j hw
      obtain ⟨a, b, hab, hset⟩ := split_at _ _ _ hw
      have hbusy : ∀ (x : Worker), (∀ i' j', x = .busy i' j' → i'.current = i'.cls) → ∀ i' j', .busy i' j' ∈ s.workers.set w x → i'.current = i'.cls := by
        intro x hx i' j' hb
        simp only [hset, List.mem_append, List.mem_cons] at hb
        rcases hb with hb | hb | hb
        · exact h.busy i' j' (by rw [hab]; simp [hb])
        · exact hx i' j' hb.symm
        · exact h.busy i' j' (by rw [hab]; simp [hb])
      have hidle : ∀ (x : Worker), (∀ i', x = .idle i' → i'.current = i'.cls) → ∀ i', .idle i' ∈ s.workers.set w x → i'.current = i'.cls := by
        intro x hx i' hb
        simp only [hset, List.mem_append, List.mem_cons] at hb
        rcases hb with hb | hb | hb
        · exact h.idle i' (by rw [hab]; simp [hb])
        · exact hx i' hb.symm
        · exact h.idle i' (by rw [hab]; simp [hb])
      have hend : ∀ (x : Worker), x ≠ .ended → .ended ∈ s.workers.set w x → .ended ∈ s.workers := by
        intro x hx he
        simp only [hset] at he
        rw [hab]
        simp only [List.mem_append, List.mem_cons] at he ⊢
        rcases he with he | he | he
        · exact Or.inl he
        · exact absurd he.symm hx
        · exact Or.inr (Or.inr he)
      cases p with
      | true =>
        have hp : panics (as ++ [.finish w true]) = panics as + 1 := by rw [panics_snoc]; rfl
        simp only [if_true] at hs
        split at hs
        · cases hs
        · rename_i hg
          simp only [Bool.not_eq_true] at hg
          injection hs with hs
          subst hs
          apply drain_inv
          exact { h with
            len := by have := h.len; simpa using this
            gone := by
              have := h.gone
              rw [hab] at this
              simp only [hset, hp]
              rw [← this]
              simp [List.countP_append, List.countP_cons, Verif.Props.Pool.gone]; omega
            pre := by rw [hsp]; exact h.pre
            full := fun hpn => by rw [hsp]; rw [hp] at hpn; exact h.full (by omega)
            ended := fun he => h.ended (hend _ (by simp) he)
            busy := hbusy _ (fun _ _ hx => by cases hx)
            idle := hidle _ (fun _ hx => by cases hx)
            tally := by
              obtain ⟨lost, hl1, hl2, hl3⟩ := h.tally
              refine ⟨j :: lost, by simp [hp, hl1], ?_, ?_⟩
              · intro j' hj'
                rcases List.mem_cons.1 hj' with rfl | hj'
                · exact hg
                · exact hl2 j' hj'
              · simp only [running, job, hset, List.filterMap_append, List.filterMap_cons]
                simp only [running, job, hab, List.filterMap_append, List.filterMap_cons] at hl3
                refine List.Perm.trans ?_ hl3
                exact List.perm_middle.trans (perm_mid _ _ _ _ _).symm
            extant := by
              have := h.extant
              simp only [running, job, hab, hp, List.filterMap_append, List.filterMap_cons, List.length_append, List.length_cons] at this
              simp only [running, job, hset, hp, List.filterMap_append, List.filterMap_cons, List.length_append, List.length_cons]
              rw [this]; push_cast; omega }
      | false =>
        have hp : panics (as ++ [.finish w false]) = panics as := by rw [panics_snoc]; rfl
        simp only [Bool.false_eq_true, if_false] at hs
        injection hs with hs
        subst hs
        exact { h with
          len := by have := h.len; simpa using this
          gone := by
            have := h.gone
            rw [hab] at this
            simp only [hset, hp]
            rw [← this]
            simp [List.countP_append, List.countP_cons, Verif.Props.Pool.gone]
          pre := by rw [hsp]; exact h.pre
          full := fun hpn => by rw [hsp]; rw [hp] at hpn; exact h.full (by omega)
          ended := fun he => h.ended (hend _ (by simp) he)
          busy := hbusy _ (fun _ _ hx => by cases hx)
          idle := hidle _ (fun _ hx => by injection hx with hx; subst hx; exact h.busy i j (by rw [hab]; simp))
          tally := by
            obtain ⟨lost, hl1, hl2, hl3⟩ := h.tally
            refine ⟨lost, by rw [hp, hl1], hl2, ?_⟩
            simp only [running, job, hset, List.filterMap_append, List.filterMap_cons]
            simp only [running, job, hab, List.filterMap_append, List.filterMap_cons] at hl3
            refine List.Perm.trans ?_ hl3
            refine List.Perm.trans ?_ (perm_mid _ _ _ _ _).symm
            have hmid : s.returned ++ [j] ++ (a.filterMap job ++ b.filterMap job) ++ lost
                = s.returned ++ j :: (a.filterMap job ++ b.filterMap job ++ lost) := by simp
            rw [hmid, List.append_assoc s.returned]
            exact List.perm_middle
          extant := by
            have := h.extant
            simp only [running, job, hab, hp, List.filterMap_append, List.filterMap_cons, List.length_append, List.length_cons] at this
            simp only [running, job, hset, hp, List.filterMap_append, List.filterMap_cons, List.length_append, List.length_cons]
            rw [this]; push_cast; omega }
    · cases hs

theorem run_inv (n : Nat) : ∀ (bs as : List Act) (s s' : St), Inv n as s → s.run bs = some s' → Inv n (as ++ bs) s' := by
  intro bs
  induction bs with
  | nil => intro as s s' h hs; simp only [St.run, Option.some.injEq] at hs; subst hs; simpa using h
  | cons b bs ih =>
    intro as s s' h hs
    simp only [St.run, Option.bind_eq_some_iff] at hs
    obtain ⟨s1, h1, h2⟩ := hs
    have := ih (as ++ [b]) s1 s' (step_inv h b h1) h2
    simpa using this

theorem new_inv (n : Nat) : Inv n [] (St.new n) where
  len := by simp [St.new]
  gone := by
    show (List.replicate n (Worker.idle ⟨.worker, .worker⟩)).countP _ = 0
    rw [List.countP_eq_zero]
    intro w hw
    rw [List.eq_of_mem_replicate hw]; simp [gone]
  pre := by simp [St.new, spawned]
  full := fun _ => ⟨rfl, rfl⟩
  ended := fun he => by
    have := List.eq_of_mem_replicate (show _ ∈ List.replicate n _ from he); cases this
  intents := fun p hp => by cases hp
  busy := fun i j hb => by
    have := List.eq_of_mem_replicate (show _ ∈ List.replicate n _ from hb); cases this
  idle := fun i hb => by
    have := List.eq_of_mem_replicate (show _ ∈ List.replicate n _ from hb); cases this; rfl
  tally := by
    refine ⟨[], rfl, by simp, ?_⟩
    simp [St.new, running, job, List.filterMap_replicate]
  extant := by simp [St.new, running, job, List.filterMap_replicate, panics]

theorem inv (n : Nat) (as : List Act) (s : St) (h : (St.new n).run as = some s) : Inv n as s := by
  simpa using run_inv n as [] _ _ (new_inv n) h

/-- **C82.** For every number of threads and every history in which fewer jobs panicked than there are threads: the jobs that were begun and
those still waiting are, in this order, exactly the jobs handed over, each once; and handing over has never failed.
Missing: histories in which as many jobs panicked as there are threads (`workers_used_up_refuted`). -/
theorem in_order_partial (n : Nat) (as : List Act) (s : St) (h : (St.new n).run as = some s) (hp : panics as < n) :
    s.started.map Prod.fst ++ s.queue = spawned as ∧ s.aborted = false :=
  (inv n as s h).full hp

/-- Whatever panics: the jobs begun are the oldest ones handed over, in order, each once. -/
theorem begun_in_order (n : Nat) (as : List Act) (s : St) (h : (St.new n).run as = some s) : s.started.map Prod.fst <+: spawned as :=
  (List.prefix_append _ _).trans (inv n as s h).pre

/-- Every job runs on a thread with the intent asked for (what `assert_is_used_on_current_thread` checks), and there are never more jobs
running than threads. -/
theorem intent_and_bound (n : Nat) (as : List Act) (s : St) (h : (St.new n).run as = some s) :
    (∀ p ∈ s.started, p.2 = p.1.intent) ∧ (running s).length ≤ n :=
  ⟨(inv n as s h).intents, by rw [← (inv n as s h).len]; exact List.length_filterMap_le ..⟩

/-- No job is forgotten or done twice: the jobs begun are those that returned, those running and those that panicked, and only a job that
does not catch its panics is among the last. -/
theorem begun_accounted (n : Nat) (as : List Act) (s : St) (h : (St.new n).run as = some s) :
    ∃ lost : List Job, lost.length = panics as ∧ (∀ j ∈ lost, j.guarded = false) ∧
      (s.returned ++ running s ++ lost).Perm (s.started.map Prod.fst) :=
  (inv n as s h).tally

/-! ### Everything is done in the end -/

def weight : Worker → Nat
  | .idle _ => 1
  | .busy _ _ => 2
  | _ => 0

/-- What the threads have left to do. -/
def left (s : St) : Nat := (s.workers.map weight).sum + 2 * s.queue.length

theorem drain_left (s : St) : left s.drain ≤ left s := by
  unfold St.drain; split
  · exact Nat.le_refl _
  · simp [left]

/-- A step of the threads by themselves leaves them less to do. -/
theorem own_left {s s' : St} {a : Act} (ho : Own a) (hs : s.step a = some s') : left s' < left s := by
  cases a with
  | spawn j => exact ho.elim
  | close => exact ho.elim
  | take w =>
    simp only [St.step, St.take] at hs
    split at hs
    · rename_i i hw
      obtain ⟨a, b, hab, hset⟩ := split_at _ _ _ hw
      split at hs
      · rename_i j q hq
        injection hs with hs; subst hs
        simp only [left, hset]
        rw [hab]
        simp only [hq, List.map_append, List.map_cons, List.sum_append, List.sum_cons, weight, List.length_cons]
        omega
      · split at hs
        · injection hs with hs; subst hs
          refine Nat.lt_of_le_of_lt (drain_left _) ?_
          simp only [left, hset]
          rw [hab]
          simp only [List.map_append, List.map_cons, List.sum_append, List.sum_cons, weight]
          omega
        · cases hs
    · cases hs
  | finish w p =>
    simp only [St.step, St.finish] at hs
    split at hs
    · rename_i i j hw
      obtain ⟨a, b, hab, hset⟩ := split_at _ _ _ hw
      split at hs
      · split at hs
        · cases hs
        · injection hs with hs; subst hs
          refine Nat.lt_of_le_of_lt (drain_left _) ?_
          simp only [left, hset]
          rw [hab]
          simp only [List.map_append, List.map_cons, List.sum_append, List.sum_cons, weight]
          omega
      · injection hs with hs; subst hs
        simp only [left, hset]
        rw [hab]
        simp only [List.map_append, List.map_cons, List.sum_append, List.sum_cons, weight]
        omega
    · cases hs

/-- The threads come to rest: from any state they take at most `left s` steps by themselves. -/
theorem own_bounded : ∀ (bs : List Act) (s s' : St), (∀ b ∈ bs, Own b) → s.run bs = some s' → bs.length + left s' ≤ left s := by
  intro bs
  induction bs with
  | nil => intro s s' _ h; simp only [St.run, Option.some.injEq] at h; subst h; simp
  | cons b bs ih =>
    intro s s' ho h
    simp only [St.run, Option.bind_eq_some_iff] at h
    obtain ⟨s1, h1, h2⟩ := h
    have := ih s1 s' (fun x hx => ho x (List.mem_cons_of_mem _ hx)) h2
    have := own_left (ho b (List.mem_cons_self ..)) h1
    simp only [List.length_cons]; omega

/-- **C82.** When the threads have come to rest (they can do nothing more by themselves) and fewer jobs panicked than there are threads,
every job handed over was begun, none is running, and all returned except those that panicked; so all of them if none did. -/
theorem all_done_partial (n : Nat) (as : List Act) (s : St) (h : (St.new n).run as = some s) (hp : panics as < n)
    (hr : ∀ a, Own a → s.step a = none) :
    s.started.map Prod.fst = spawned as ∧ running s = [] ∧
      ∃ lost : List Job, lost.length = panics as ∧ (∀ j ∈ lost, j.guarded = false) ∧ (s.returned ++ lost).Perm (spawned as) := by
  have hi := inv n as s h
  have hf := hi.full hp
  have hb : ∀ i j, .busy i j ∉ s.workers := by
    intro i j hm
    obtain ⟨w, hw⟩ := List.getElem?_of_mem hm
    have := hr (.finish w false) trivial
    simp [St.step, St.finish, hw] at this
  have hrun : running s = [] := by
    rw [running, List.filterMap_eq_nil_iff]
    intro x hx
    cases x with
    | busy i j => exact absurd hx (hb i j)
    | _ => rfl
  have hq : s.queue = [] := by
    cases hq : s.queue with
    | nil => rfl
    | cons j q =>
      exfalso
      by_cases ha : s.workers.any Worker.alive = true
      · rw [List.any_eq_true] at ha
        obtain ⟨x, hx, hal⟩ := ha
        cases x with
        | idle i =>
          obtain ⟨w, hw⟩ := List.getElem?_of_mem hx
          have := hr (.take w) trivial
          simp [St.step, St.take, hw, hq] at this
        | busy i j => exact hb i j hx
        | _ => simp [Worker.alive] at hal
      · simp only [Bool.not_eq_true] at ha
        have := (hi.ended (ended_of _ ha (by rw [hi.len, hi.gone]; exact hp))).2
        rw [hq] at this; cases this
  have hst : s.started.map Prod.fst = spawned as := by rw [← hf.1, hq, List.append_nil]
  obtain ⟨lost, h1, h2, h3⟩ := hi.tally
  refine ⟨hst, hrun, lost, h1, h2, ?_⟩
  rw [hrun, hst, List.append_nil] at h3; exact h3

/-- Dropping the pool waits for the work handed over before: when every thread has ended (they are joined), everything was done. -/
theorem drop_waits_partial (n : Nat) (as : List Act) (s : St) (h : (St.new n).run as = some s) (hp : panics as < n)
    (he : s.workers.any Worker.alive = false) : s.started.map Prod.fst = spawned as ∧ running s = [] := by
  have := all_done_partial n as s h hp ?_
  · exact ⟨this.1, this.2.1⟩
  · intro a ho
    have hno : ∀ (w : Nat) (x : Worker), s.workers[w]? = some x → x.alive = false := by
      intro w x hw
      have := List.mem_of_getElem? hw
      rw [List.any_eq_false] at he
      simpa using he x this
    cases a with
    | spawn j => exact ho.elim
    | close => exact ho.elim
    | take w =>
      simp only [St.step, St.take]
      split
      · rename_i i hw; have := hno _ _ hw; simp [Worker.alive] at this
      · rfl
    | finish w p =>
      simp only [St.step, St.finish]
      split
      · rename_i i j hw; have := hno _ _ hw; simp [Worker.alive] at this
      · rfl

/-! ### Panics use the threads up -/

/-- A computation of diagnostics. -/
def diagnosticsJob (k : Nat) : Job := ⟨k, .latencySensitive, false⟩

/-- One round: diagnostics are computed and panic. -/
def round (k : Nat) : List Act := [.spawn (diagnosticsJob k), .take k, .finish k true]

def rounds : Nat → Nat → List Act
  | _, 0 => []
  | k, m + 1 => round k ++ rounds (k + 1) m

def usedUp (k m : Nat) (st : List (Job × Intent)) : St :=
  { workers := List.replicate k .panicked ++ List.replicate m (.idle ⟨.worker, .worker⟩), extant := k, started := st }

theorem get_mid (k m : Nat) (x : Worker) (b : Worker) :
    (List.replicate k b ++ x :: List.replicate m (Worker.idle ⟨.worker, .worker⟩))[k]? = some x := by
  rw [List.getElem?_append_right (by simp)]; simp

theorem set_mid (k m : Nat) (x y : Worker) (b : Worker) :
    (List.replicate k b ++ x :: List.replicate m (Worker.idle ⟨.worker, .worker⟩)).set k y = List.replicate k b ++ y :: List.replicate m (.idle ⟨.worker, .worker⟩) := by
  rw [List.set_append_right _ _ (by simp)]; simp

theorem round_run (k m : Nat) (st : List (Job × Intent)) (as : List Act) : ∃ st' : List (Job × Intent),
    (usedUp k (m + 1) st).run (round k ++ as) = (usedUp (k + 1) m st').run as := by
  refine ⟨st ++ [(diagnosticsJob k, .latencySensitive)], ?_⟩
  have hrep : List.replicate k Worker.panicked ++ Worker.panicked :: List.replicate m (.idle ⟨.worker, .worker⟩)
      = List.replicate (k + 1) .panicked ++ List.replicate m (.idle ⟨.worker, .worker⟩) := by
    rw [List.replicate_succ', List.append_assoc]; rfl
  have hq : ∀ s : St, s.queue = [] → s.drain = s := by
    intro s hs; unfold St.drain; split
    · rfl
    · cases s; simp only at hs; subst hs; rfl
  simp only [round, List.cons_append, List.nil_append, St.run, St.step, usedUp, St.spawn, Bool.or_self, Bool.false_eq_true, if_false]
  rw [if_pos (by simp [Worker.alive, List.replicate_succ])]
  simp only [Option.bind_some, St.take, List.replicate_succ (n := m), get_mid, set_mid, St.finish, adjust_eq, List.nil_append, if_true,
    diagnosticsJob, Bool.false_eq_true, if_false]
  rw [hq _ rfl, hrep]
  push_cast
  rfl

theorem rounds_run : ∀ (m k : Nat) (st : List (Job × Intent)) (as : List Act), ∃ st' : List (Job × Intent),
    (usedUp k m st).run (rounds k m ++ as) = (usedUp (k + m) 0 st').run as := by
  intro m
  induction m with
  | zero => intro k st as; exact ⟨st, rfl⟩
  | succ m ih =>
    intro k st as
    obtain ⟨st1, h1⟩ := round_run k m st (rounds (k + 1) m ++ as)
    obtain ⟨st2, h2⟩ := ih (k + 1) st1 as
    refine ⟨st2, ?_⟩
    rw [rounds, List.append_assoc, h1, h2, show k + 1 + m = k + (m + 1) by omega]

/-- **C82 is false without the restriction.** Whatever the number of threads: after that many computations of diagnostics have panicked,
the next time work is handed over, even the handling of a request, the thread that hands it over (the main loop of the server) panics. -/
theorem workers_used_up_refuted (n : Nat) : ∃ (as : List Act) (s : St),
    (St.new n).run (as ++ [.spawn ⟨n, .worker, true⟩]) = some s ∧ panics as = n ∧ s.aborted = true := by
  obtain ⟨st, h⟩ := rounds_run n 0 [] [.spawn ⟨n, .worker, true⟩]
  have h0 : usedUp 0 n [] = St.new n := by simp [usedUp, St.new]
  rw [h0] at h
  refine ⟨rounds 0 n, (usedUp (0 + n) 0 st).spawn ⟨n, .worker, true⟩, h.trans (by rfl), ?_, ?_⟩
  · have : ∀ m k, panics (rounds k m) = m := by
      intro m; induction m with
      | zero => intro k; rfl
      | succ m ih => intro k; simp [rounds, round, panics, ih]
    exact this n 0
  · simp [St.spawn, usedUp, Worker.alive]

/-- A history with three threads: a handler, diagnostics that panic, another handler; then the pool is dropped. -/
def sample : List Act :=
  [.spawn ⟨0, .worker, true⟩, .spawn ⟨1, .latencySensitive, false⟩, .take 0, .take 2, .spawn ⟨2, .latencySensitive, true⟩, .finish 2 true, .close,
   .finish 0 false, .take 0, .take 1, .finish 0 false, .take 0]

example : ∃ s, (St.new 3).run sample = some s ∧ panics sample < 3 ∧ s.workers.any Worker.alive = false ∧ s.returned.map Job.n = [0, 2] := by
  refine ⟨_, rfl, ?_, ?_, ?_⟩ <;> decide

end Verif.Props.Pool
