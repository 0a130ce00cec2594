import Verif.Profile.Model
import Mathlib.Tactic.Tauto
/-! # C114: the profile shows what was run -/

namespace Verif.Props.Profile
open Verif.Profile Verif.Profile.Spec

def size : Spans → Nat
  | .nil => 0
  | .cons _ _ _ _ inside after => size inside + size after + 1

/-- The nodes from `o` on, all of them from index `b` on, are the spans. -/
inductive Holds (nodes : List (Node Message)) (b : Nat) : Option Nat → Spans → Prop where
  | nil : Holds nodes b none .nil
  | cons {i n l d t0 t1 inside after} : b ≤ i → nodes[i]? = some n → n.data = ⟨t1 - t0, l, d⟩ → Holds nodes b n.firstChild inside → Holds nodes b n.nextSibling after →
      Holds nodes b (some i) (.cons l d t0 t1 inside after)

theorem Holds.frame {nodes nodes' : List (Node Message)} {b b' : Nat} {o : Option Nat} {ss : Spans} (h : Holds nodes b o ss) (hb : b' ≤ b)
    (hn : ∀ i, b ≤ i → i < nodes.length → nodes'[i]? = nodes[i]?) : Holds nodes' b' o ss := by
  induction h with
  | nil => exact .nil
  | cons hi hg hd _ _ ih1 ih2 =>
    exact .cons (by omega) ((hn _ hi (List.getElem?_eq_some_iff.1 hg).1).trans hg) hd ih1 ih2

theorem exec_deep (f : Filter) : ∀ (ss : Spans) (s : Stack), s.frames.length > f.depth → exec f ss s = some s
  | .nil, _, _ => rfl
  | .cons l d t0 t1 inside after, s, h => by
    simp only [exec, push, h, if_true, exec_deep f inside s h, exec_deep f after s h, ite_self]
    simp

/-- Where the next node is entered: after the last child, or as the first one. -/
def fill (n : Node Message) (last : Option Nat) (o : Option Nat) : Node Message :=
  match last with
  | some _ => { n with nextSibling := o }
  | none => { n with firstChild := o }

def slot (n : Node Message) (last : Option Nat) : Option Nat :=
  match last with
  | some _ => n.nextSibling
  | none => n.firstChild

theorem start_eq {t : Tree Message} {p : Nat} {last : Option Nat} {rest : List (Nat × Option Nat)} {n : Node Message} (hp : t.path = (p, last) :: rest)
    (hn : t.nodes[last.getD p]? = some n) (hs : slot n last = none) :
    t.start = some ⟨(t.nodes ++ [({ data := default } : Node Message)]).set (last.getD p) (fill n last (some t.nodes.length)),
      (t.nodes.length, none) :: (p, some t.nodes.length) :: rest⟩ := by
  have hlt := (List.getElem?_eq_some_iff.1 hn).1
  have hn' : (t.nodes ++ [({ data := default } : Node Message)])[last.getD p]? = some n := by rw [List.getElem?_append_left hlt]; exact hn
  unfold Tree.start
  rw [hp]
  cases last with
  | none =>
    simp only [Option.getD_none] at hn' ⊢
    simp only [slot] at hs
    simp only [hn', hs, fill]
    rfl
  | some c =>
    simp only [Option.getD_some] at hn' ⊢
    simp only [slot] at hs
    simp only [hn', hs, fill]
    rfl

theorem exec_nested (f : Filter) (hd : f.depth > 0) : ∀ (ss : Spans) (s : Stack) (p : Nat) (last : Option Nat) (rest : List (Nat × Option Nat)) (n : Node Message),
    s.messages.path = (p, last) :: rest → s.messages.nodes[last.getD p]? = some n → slot n last = none → s.frames ≠ [] →
    ∃ s' last' o, exec f ss s = some s' ∧ s'.frames = s.frames ∧ s'.printed = s.printed ∧ s'.messages.path = (p, last') :: rest ∧
      s'.messages.nodes.length = s.messages.nodes.length + size (cut (f.depth + 1 - s.frames.length) ss) ∧
      (∀ i, i < s.messages.nodes.length → i ≠ last.getD p → s'.messages.nodes[i]? = s.messages.nodes[i]?) ∧
      s'.messages.nodes[last.getD p]? = some (fill n last o) ∧
      Holds s'.messages.nodes s.messages.nodes.length o (cut (f.depth + 1 - s.frames.length) ss) := by
  intro ss
  induction ss with
  | nil =>
    intro s p last rest n hp hn hs _
    have hc : ∀ k, cut k .nil = .nil := fun k => by cases k <;> rfl
    refine ⟨s, last, none, rfl, rfl, rfl, hp, by rw [hc]; rfl, fun _ _ _ => rfl, ?_, by rw [hc]; exact .nil⟩
    rw [hn]
    cases last <;> cases n <;> simp_all [fill, slot]
  | cons l d t0 t1 inside after ih1 ih2 =>
    intro s p last rest n hp hn hs hf
    by_cases hdeep : s.frames.length > f.depth
    · have h0 : f.depth + 1 - s.frames.length = 0 := by omega
      refine ⟨s, last, none, exec_deep f _ s hdeep, rfl, rfl, hp, by rw [h0]; rfl, fun _ _ _ => rfl, ?_, by rw [h0]; exact .nil⟩
      rw [hn]
      cases last <;> cases n <;> simp_all [fill, slot]
    · obtain ⟨k, hk⟩ : ∃ k, f.depth + 1 - s.frames.length = k + 1 := ⟨f.depth - s.frames.length, by omega⟩
      have hlt := (List.getElem?_eq_some_iff.1 hn).1
      have hstart := start_eq hp hn hs
      have hemp : s.frames.isEmpty = false := by cases hfr : s.frames with | nil => exact absurd hfr hf | cons => rfl
      -- entering
      let s1 : Stack := { s with frames := t0 :: s.frames, messages := ⟨(s.messages.nodes ++ [({ data := default } : Node Message)]).set (last.getD p) (fill n last (some s.messages.nodes.length)),
        (s.messages.nodes.length, none) :: (p, some s.messages.nodes.length) :: rest⟩ }
      have hpush : push f l t0 s = some (s1, true) := by
        simp only [push, hdeep, if_false, hemp, Bool.false_and, hstart, s1]
        simp
      have hlen1 : s1.messages.nodes.length = s.messages.nodes.length + 1 := by simp [s1]
      have hme1 : s1.messages.nodes[(none : Option Nat).getD s.messages.nodes.length]? = some { data := default } := by
        simp only [s1, Option.getD_none]
        rw [List.getElem?_set_ne (by omega)]
        simp
      obtain ⟨s2, last2, o2, e2, f2, pr2, p2, len2, fr2, own2, hold2⟩ := ih1 s1 s.messages.nodes.length none _ _ rfl hme1 rfl (by simp [s1])
      simp only [Option.getD_none] at own2 fr2
      have hk1 : f.depth + 1 - s1.frames.length = k := by simp only [s1, List.length_cons]; omega
      rw [hk1] at len2 hold2
      -- leaving
      let n3 : Node Message := ⟨⟨t1 - t0, l, d⟩, o2, none⟩
      let s3 : Stack := ⟨s.frames, ⟨s2.messages.nodes.set s.messages.nodes.length n3, (p, some s.messages.nodes.length) :: rest⟩, s.printed⟩
      have hpop : pop f l d t1 s2 = some s3 := by
        have hfin : s2.messages.finish ⟨t1 - t0, l, d⟩ = some s3.messages := by
          simp only [Tree.finish, p2, own2, s3, n3, fill]
        have pr2' : s2.printed = s.printed := pr2
        have f2' : s2.frames = t0 :: s.frames := f2
        simp only [pop, f2', hfin, hemp, pr2']
        simp [s3]
      have hlen3 : s3.messages.nodes.length = s.messages.nodes.length + 1 + size (cut k inside) := by
        simp only [s3, List.length_set, len2, hlen1]
      have hme3 : s3.messages.nodes[(some s.messages.nodes.length).getD p]? = some n3 := by
        simp only [s3, Option.getD_some]
        rw [List.getElem?_set_self (by rw [len2, hlen1]; omega)]
      obtain ⟨s4, last4, o4, e4, f4, pr4, p4, len4, fr4, own4, hold4⟩ := ih2 s3 p (some s.messages.nodes.length) rest n3 rfl hme3 rfl hf
      simp only [Option.getD_some] at own4 fr4
      have hk3 : f.depth + 1 - s3.frames.length = k + 1 := hk
      rw [hk3] at len4 hold4
      refine ⟨s4, last4, some s.messages.nodes.length, ?_, f4, pr4, p4, ?_, ?_, ?_, ?_⟩
      · simp only [exec, hd, if_true, hpush, e2, hpop, e4]
      · rw [len4, hlen3, hk]
        simp only [cut, size]
        omega
      · intro i hi hio
        rw [fr4 i (by omega) (by omega)]
        show (s2.messages.nodes.set _ _)[i]? = _
        rw [List.getElem?_set_ne (by omega), fr2 i (by omega) (by omega)]
        show ((s.messages.nodes ++ _).set _ _)[i]? = _
        rw [List.getElem?_set_ne (fun h => hio h.symm), List.getElem?_append_left hi]
      · rw [fr4 _ (by omega) (by omega)]
        show (s2.messages.nodes.set _ _)[_]? = _
        rw [List.getElem?_set_ne (by omega), fr2 _ (by omega) (by omega)]
        show ((s.messages.nodes ++ _).set _ _)[_]? = _
        rw [List.getElem?_set_self (by simp; omega)]
      · rw [hk]
        refine .cons (Nat.le_refl _) own4 rfl ?_ ?_
        · refine hold2.frame (by omega) fun i hi hi' => ?_
          rw [fr4 i (by rw [hlen3]; omega) (by omega)]
          show (s2.messages.nodes.set _ _)[i]? = _
          rw [List.getElem?_set_ne (by omega)]
        · exact hold4.frame (by omega) fun _ _ _ => rfl

/-! ## The summary of short spans -/

def getEntry (l : Nat) : List (Nat × Nat × Nat) → Nat × Nat
  | [] => (0, 0)
  | (k, t, c) :: m => if k = l then (t, c) else getEntry l m

def Sorted (m : List (Nat × Nat × Nat)) : Prop := m.Pairwise (fun a b => a.1 < b.1)

theorem getEntry_lt {l : Nat} : ∀ {m : List (Nat × Nat × Nat)}, (∀ e ∈ m, l < e.1) → getEntry l m = (0, 0)
  | [], _ => rfl
  | (k, t, c) :: m, h => by
    have := h _ (List.mem_cons_self)
    simp only [getEntry]
    rw [if_neg (by simp at this; omega)]
    exact getEntry_lt fun e he => h e (List.mem_cons_of_mem _ he)

theorem bump_key {l d : Nat} : ∀ {m : List (Nat × Nat × Nat)} {e : Nat × Nat × Nat}, e ∈ bump l d m → e.1 = l ∨ ∃ e' ∈ m, e'.1 = e.1
  | [], e, h => by simp [bump] at h; exact .inl (by rw [h])
  | (k, t, c) :: m, e, h => by
    simp only [bump] at h
    split at h
    · rcases List.mem_cons.1 h with h | h
      · exact .inl (by rw [h])
      · exact .inr ⟨e, h, rfl⟩
    · split at h
      · rcases List.mem_cons.1 h with h | h
        · exact .inr ⟨_, List.mem_cons_self, by rw [h]⟩
        · exact .inr ⟨e, List.mem_cons_of_mem _ h, rfl⟩
      · rcases List.mem_cons.1 h with h | h
        · exact .inr ⟨_, List.mem_cons_self, by rw [h]⟩
        · rcases bump_key h with h | ⟨e', h, he⟩
          · exact .inl h
          · exact .inr ⟨e', List.mem_cons_of_mem _ h, he⟩

theorem bump_sorted {l d : Nat} : ∀ {m : List (Nat × Nat × Nat)}, Sorted m → Sorted (bump l d m)
  | [], _ => by simp [bump, Sorted]
  | (k, t, c) :: m, h => by
    obtain ⟨h1, h2⟩ := List.pairwise_cons.1 h
    simp only [bump]
    split
    · refine List.pairwise_cons.2 ⟨fun e he => ?_, h⟩
      rcases List.mem_cons.1 he with rfl | he
      · assumption
      · have := h1 e he; simp only at this ⊢; omega
    · split
      · exact List.pairwise_cons.2 ⟨h1, h2⟩
      · refine List.pairwise_cons.2 ⟨fun e he => ?_, bump_sorted h2⟩
        rcases bump_key he with he | ⟨e', he, hk⟩
        · simp only; omega
        · have := h1 e' he; simp only at this ⊢; omega

theorem bump_pos {l d : Nat} : ∀ {m : List (Nat × Nat × Nat)}, (∀ e ∈ m, e.2.2 ≠ 0) → ∀ e ∈ bump l d m, e.2.2 ≠ 0
  | [], _, e, h => by simp [bump] at h; simp [h]
  | (k, t, c) :: m, hp, e, h => by
    simp only [bump] at h
    split at h
    · rcases List.mem_cons.1 h with h | h
      · simp [h]
      · exact hp e h
    · split at h
      · rcases List.mem_cons.1 h with h | h
        · simp [h]
        · exact hp e (List.mem_cons_of_mem _ h)
      · rcases List.mem_cons.1 h with h | h
        · rw [h]; exact hp _ List.mem_cons_self
        · exact bump_pos (fun e he => hp e (List.mem_cons_of_mem _ he)) e h

theorem bump_get {l d l' : Nat} : ∀ {m : List (Nat × Nat × Nat)}, Sorted m →
    getEntry l' (bump l d m) = if l = l' then ((getEntry l m).1 + d, (getEntry l m).2 + 1) else getEntry l' m
  | [], _ => by by_cases h : l = l' <;> simp [bump, getEntry, h]
  | (k, t, c) :: m, h => by
    obtain ⟨h1, h2⟩ := List.pairwise_cons.1 h
    simp only [bump]
    split
    next hlk =>
      have h0 : getEntry l ((k, t, c) :: m) = (0, 0) := getEntry_lt fun e he => by
        rcases List.mem_cons.1 he with rfl | he
        · assumption
        · have := h1 e he; simp only at this; omega
      rw [h0]
      by_cases h : l = l'
      · simp [getEntry, h]
      · simp [getEntry, h]
    next hlk =>
      split
      next he =>
        subst he
        by_cases h : l = l'
        · subst h; simp [getEntry]
        · simp [getEntry, h]
      next hne =>
        simp only [getEntry]
        rw [bump_get h2]
        have hkl : ¬ k = l := fun h => hne h.symm
        by_cases h : l = l'
        · subst h; simp [hkl]
        · simp only [h, if_false]

theorem mem_iff_get {m : List (Nat × Nat × Nat)} (hs : Sorted m) (hp : ∀ e ∈ m, e.2.2 ≠ 0) {l t c : Nat} : (l, t, c) ∈ m ↔ c ≠ 0 ∧ getEntry l m = (t, c) := by
  induction m with
  | nil => simp [getEntry]; omega
  | cons e m ih =>
    obtain ⟨k, t', c'⟩ := e
    obtain ⟨h1, h2⟩ := List.pairwise_cons.1 hs
    have ih := ih h2 fun e he => hp e (List.mem_cons_of_mem _ he)
    have hc' : c' ≠ 0 := hp _ List.mem_cons_self
    simp only [getEntry, List.mem_cons, Prod.mk.injEq]
    by_cases hk : k = l
    · subst hk
      simp only [if_true, true_and, Prod.mk.injEq]
      constructor
      · rintro (⟨rfl, rfl⟩ | h)
        · exact ⟨hc', rfl, rfl⟩
        · exact absurd (h1 _ h) (by simp)
      · rintro ⟨-, rfl, rfl⟩; exact .inl ⟨rfl, rfl⟩
    · simp only [hk, if_false, ← ih]
      constructor
      · rintro (⟨rfl, -⟩ | h)
        · exact absurd rfl hk
        · exact h
      · exact .inr

/-- The table of the short ones after the spans were visited. -/
def table (longer : Nat) : Spans → List (Nat × Nat × Nat) → List (Nat × Nat × Nat)
  | .nil, m => m
  | .cons l _ t0 t1 _ after, m => table longer after (if millis (t1 - t0) > millis longer then m else bump l (t1 - t0) m)

theorem table_spec (longer : Nat) : ∀ (ss : Spans) (m : List (Nat × Nat × Nat)), Sorted m → (∀ e ∈ m, e.2.2 ≠ 0) →
    Sorted (table longer ss m) ∧ (∀ e ∈ table longer ss m, e.2.2 ≠ 0) ∧
    ∀ l, getEntry l (table longer ss m) = ((getEntry l m).1 + (shortOnes longer l ss).sum, (getEntry l m).2 + (shortOnes longer l ss).length)
  | .nil, m, hs, hp => ⟨hs, hp, fun l => by simp [table, shortOnes]⟩
  | .cons l' d t0 t1 inside after, m, hs, hp => by
    by_cases hlong : millis (t1 - t0) > millis longer
    · simp only [table, hlong, if_true]
      obtain ⟨h1, h2, h3⟩ := table_spec longer after m hs hp
      refine ⟨h1, h2, fun l => ?_⟩
      rw [h3 l, shortOnes, if_neg (by omega)]
    · simp only [table, hlong, if_false]
      obtain ⟨h1, h2, h3⟩ := table_spec longer after (bump l' (t1 - t0) m) (bump_sorted hs) (bump_pos hp)
      refine ⟨h1, h2, fun l => ?_⟩
      rw [h3 l, bump_get hs, shortOnes]
      by_cases hl : l' = l
      · subst hl
        rw [if_pos rfl, if_pos ⟨rfl, by omega⟩]
        simp only [List.sum_cons, List.length_cons, Prod.mk.injEq]
        omega
      · rw [if_neg hl, if_neg (fun h => hl h.1)]

theorem table_summary (longer : Nat) (ss : Spans) : Summary longer ss (table longer ss []) := by
  obtain ⟨h1, h2, h3⟩ := table_spec longer ss [] List.Pairwise.nil (by simp)
  refine ⟨h1, fun l t c => ?_⟩
  rw [mem_iff_get h1 h2, h3 l]
  simp only [getEntry, Nat.zero_add, Prod.mk.injEq]
  constructor
  · rintro ⟨a, b, c⟩; exact ⟨c.symm, a, b.symm⟩
  · rintro ⟨a, b, c⟩; exact ⟨b, c.symm, a.symm⟩

/-! ## The report -/

theorem timed_total : ∀ {lo hi : Nat} (ss : Spans), Timed lo hi ss → lo + total ss ≤ hi
  | _, _, .nil, h => h
  | lo, hi, .cons _ _ t0 t1 inside after, h => by
    obtain ⟨h1, h2, h3⟩ := h
    have := timed_total inside h2
    have := timed_total after h3
    simp only [total]
    omega

theorem timed_cut : ∀ (k : Nat) {lo hi : Nat} (ss : Spans), Timed lo hi ss → Timed lo hi (cut k ss)
  | 0, _, _, ss, h => by
    have := Nat.le_trans (Nat.le_add_right _ _) (timed_total ss h)
    cases ss <;> exact this
  | _ + 1, _, _, .nil, h => h
  | k + 1, _, _, .cons _ _ _ _ inside after, h => ⟨h.1, timed_cut k inside h.2.1, timed_cut (k + 1) after h.2.2⟩

theorem siblings_holds {nodes : List (Node Message)} {b : Nat} {o : Option Nat} {ss : Spans} (h : Holds nodes b o ss) :
    ∀ fuel, size ss ≤ fuel → ∃ cs, siblings nodes fuel o = some cs ∧ (cs.isEmpty = true ↔ ss = .nil) := by
  induction h with
  | nil => intro fuel _; cases fuel <;> exact ⟨[], rfl, by simp⟩
  | @cons i n l d t0 t1 inside after hi hg hd _ _ _ ih2 =>
    intro fuel hf
    simp only [size] at hf
    obtain ⟨fuel, rfl⟩ : ∃ k, fuel = k + 1 := ⟨fuel - 1, by omega⟩
    obtain ⟨cs, h1, -⟩ := ih2 fuel (by omega)
    exact ⟨i :: cs, by simp only [siblings, hg, h1, Option.map_some], by simp⟩

/-- Visiting the children prints the long ones, adds up the times and collects the short ones. -/
theorem visit_holds {nodes : List (Node Message)} {b : Nat} {longer : Nat} {o : Option Nat} {ss : Spans} (h : Holds nodes b o ss) :
    ∀ (fuel sf level lo hi : Nat) (cs : List Nat) (a : Acc), size ss ≤ fuel → size ss ≤ nodes.length → Timed lo hi ss → siblings nodes sf o = some cs →
      ∃ ls, cs.foldlM (visit nodes longer (fun c => print nodes longer fuel level c)) a = some ⟨a.out ++ ls, a.accounted + total ss, table longer ss a.short⟩ ∧
        Reports longer level ss ls := by
  induction h with
  | nil =>
    intro fuel sf level lo hi cs a _ _ _ hc
    have : cs = [] := by cases sf <;> simp_all [siblings]
    subst this
    exact ⟨[], by simp [total, table], .nil⟩
  | @cons i n l d t0 t1 inside after hi hg hd hin _ ih1 ih2 =>
    intro fuel sf level lo hi' cs a hf hl ht hc
    simp only [size] at hf hl
    obtain ⟨fuel, rfl⟩ : ∃ k, fuel = k + 1 := ⟨fuel - 1, by omega⟩
    obtain ⟨t1', t2', t3'⟩ := ht
    cases sf with
    | zero => simp [siblings] at hc
    | succ sf =>
      simp only [siblings, hg] at hc
      cases hs : siblings nodes sf n.nextSibling with
      | none => rw [hs] at hc; cases hc
      | some cs' =>
        rw [hs] at hc
        cases hc
        have hdur : n.data.duration = t1 - t0 := by rw [hd]
        have hlab : n.data.label = l := by rw [hd]
        have hdet : n.data.detail = d := by rw [hd]
        by_cases hlong : millis (t1 - t0) > millis longer
        · obtain ⟨cs1, c1, c2⟩ := siblings_holds hin nodes.length (by omega)
          obtain ⟨ls1, v1, r1⟩ := ih1 fuel nodes.length (level + 1) t0 t1 cs1 {} (by omega) (by omega) t2' c1
          have htot := timed_total inside t2'
          have hp : print nodes longer (fuel + 1) level i = some (.span level (t1 - t0) l d :: ls1 ++ (table longer inside []).map (fun e => .calls (level + 1) e.2.1 e.1 e.2.2) ++
              if inside ≠ .nil ∧ (t1 - t0) - total inside > longer then [.rest (level + 1) ((t1 - t0) - total inside)] else []) := by
            simp only [print, hg, c1, v1, hdur, hlab, hdet, List.nil_append, Nat.zero_add]
            rw [if_neg (by omega)]
            congr 2
            by_cases hn : inside = .nil
            · have : cs1.isEmpty = true := c2.2 hn
              simp [this, hn]
            · have : cs1.isEmpty = false := by
                cases h : cs1.isEmpty with
                | true => exact absurd (c2.1 h) hn
                | false => rfl
              simp [this, hn]
          have hr := fun ls => Reports.long (d := d) (l := l) (after := after) (ls := ls) hlong r1 (table_summary longer inside)
          generalize hX : Line.span level (t1 - t0) l d :: ls1 ++ (table longer inside []).map (fun e => Line.calls (level + 1) e.2.1 e.1 e.2.2) ++
              (if inside ≠ .nil ∧ (t1 - t0) - total inside > longer then [Line.rest (level + 1) ((t1 - t0) - total inside)] else []) = X at hp hr
          obtain ⟨ls2, v2, r2⟩ := ih2 (fuel + 1) sf level t1 hi' cs' ⟨a.out ++ X, a.accounted + (t1 - t0), a.short⟩ (by omega) (by omega) t3' hs
          refine ⟨X ++ ls2, ?_, hr ls2 r2⟩
          have hv : visit nodes longer (fun c => print nodes longer (fuel + 1) level c) a i = some ⟨a.out ++ X, a.accounted + (t1 - t0), a.short⟩ := by
            simp only [visit, hg, hdur, hlong, if_true, hp]
          rw [List.foldlM_cons, hv]
          simp only [Option.bind_eq_bind, Option.bind_some]
          rw [v2]
          simp only [total, table, hlong, if_true, List.append_assoc, Nat.add_assoc]
        · obtain ⟨ls2, v2, r2⟩ := ih2 (fuel + 1) sf level t1 hi' cs' ⟨a.out, a.accounted + (t1 - t0), bump l (t1 - t0) a.short⟩ (by omega) (by omega) t3' hs
          refine ⟨ls2, ?_, .short (by omega) r2⟩
          have hv : visit nodes longer (fun c => print nodes longer (fuel + 1) level c) a i = some ⟨a.out, a.accounted + (t1 - t0), bump l (t1 - t0) a.short⟩ := by
            simp only [visit, hg, hdur, hlab, hlong, if_false]
          rw [List.foldlM_cons, hv]
          simp only [Option.bind_eq_bind, Option.bind_some]
          rw [v2]
          simp only [total, table, hlong, if_false, Nat.add_assoc]

theorem cut_succ_cons (k l : Nat) (d : Option Nat) (t0 t1 : Nat) (inside after : Spans) :
    cut (k + 1) (.cons l d t0 t1 inside after) = .cons l d t0 t1 (cut k inside) (cut (k + 1) after) := rfl

/-- An outermost span: it is entered, what is inside it is run, and it is left and reported. -/
theorem exec_outermost (f : Filter) (hd : f.depth > 0) (l : Nat) (d : Option Nat) (t0 t1 : Nat) (inside : Spans) (s : Stack) (hf : s.frames = []) (hm : s.messages = {})
    (hl : f.allowed = [] ∨ l ∈ f.allowed) (ht : Timed t0 t1 inside) :
    ∃ s1 s2 s3 ls, push f l t0 s = some (s1, true) ∧ exec f inside s1 = some s2 ∧ pop f l d t1 s2 = some s3 ∧ s3.frames = [] ∧ s3.messages = {} ∧
      s3.printed = s.printed ++ ls ∧ ∀ k ls', Reports f.longer 0 k ls' → Reports f.longer 0 (.cons l d t0 t1 (cut f.depth inside) k) (ls ++ ls') := by
  let s1 : Stack := ⟨[t0], ⟨[({ data := default } : Node Message)], [(0, none)]⟩, s.printed⟩
  have hpush : push f l t0 s = some (s1, true) := by
    have h0 : ¬ (0 > f.depth) := by omega
    have h1 : (!f.allowed.isEmpty && !f.allowed.contains l) = false := by
      rcases hl with h | h
      · simp [h]
      · simp [h]
    simp only [push, hf, hm, List.length_nil, h0, if_false, List.isEmpty_nil, Bool.true_and, h1, Tree.start, s1]
    simp
  obtain ⟨s2, last2, o2, e2, f2, pr2, p2, len2, -, own2, hold2⟩ := exec_nested f hd inside s1 0 none [] { data := default } rfl rfl rfl (by simp [s1])
  have hk : f.depth + 1 - s1.frames.length = f.depth := by simp [s1]
  rw [hk] at len2 hold2
  have len2 : s2.messages.nodes.length = 1 + size (cut f.depth inside) := len2
  have hold2 : Holds s2.messages.nodes 1 o2 (cut f.depth inside) := hold2
  have own2 : s2.messages.nodes[0]? = some ⟨default, o2, none⟩ := own2
  have f2 : s2.frames = [t0] := f2
  have pr2 : s2.printed = s.printed := pr2
  let n3 : Node Message := ⟨⟨t1 - t0, l, d⟩, o2, none⟩
  let nodes3 := s2.messages.nodes.set 0 n3
  have hfin : s2.messages.finish ⟨t1 - t0, l, d⟩ = some ⟨nodes3, []⟩ := by
    simp only [Tree.finish, p2, own2, nodes3, n3]
  have hlen3 : nodes3.length = 1 + size (cut f.depth inside) := by simp only [nodes3, List.length_set, len2]
  have hroot : nodes3[0]? = some n3 := List.getElem?_set_self (by omega)
  have hin3 : Holds nodes3 1 n3.firstChild (cut f.depth inside) := hold2.frame (Nat.le_refl _) fun i hi _ => List.getElem?_set_ne (by omega)
  by_cases hlong : millis (t1 - t0) > millis f.longer
  · have hall : Holds nodes3 0 (some 0) (.cons l d t0 t1 (cut f.depth inside) .nil) :=
      .cons (Nat.le_refl _) hroot rfl (hin3.frame (by omega) fun _ _ _ => rfl) .nil
    have ht' : Timed t0 t1 (.cons l d t0 t1 (cut f.depth inside) .nil) := ⟨Nat.le_refl _, timed_cut _ _ ht, Nat.le_refl _⟩
    obtain ⟨cs1, c1, c2⟩ := siblings_holds hin3 nodes3.length (by omega)
    obtain ⟨ls1, v1, r1⟩ := visit_holds (longer := f.longer) hin3 nodes3.length nodes3.length 1 t0 t1 cs1 {} (by omega) (by omega) ht'.2.1 c1
    have htot := timed_total _ ht'.2.1
    have hr := fun k ls => Reports.long (d := d) (l := l) (after := k) (ls := ls) hlong r1 (table_summary f.longer _)
    have hp : print nodes3 f.longer (nodes3.length + 1) 0 0 = some (.span 0 (t1 - t0) l d :: ls1 ++ (table f.longer (cut f.depth inside) []).map (fun e => .calls (0 + 1) e.2.1 e.1 e.2.2) ++
        if cut f.depth inside ≠ .nil ∧ (t1 - t0) - total (cut f.depth inside) > f.longer then [.rest (0 + 1) ((t1 - t0) - total (cut f.depth inside))] else []) := by
      simp only [Nat.zero_add] at v1 ⊢
      simp only [print, hroot, c1, Nat.zero_add, v1]
      simp only [n3, List.nil_append, Nat.zero_add]
      rw [if_neg (by omega)]
      congr 2
      by_cases hn : cut f.depth inside = .nil
      · have : cs1.isEmpty = true := c2.2 hn
        simp [this, hn]
      · have : cs1.isEmpty = false := by
          cases h : cs1.isEmpty with
          | true => exact absurd (c2.1 h) hn
          | false => rfl
        simp [this, hn]
    refine ⟨s1, s2, ⟨[], {}, s.printed ++ _⟩, _, hpush, e2, ?_, rfl, rfl, rfl, fun k ls' h => hr k ls' h⟩
    have hne : ∃ x xs, nodes3 = x :: xs := by
      cases h : nodes3 with
      | nil => rw [h] at hroot; cases hroot
      | cons x xs => exact ⟨x, xs, rfl⟩
    obtain ⟨x, xs, hx⟩ := hne
    simp only [pop, f2, hfin, List.isEmpty_nil, if_true, hlong, hx, pr2]
    rw [← hx, hp]
  · refine ⟨s1, s2, ⟨[], {}, s.printed⟩, [], hpush, e2, ?_, rfl, rfl, by simp, fun k ls' h => .short (by omega) h⟩
    simp only [pop, f2, hfin, List.isEmpty_nil, if_true, hlong, if_false, pr2]

theorem exec_top (f : Filter) (hd : f.depth > 0) : ∀ (ss : Spans) (s : Stack) (lo hi : Nat), s.frames = [] → s.messages = {} → Timed lo hi ss →
    ∃ s' ls, exec f ss s = some s' ∧ s'.frames = [] ∧ s'.messages = {} ∧ s'.printed = s.printed ++ ls ∧
      ∀ k ls', Reports f.longer 0 (cut (f.depth + 1) k) ls' → Reports f.longer 0 (cut (f.depth + 1) (outermost f.allowed ss k)) (ls ++ ls') := by
  intro ss
  induction ss with
  | nil => exact fun s lo hi hf hm _ => ⟨s, [], rfl, hf, hm, by simp, fun _ _ h => h⟩
  | cons l d t0 t1 inside after ih1 ih2 =>
    intro s lo hi hf hm ht
    by_cases hl : f.allowed = [] ∨ l ∈ f.allowed
    · obtain ⟨s1, s2, s3, ls, e1, e2, e3, f3, m3, p3, r3⟩ := exec_outermost f hd l d t0 t1 inside s hf hm hl ht.2.1
      obtain ⟨s4, ls4, e4, f4, m4, p4, r4⟩ := ih2 s3 t1 hi f3 m3 ht.2.2
      refine ⟨s4, ls ++ ls4, ?_, f4, m4, by rw [p4, p3, List.append_assoc], fun k ls' h => ?_⟩
      · simp only [exec, hd, if_true, e1, e2, e3, e4]
      · rw [outermost, if_pos hl, cut_succ_cons, List.append_assoc]
        exact r3 _ _ (r4 k ls' h)
    · obtain ⟨s2, ls2, e2, f2, m2, p2, r2⟩ := ih1 s t0 t1 hf hm ht.2.1
      obtain ⟨s4, ls4, e4, f4, m4, p4, r4⟩ := ih2 s2 t1 hi f2 m2 ht.2.2
      have hpush : push f l t0 s = some (s, false) := by
        have h0 : ¬ (0 > f.depth) := by omega
        have h1 : (!f.allowed.isEmpty && !f.allowed.contains l) = true := by
          simp only [not_or] at hl
          simp [hl.1, hl.2]
        simp only [push, hf, List.length_nil, h0, if_false, List.isEmpty_nil, Bool.true_and, h1, if_true]
      refine ⟨s4, ls2 ++ ls4, ?_, f4, m4, by rw [p4, p2, List.append_assoc], fun k ls' h => ?_⟩
      · simp only [exec, hd, if_true, hpush, e2, e4]
        simp
      · rw [outermost, if_neg hl, List.append_assoc]
        exact r2 _ _ (r4 k ls' h)

/-- **C114.** Whatever spans a thread runs, however deep they are nested, profiling them does not panic, nothing of them is left afterwards, and what is printed is the
report about the outermost spans that were asked for, down to the depth that was asked for. -/
theorem report_exact (f : Filter) (hd : f.depth > 0) (ss : Spans) (lo hi : Nat) (ht : Timed lo hi ss) :
    ∃ ls, exec f ss {} = some { printed := ls } ∧ Reports f.longer 0 (cut (f.depth + 1) (outermost f.allowed ss .nil)) ls := by
  obtain ⟨s', ls, h1, h2, h3, h4, h5⟩ := exec_top f hd ss {} lo hi rfl rfl ht
  refine ⟨ls, ?_, ?_⟩
  · rw [h1]
    obtain ⟨a, b, c⟩ := s'
    simp only at h2 h3 h4
    subst h2 h3 h4
    rfl
  · have := h5 .nil [] .nil
    rwa [List.append_nil] at this

/-- If profiling is not asked for, nothing is recorded. -/
theorem disabled (f : Filter) (hd : f.depth = 0) : ∀ (ss : Spans) (s : Stack), exec f ss s = some s
  | .nil, _ => rfl
  | .cons _ _ _ _ inside after, s => by
    have h : ¬ f.depth > 0 := by omega
    simp only [exec, h, if_false, disabled f hd inside s, disabled f hd after s]

/-- The report is determined by what was run. -/
theorem summary_unique {longer : Nat} {ss : Spans} {m m' : List (Nat × Nat × Nat)} (h : Summary longer ss m) (h' : Summary longer ss m') : m = m' := by
  refine List.Perm.eq_of_pairwise (fun a b _ _ h1 h2 => absurd h1 (by omega)) h.1 h'.1 ?_
  refine (List.perm_ext_iff_of_nodup (h.1.imp fun h e => by rw [e] at h; omega) (h'.1.imp fun h e => by rw [e] at h; omega)).2 ?_
  rintro ⟨l, t, c⟩
  rw [h.2, h'.2]

theorem reports_unique {longer level : Nat} {ss : Spans} {ls ls' : List Line} (h : Reports longer level ss ls) (h' : Reports longer level ss ls') : ls = ls' := by
  induction h generalizing ls' with
  | nil => cases h'; rfl
  | short hs _ ih =>
    cases h' with
    | short _ h => exact ih h
    | long hl _ _ _ => omega
  | long hl _ hsum _ ih1 ih2 =>
    cases h' with
    | short hs _ => omega
    | long _ h1 hsum' h2 => rw [ih1 h1, ih2 h2, summary_unique hsum hsum']

/-- Four levels of spans, label 9 outside, with two short calls and time of its own; only label 1 is asked for. -/
def demo : Spans :=
  .cons 9 none 0 100000000 (.cons 1 (some 7) 0 90000000 (.cons 2 none 0 50000000 (.cons 3 none 0 40000000 .nil .nil)
    (.cons 5 none 50000000 51000000 .nil (.cons 4 none 51000000 52000000 .nil (.cons 5 none 52000000 54000000 .nil .nil)))) .nil) .nil

example : Timed 0 100000000 demo := by simp [demo, Timed]

/-- The depth 1 shows two levels. -/
example : (exec ⟨1, [1], 10000000⟩ demo {}).map (·.printed) = some
    [.span 0 90000000 1 (some 7), .span 1 50000000 2 none, .calls 1 1000000 4 1, .calls 1 3000000 5 2, .rest 1 36000000] := by decide +kernel

end Verif.Props.Profile
