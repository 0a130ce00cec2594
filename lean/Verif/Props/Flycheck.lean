import Verif.Flycheck.Model
import Verif.Props.Diagnostics
/-!
# C34: compiler diagnostics belong to the latest run
-/

namespace Verif.Props.Flycheck
open Verif.Flycheck Verif.Flycheck.Spec Verif.Lsp.Diagnostics

variable {D L : Type}

theorem delivers_append (a b : List (Item D)) : ∀ (p q : List (List D)), Delivers a p → Delivers b q → Delivers (a ++ b) (p ++ q) := by
  induction a with
  | nil => intro p q h1 h2; simp only [Delivers] at h1; subst h1; exact h2
  | cons i a ih =>
    intro p q h1 h2
    cases i with
    | failed => exact ih p q h1 h2
    | session ds e =>
      obtain ⟨p0, ps, rfl, h3, h4, h5⟩ := h1
      exact ⟨p0, ps ++ q, rfl, h3, h4, ih _ _ h5 h2⟩

/-- The invariant. -/
structure Inv (s : St D) (items : List (Item D)) : Prop where
  log : s.log = items.flatMap Item.msgs
  idle : s.handle = none → (∀ i ∈ items, ¬ i.open_) ∧ Delivers items s.printed
  busy : ∀ h, s.handle = some h → ∃ init ds ps, items = init ++ [.session ds .running] ∧ (∀ i ∈ init, ¬ i.open_) ∧ Delivers init ps ∧ s.printed = ps ++ [ds ++ h.chan]
  noPanic : s.mode ≠ .panicked
  debouncing : s.mode = .debouncing → s.handle = none

theorem cancel_inv {s : St D} {items : List (Item D)} (h : Inv s items) :
    ∃ items', Inv s.cancelCheck items' ∧ s.cancelCheck.handle = none ∧ s.cancelCheck.mode = s.mode ∧ s.cancelCheck.printed = s.printed := by
  cases hh : s.handle with
  | none =>
    have : s.cancelCheck = s := by simp [St.cancelCheck, hh]
    rw [this]; exact ⟨items, h, hh, rfl, rfl⟩
  | some c =>
    have e : s.cancelCheck = { s with handle := none }.say .didCancel := by simp [St.cancelCheck, hh]
    rw [e]
    obtain ⟨init, ds, ps, e1, e2, e3, e4⟩ := h.busy c hh
    refine ⟨init ++ [.session ds .cancelled], ⟨?_, ?_, ?_, h.noPanic, ?_⟩, rfl, rfl, rfl⟩
    · simp only [St.say, h.log, e1, List.flatMap_append]
      simp [Item.msgs, End.msgs]
    · intro _
      refine ⟨?_, ?_⟩
      · intro i hi
        rcases List.mem_append.1 hi with hi | hi
        · exact e2 i hi
        · simp only [List.mem_singleton] at hi; subst hi; simp [Item.open_]
      · show Delivers _ s.printed
        rw [e4]
        exact delivers_append _ _ _ _ e3 ⟨ds ++ c.chan, [], rfl, List.prefix_append _ _, by simp, rfl⟩
    · intro c' hc'; simp [St.say] at hc'
    · intro _; rfl

theorem finish_inv {s : St D} {items : List (Item D)} (h : Inv s items) {c : Handle D} (hc : s.handle = some c) (hch : c.chan = []) :
    ∃ items', Inv ({ s with handle := none }.say .didFinish) items' := by
  obtain ⟨init, ds, ps, e1, e2, e3, e4⟩ := h.busy c hc
  refine ⟨init ++ [.session ds .finished], ⟨?_, ?_, ?_, h.noPanic, ?_⟩⟩
  · simp only [St.say, h.log, e1, List.flatMap_append]
    simp [Item.msgs, End.msgs]
  · intro _
    refine ⟨?_, ?_⟩
    · intro i hi
      rcases List.mem_append.1 hi with hi | hi
      · exact e2 i hi
      · simp only [List.mem_singleton] at hi; subst hi; simp [Item.open_]
    · show Delivers _ s.printed
      rw [e4, hch, List.append_nil]
      exact delivers_append _ _ _ _ e3 ⟨ds, [], rfl, List.prefix_refl _, fun _ => rfl, rfl⟩
  · intro c' hc'; simp [St.say] at hc'
  · intro _; rfl

theorem step_inv {s s' : St D} {items : List (Item D)} (h : Inv s items) (a : Act D) (hs : s.step a = some s') : ∃ items', Inv s' items' := by
  have worker : ∀ a : Act D, (match s.mode with
      | .waiting =>
        match s.nextEvent a with
        | none => none
        | some (some e, s') => some (s'.onEvent e)
        | some (none, s') => some { s'.cancelCheck with mode := .ended }
      | .debouncing =>
        match a with
        | .takeInbox =>
          match s.inbox with
          | .restart :: cs => some { s with inbox := cs }
          | .cancel :: cs => some { s with inbox := cs, mode := .waiting }
          | [] => none
        | .timeout starts => if s.inbox = [] then some (s.start starts) else none
        | _ => none
      | .ended | .panicked => none) = some s' → ∃ items', Inv s' items' := by
    intro a hs
    cases hm : s.mode with
    | ended => simp [hm] at hs
    | panicked => exact absurd hm h.noPanic
    | waiting =>
      simp only [hm] at hs
      cases a with
      | takeInbox =>
        simp only [St.nextEvent] at hs
        cases hi : s.inbox with
        | nil =>
          simp only [hi] at hs
          by_cases hd : s.dropped = true
          · simp only [hd, if_true, Option.some.injEq] at hs
            subst hs
            obtain ⟨items', h1, h2, -, -⟩ := cancel_inv h
            exact ⟨items', h1.log, h1.idle, h1.busy, by simp, by simp⟩
          · simp [hd] at hs
        | cons c cs =>
          simp only [hi, Option.some.injEq] at hs
          subst hs
          have h' : Inv { s with inbox := cs } items := ⟨h.log, h.idle, h.busy, h.noPanic, h.debouncing⟩
          obtain ⟨items', h1, h2, h3, -⟩ := cancel_inv h'
          cases c with
          | cancel => exact ⟨items', h1⟩
          | restart => exact ⟨items', h1.log, h1.idle, h1.busy, by simp [St.onEvent], fun _ => h2⟩
      | takeOutput =>
        simp only [St.nextEvent] at hs
        cases hh : s.handle with
        | none => simp [hh] at hs
        | some c =>
          simp only [hh] at hs
          cases hch : c.chan with
          | nil =>
            simp only [hch] at hs
            by_cases hcl : c.closed = true
            · simp only [hcl, if_true, St.onEvent, hh, Option.some.injEq] at hs
              subst hs
              exact finish_inv h hh hch
            · simp [hcl] at hs
          | cons d ds' =>
            simp only [hch, Option.some.injEq] at hs
            subst hs
            obtain ⟨init, ds, ps, e1, e2, e3, e4⟩ := h.busy c hh
            refine ⟨init ++ [.session (ds ++ [d]) .running], ⟨?_, ?_, ?_, ?_, ?_⟩⟩
            · simp only [St.onEvent, St.say, h.log, e1, List.flatMap_append]
              simp [Item.msgs, End.msgs]
            · intro hn; simp [St.onEvent, St.say] at hn
            · intro c' hc'
              simp only [St.onEvent, St.say, Option.some.injEq] at hc'
              subst hc'
              refine ⟨init, _, ps, rfl, e2, e3, ?_⟩
              show s.printed = _
              rw [e4, hch]; simp
            · show s.mode ≠ _; rw [hm]; simp
            · intro hx
              have : s.mode = .debouncing := hx
              rw [hm] at this; simp at this
      | _ => simp [St.nextEvent] at hs
    | debouncing =>
      simp only [hm] at hs
      have hnone := h.debouncing hm
      cases a with
      | takeInbox =>
        simp only at hs
        cases hi : s.inbox with
        | nil => simp [hi] at hs
        | cons c cs =>
          cases c with
          | restart =>
            simp only [hi, Option.some.injEq] at hs
            subst hs
            exact ⟨items, h.log, h.idle, h.busy, by simp, fun _ => hnone⟩
          | cancel =>
            simp only [hi, Option.some.injEq] at hs
            subst hs
            exact ⟨items, h.log, h.idle, h.busy, by simp, by simp⟩
      | timeout starts =>
        simp only at hs
        by_cases hi : s.inbox = []
        · simp only [hi, if_true, Option.some.injEq] at hs
          subst hs
          cases starts with
          | true =>
            refine ⟨items ++ [.session [] .running], ⟨?_, ?_, ?_, ?_, ?_⟩⟩
            · simp [St.start, St.say, h.log, Item.msgs, End.msgs]
            · intro hn; simp [St.start, St.say] at hn
            · intro c hc
              simp only [St.start, St.say, if_true, Option.some.injEq] at hc
              subst hc
              exact ⟨items, [], s.printed, rfl, (h.idle hnone).1, (h.idle hnone).2, by simp [St.start, St.say]⟩
            · simp [St.start, St.say]
            · simp [St.start, St.say]
          | false =>
            refine ⟨items ++ [.failed], ⟨?_, ?_, ?_, ?_, ?_⟩⟩
            · simp [St.start, St.say, h.log, Item.msgs]
            · intro _
              refine ⟨?_, ?_⟩
              · intro i hi
                rcases List.mem_append.1 hi with hi | hi
                · exact (h.idle hnone).1 i hi
                · simp only [List.mem_singleton] at hi; subst hi; simp [Item.open_]
              · have := delivers_append _ [.failed] _ [] (h.idle hnone).2 rfl
                rw [List.append_nil] at this
                simpa [St.start, St.say] using this
            · intro c hc; simp [St.start, St.say, hnone] at hc
            · simp [St.start, St.say]
            · simp [St.start, St.say]
        · simp [hi] at hs
      | _ => simp at hs
  cases a with
  | send c =>
    simp only [St.step] at hs
    by_cases hd : s.dropped = true
    · simp [hd] at hs
    · simp only [hd, Bool.false_eq_true, if_false, Option.some.injEq] at hs
      subst hs
      exact ⟨items, h.log, h.idle, h.busy, h.noPanic, h.debouncing⟩
  | drop =>
    simp only [St.step, Option.some.injEq] at hs
    subst hs
    exact ⟨items, h.log, h.idle, h.busy, h.noPanic, h.debouncing⟩
  | output d =>
    simp only [St.step] at hs
    cases hh : s.handle with
    | none => simp [hh] at hs
    | some c =>
      simp only [hh] at hs
      by_cases hcl : c.closed = true
      · simp [hcl] at hs
      · simp only [hcl, Bool.false_eq_true, if_false, Option.some.injEq] at hs
        subst hs
        obtain ⟨init, ds, ps, e1, e2, e3, e4⟩ := h.busy c hh
        refine ⟨items, h.log, by simp, ?_, h.noPanic, ?_⟩
        · intro c' hc'
          simp only [Option.some.injEq] at hc'
          subst hc'
          refine ⟨init, ds, ps, e1, e2, e3, ?_⟩
          simp [e4]
        · intro hx
          have := h.debouncing hx
          rw [hh] at this; simp at this
  | eof =>
    simp only [St.step] at hs
    cases hh : s.handle with
    | none => simp [hh] at hs
    | some c =>
      simp only [hh, Option.some.injEq] at hs
      subst hs
      obtain ⟨init, ds, ps, e1, e2, e3, e4⟩ := h.busy c hh
      refine ⟨items, h.log, by simp, ?_, h.noPanic, ?_⟩
      · intro c' hc'
        simp only [Option.some.injEq] at hc'
        subst hc'
        exact ⟨init, ds, ps, e1, e2, e3, e4⟩
      · intro hx
        have := h.debouncing hx
        rw [hh] at this; simp at this
  | takeInbox => exact worker .takeInbox hs
  | takeOutput => exact worker .takeOutput hs
  | timeout b => exact worker (.timeout b) hs

theorem run_inv (acts : List (Act D)) : ∀ (s s' : St D) (items : List (Item D)), Inv s items → s.run acts = some s' → ∃ items', Inv s' items' := by
  induction acts with
  | nil => intro s s' items h hs; simp only [St.run, Option.some.injEq] at hs; subst hs; exact ⟨items, h⟩
  | cons a acts ih =>
    intro s s' items h hs
    simp only [St.run, Option.bind_eq_some_iff] at hs
    obtain ⟨s1, h1, h2⟩ := hs
    obtain ⟨items1, h1⟩ := step_inv h a h1
    exact ih _ _ _ h1 h2

theorem inv_init : Inv ({} : St D) [] := ⟨rfl, fun _ => ⟨by simp, rfl⟩, by simp, by simp, by simp⟩

/-- **C34, the worker.** Whatever is asked of the worker and whatever the compiler prints, in whatever order: the messages of the worker
are runs one after the other, each with one start, diagnostics of its own process in order, and one end; only the last run may still
go on. A run that finished has delivered all its process printed. The worker never fails on a missing process. -/
theorem runs_in_order (acts : List (Act D)) (s : St D) (h : St.run {} acts = some s) :
    s.mode ≠ .panicked ∧ ∃ items, s.log = items.flatMap Item.msgs ∧ Delivers items s.printed ∧ ∀ i ∈ items.dropLast, ¬ i.open_ := by
  obtain ⟨items, hi⟩ := run_inv acts _ _ _ inv_init h
  refine ⟨hi.noPanic, items, hi.log, ?_⟩
  cases hh : s.handle with
  | none =>
    obtain ⟨h1, h2⟩ := hi.idle hh
    exact ⟨h2, fun i hi' => h1 i (List.dropLast_subset _ hi')⟩
  | some c =>
    obtain ⟨init, ds, ps, e1, e2, e3, e4⟩ := hi.busy c hh
    refine ⟨?_, ?_⟩
    · rw [e1, e4]
      exact delivers_append _ _ _ _ e3 ⟨ds ++ c.chan, [], rfl, List.prefix_append _ _, by simp, rfl⟩
    · rw [e1, List.dropLast_concat]; exact e2

/-- A run that is restarted while the compiler prints, then finishes. -/
example : ∃ s, St.run ({} : St Nat) [.send .restart, .takeInbox, .timeout true, .output 1, .takeOutput, .output 2, .send .restart, .takeInbox, .timeout true,
    .output 3, .takeOutput, .eof, .takeOutput] = some s ∧ s.log = [.didStart, .add 1, .didCancel, .didStart, .add 3, .didFinish] ∧ s.printed = [[1, 2], [3]] :=
  ⟨_, rfl, rfl, rfl⟩

/-! ### What the server holds -/

/-- Diagnostics since the last start. -/
def since (l : List (Msg D)) : List D :=
  l.foldl (fun acc m => match m with
    | .add d => acc ++ [d]
    | .didStart => []
    | _ => acc) []

theorem since_concat (l : List (Msg D)) (m : Msg D) : since (l ++ [m]) = match m with
    | .add d => since l ++ [d]
    | .didStart => []
    | _ => since l := by
  unfold since
  rw [List.foldl_append]
  cases m <;> rfl

theorem starts_concat (l : List (Msg D)) (m : Msg D) : starts (l ++ [m]) = match m with
    | .didStart => starts l + 1
    | _ => starts l := by
  unfold starts
  rw [List.filter_append, List.length_append]
  cases m <;> rfl

/-- Folding only looks at the events about the flycheck. -/
theorem fold_about (same : L → L → Bool) (id : Nat) (f : FileId) (es : List (Ev L)) : ∀ acc : List L,
    es.foldl (fun acc e =>
      match e with
      | .addCheck fc' g d => if fc' = id ∧ g = f then (if acc.any (fun x => same x d) then acc else acc ++ [d]) else acc
      | .clearCheck fc' => if fc' = id then [] else acc
      | .clearCheckAll => []
      | _ => acc) acc =
    (es.filter (about id)).foldl (fun acc e =>
      match e with
      | .addCheck fc' g d => if fc' = id ∧ g = f then (if acc.any (fun x => same x d) then acc else acc ++ [d]) else acc
      | .clearCheck fc' => if fc' = id then [] else acc
      | .clearCheckAll => []
      | _ => acc) acc := by
  induction es with
  | nil => intro acc; rfl
  | cons e es ih =>
    intro acc
    rw [List.foldl_cons, List.filter_cons]
    cases e with
    | addCheck fc g d =>
      by_cases h : fc = id
      · simp only [about, h, decide_true, if_true, List.foldl_cons]; rw [ih]
      · simp only [about, h, decide_false, Bool.false_eq_true, if_false, false_and]; exact ih acc
    | clearCheck fc =>
      by_cases h : fc = id
      · simp only [about, h, decide_true, if_true, List.foldl_cons]; rw [ih]
      · simp only [about, h, decide_false, Bool.false_eq_true, if_false]; exact ih acc
    | clearCheckAll => simp only [about, if_true, List.foldl_cons]; exact ih _
    | clearNativeFor g => simp only [about, Bool.false_eq_true, if_false]; exact ih acc
    | setNative g ds => simp only [about, Bool.false_eq_true, if_false]; exact ih acc
    | publish o => simp only [about, Bool.false_eq_true, if_false]; exact ih acc

theorem held_since (same : L → L → Bool) (place : D → Option (FileId × L)) (id : Nat) (f : FileId) (l : List (Msg D)) :
    Verif.Lsp.Diagnostics.Spec.checkDiags same id f (l.flatMap (onMsg id place)) = heldOf same place f (since l) := by
  suffices ∀ n, ∀ l : List (Msg D), l.length = n → Verif.Lsp.Diagnostics.Spec.checkDiags same id f (l.flatMap (onMsg id place)) = heldOf same place f (since l) from
    this _ l rfl
  intro n
  induction n with
  | zero => intro l hl; rw [List.length_eq_zero_iff] at hl; subst hl; rfl
  | succ n ih =>
    intro l hl
    rcases List.eq_nil_or_concat l with rfl | ⟨l', m, rfl⟩
    · simp at hl
    · rw [List.concat_eq_append] at hl ⊢
      have ih := ih l' (by simpa using hl)
      rw [since_concat, List.flatMap_append]
      unfold Verif.Lsp.Diagnostics.Spec.checkDiags at ih ⊢
      rw [List.foldl_append, ih]
      cases m with
      | didStart => simp [onMsg, heldOf]
      | didFinish => rfl
      | didCancel => rfl
      | didFailToRestart => rfl
      | add d =>
        simp only [heldOf, List.foldl_append, List.foldl_cons, List.foldl_nil, List.flatMap_cons, List.flatMap_nil, List.append_nil, onMsg]
        cases place d with
        | none => rfl
        | some e =>
          obtain ⟨g, x⟩ := e
          simp only [List.foldl_cons, List.foldl_nil, true_and]

/-- The current run in the messages handled so far. -/
def Current (printed : List (List D)) (l : List (Msg D)) : Prop :=
  (starts l = 0 ∧ since l = []) ∨
    ∃ k p, starts l = k + 1 ∧ printed[k]? = some p ∧ since l <+: p ∧ (l.getLast? = some .didFinish → since l = p)

theorem since_adds (l0 : List (Msg D)) (xs : List D) : since (l0 ++ .didStart :: xs.map .add) = xs := by
  have h : ∀ (xs : List D) (acc : List D), (xs.map Msg.add).foldl (fun acc m => match m with
      | .add d => acc ++ [d]
      | .didStart => []
      | _ => acc) acc = acc ++ xs := by
    intro xs
    induction xs with
    | nil => intro acc; simp
    | cons x xs ih => intro acc; simp [ih]
  unfold since
  rw [List.foldl_append, List.foldl_cons, h]
  rfl

theorem starts_adds (l0 : List (Msg D)) (xs : List D) : starts (l0 ++ .didStart :: xs.map .add) = starts l0 + 1 := by
  have h : ∀ xs : List D, ((xs.map Msg.add).filter isStart) = [] := by
    intro xs; induction xs with
    | nil => rfl
    | cons x xs ih => rw [List.map_cons, List.filter_cons]; exact ih
  unfold starts
  rw [List.filter_append, List.filter_cons]
  simp only [isStart, if_true, List.length_append, List.length_cons]
  rw [h]; rfl

theorem prefix_append {α : Type} {l a b : List α} (h : l <+: a ++ b) : l <+: a ∨ ∃ l', l = a ++ l' ∧ l' <+: b := by
  rcases List.prefix_or_prefix_of_prefix h (List.prefix_append a b) with h1 | ⟨l', rfl⟩
  · exact .inl h1
  · exact .inr ⟨l', rfl, (List.prefix_append_right_inj a).1 h⟩

/-- Messages of one run. -/
theorem session_current {printed : List (List D)} {l0 : List (Msg D)} {p ds : List D} {e : End} (hp : printed[starts l0]? = some p) (hds : ds <+: p)
    (hfin : e = .finished → ds = p) {l : List (Msg D)} (hl : l <+: Item.msgs (.session ds e)) (hne : l ≠ []) : Current printed (l0 ++ l) := by
  cases l with
  | nil => exact absurd rfl hne
  | cons m l =>
    simp only [Item.msgs, List.cons_prefix_cons] at hl
    obtain ⟨rfl, hl⟩ := hl
    rcases prefix_append hl with h | ⟨l', rfl, h⟩
    · obtain ⟨xs, rfl, hxs⟩ : ∃ xs, l = xs.map Msg.add ∧ xs <+: ds := by
        refine ⟨ds.take l.length, ?_, List.take_prefix _ _⟩
        rw [List.map_take]; exact List.prefix_iff_eq_take.1 h
      refine .inr ⟨starts l0, p, starts_adds _ _, hp, by rw [since_adds]; exact hxs.trans hds, ?_⟩
      intro hlast
      exfalso
      rw [List.getLast?_append, List.getLast?_cons] at hlast
      rcases List.eq_nil_or_concat xs with rfl | ⟨ys, y, rfl⟩
      · simp at hlast
      · simp at hlast
    · have hnil : l' = [] ∨ (e = .finished ∧ l' = [.didFinish]) ∨ (e = .cancelled ∧ l' = [.didCancel]) := by
        cases e with
        | running => simp only [End.msgs, List.prefix_nil] at h; exact .inl h
        | finished =>
          cases l' with
          | nil => exact .inl rfl
          | cons x l' => simp only [End.msgs, List.cons_prefix_cons, List.prefix_nil] at h; exact .inr (.inl ⟨rfl, by rw [h.1, h.2]⟩)
        | cancelled =>
          cases l' with
          | nil => exact .inl rfl
          | cons x l' => simp only [End.msgs, List.cons_prefix_cons, List.prefix_nil] at h; exact .inr (.inr ⟨rfl, by rw [h.1, h.2]⟩)
      rcases hnil with rfl | ⟨rfl, rfl⟩ | ⟨rfl, rfl⟩
      · rw [List.append_nil]
        refine .inr ⟨starts l0, p, starts_adds _ _, hp, by rw [since_adds]; exact hds, ?_⟩
        intro hlast
        exfalso
        rw [List.getLast?_append, List.getLast?_cons] at hlast
        rcases List.eq_nil_or_concat ds with rfl | ⟨ys, y, rfl⟩
        · simp at hlast
        · simp at hlast
      · have e : l0 ++ .didStart :: (ds.map Msg.add ++ [.didFinish]) = (l0 ++ .didStart :: ds.map Msg.add) ++ [.didFinish] := by simp
        rw [e]
        refine .inr ⟨starts l0, p, by rw [starts_concat]; exact starts_adds _ _, hp, ?_, fun _ => ?_⟩
        · rw [since_concat]; simp only [since_adds]; exact hds
        · rw [since_concat]; simp only [since_adds]; exact hfin rfl
      · have e : l0 ++ .didStart :: (ds.map Msg.add ++ [.didCancel]) = (l0 ++ .didStart :: ds.map Msg.add) ++ [.didCancel] := by simp
        rw [e]
        refine .inr ⟨starts l0, p, by rw [starts_concat]; exact starts_adds _ _, hp, ?_, fun h => ?_⟩
        · rw [since_concat]; simp only [since_adds]; exact hds
        · rw [List.getLast?_concat] at h; simp at h

theorem starts_session (l0 : List (Msg D)) (ds : List D) (e : End) : starts (l0 ++ Item.msgs (.session ds e)) = starts l0 + 1 := by
  have : l0 ++ Item.msgs (.session ds e) = (l0 ++ .didStart :: ds.map Msg.add) ++ e.msgs := by simp [Item.msgs]
  rw [this]
  cases e with
  | running => rw [End.msgs, List.append_nil]; exact starts_adds _ _
  | finished => rw [End.msgs, starts_concat]; exact starts_adds _ _
  | cancelled => rw [End.msgs, starts_concat]; exact starts_adds _ _

theorem prefix_of_items (items : List (Item D)) : ∀ (ps pre : List (List D)) (l0 : List (Msg D)), Delivers items ps → starts l0 = pre.length →
    Current (pre ++ ps) l0 → ∀ l, l <+: items.flatMap Item.msgs → Current (pre ++ ps) (l0 ++ l) := by
  induction items with
  | nil =>
    intro ps pre l0 _ _ hc l hl
    simp only [List.flatMap_nil, List.prefix_nil] at hl
    subst hl; rw [List.append_nil]; exact hc
  | cons i items ih =>
    intro ps pre l0 hd hs hc l hl
    rw [List.flatMap_cons] at hl
    cases i with
    | failed =>
      have hd' : Delivers items ps := hd
      have hc' : Current (pre ++ ps) (l0 ++ [.didFailToRestart]) := by
        rcases hc with ⟨h1, h2⟩ | ⟨k, p, h1, h2, h3, h4⟩
        · exact .inl ⟨by rw [starts_concat]; exact h1, by rw [since_concat]; exact h2⟩
        · exact .inr ⟨k, p, by rw [starts_concat]; exact h1, h2, by rw [since_concat]; exact h3, by simp⟩
      rcases prefix_append hl with h | ⟨l', rfl, h⟩
      · cases l with
        | nil => rw [List.append_nil]; exact hc
        | cons m l =>
          simp only [Item.msgs, List.cons_prefix_cons, List.prefix_nil] at h
          rw [h.1, h.2]; exact hc'
      · rw [← List.append_assoc]
        exact ih ps pre _ hd' (by rw [starts_concat]; exact hs) hc' l' h
    | session ds e =>
      obtain ⟨p, ps', rfl, h1, h2, h3⟩ := hd
      have hp : (pre ++ p :: ps')[starts l0]? = some p := by rw [hs]; simp
      rcases prefix_append hl with h | ⟨l', rfl, h⟩
      · by_cases hn : l = []
        · subst hn; rw [List.append_nil]; exact hc
        · exact session_current hp h1 h2 h hn
      · rw [← List.append_assoc]
        have hcur := session_current hp h1 h2 (List.prefix_refl (Item.msgs (.session ds e))) (by simp [Item.msgs])
        have := ih ps' (pre ++ [p]) (l0 ++ Item.msgs (.session ds e)) h3 (by rw [starts_session, hs]; simp) (by rw [List.append_assoc]; exact hcur) l' h
        rw [List.append_assoc pre] at this
        exact this

/-- **C34, the server.** At every moment, `handled` being the messages of the worker that the server handled so far: the compiler
diagnostics held for a file are those of a first part of the output of the process that was started last; once the end of that run was
handled, of all its output. -/
theorem latest_run (acts : List (Act D)) (s : St D) (h : St.run {} acts = some s) (handled : List (Msg D)) (hh : handled <+: s.log)
    (same : L → L → Bool) (patch : L → L) (place : D → Option (FileId × L)) (id : Nat) (f : FileId) (es : List (Ev L))
    (hes : es.filter (about id) = handled.flatMap (onMsg id place)) :
    (starts handled = 0 ∧ (Sys.init.run same patch es).coll.checkFor id f = []) ∨
    ∃ k p ds, starts handled = k + 1 ∧ s.printed[k]? = some p ∧ ds <+: p ∧ (handled.getLast? = some .didFinish → ds = p) ∧
      (Sys.init.run same patch es).coll.checkFor id f = heldOf same place f ds := by
  obtain ⟨-, items, h1, h2, -⟩ := runs_in_order acts s h
  have hcur := prefix_of_items items s.printed [] [] h2 rfl (.inl ⟨rfl, rfl⟩) handled (by rw [← h1]; exact hh)
  simp only [List.nil_append] at hcur
  have hheld : (Sys.init.run same patch es).coll.checkFor id f = heldOf same place f (since handled) := by
    rw [Verif.Props.Diagnostics.held_check_is_latest_run, ← held_since same place id f handled, ← hes]
    exact fold_about same id f es []
  rcases hcur with ⟨a, b⟩ | ⟨k, p, a, b, c, d⟩
  · exact .inl ⟨a, by rw [hheld, b]; rfl⟩
  · exact .inr ⟨k, p, since handled, a, b, c, d, hheld⟩

/-- In the run of the example above, after all messages but the last: the file has the diagnostic `3` of the second run only. -/
example : (Sys.init.run (fun a b : Nat => a == b) id (([.didStart, .add 1, .didCancel, .didStart, .add 3] : List (Msg Nat)).flatMap (onMsg 7 (fun d => some (0, d))))).coll.checkFor 7 0
    = [3] := by decide

/-! ### Two workers -/

/-- `l` consists of the messages of `a` and `b`, each in order. -/
inductive Merge {α : Type} : List α → List α → List α → Prop where
  | nil : Merge [] [] []
  | left {x : α} {a b l : List α} : Merge a b l → Merge (x :: a) b (x :: l)
  | right {x : α} {a b l : List α} : Merge a b l → Merge a (x :: b) (x :: l)

/-- **C34 is violated** when the workers are replaced (`reload_flycheck`, reload.rs:78-115, gives the new worker the id of the old one)
while a save is still being handled: the task of the save has a snapshot with the old worker (notification.rs:228-250) and restarts it.
Then diagnostics of the old worker's process (here `1`) are held beside those of the process started last (here `2`). -/
theorem latest_run_reload_refuted : ∃ (actsA actsB : List (Act Nat)) (a b : St Nat) (log : List (Msg Nat)),
    St.run {} actsA = some a ∧ St.run {} actsB = some b ∧ Merge a.log b.log log ∧ a.printed = [[1]] ∧ b.printed = [[2]] ∧
    log = [.didStart, .didStart, .add 1, .add 2, .didFinish] ∧
    (Sys.init.run (fun a b : Nat => a == b) id (log.flatMap (onMsg 7 (fun d => some (0, d))))).coll.checkFor 7 0 = [1, 2] :=
  ⟨[.send .restart, .takeInbox, .timeout true, .output 1, .takeOutput], [.send .restart, .takeInbox, .timeout true, .output 2, .takeOutput, .eof, .takeOutput],
    _, _, _, rfl, rfl, .left (.right (.left (.right (.right .nil)))), rfl, rfl, rfl, by decide⟩

end Verif.Props.Flycheck
