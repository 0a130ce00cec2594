import Verif.Lsp.Compile
/-!
# C86: what the client is shown of compiler runs
-/

namespace Verif.Props.Compile

open Verif.Lsp.Compile Verif.Lsp.Compile.Spec Verif.Flycheck

variable {D : Type}

/-! ### One worker -/

/-- Is the compiler running after these messages? `none`: not in order. -/
def play1 (b : Bool) : Msg D → Option Bool
  | .add _ | .didFailToRestart => some b
  | .didStart => if b then none else some true
  | .didFinish | .didCancel => if b then some false else none

def play (b : Bool) : List (Msg D) → Option Bool
  | [] => some b
  | m :: ms => (play1 b m).bind fun b => play b ms

theorem play_append (a l : List (Msg D)) : ∀ b, play b (a ++ l) = (play b a).bind fun b => play b l := by
  induction a with
  | nil => intro b; rfl
  | cons m a ih =>
    intro b
    simp only [List.cons_append, play]
    cases play1 b m with
    | none => rfl
    | some x => exact ih x

/-- Between starts there is no compiler. -/
def Fine (w : St D) : Prop := (w.mode = .debouncing ∨ w.mode = .ended → w.handle = none) ∧ w.mode ≠ .panicked

theorem cancelCheck_new (w : St D) : ∃ new, w.cancelCheck.log = w.log ++ new ∧ play w.handle.isSome new = some false ∧
    w.cancelCheck.handle = none ∧ w.cancelCheck.mode = w.mode ∧ w.cancelCheck.inbox = w.inbox := by
  unfold St.cancelCheck
  cases h : w.handle with
  | none => exact ⟨[], by simp, rfl, h, rfl, rfl⟩
  | some c => exact ⟨[.didCancel], rfl, rfl, rfl, rfl, rfl⟩

theorem worker_step {w w' : St D} (hf : Fine w) (a : Flycheck.Act D) (hs : w.step a = some w') :
    Fine w' ∧ ∃ new, w'.log = w.log ++ new ∧ play w.handle.isSome new = some w'.handle.isSome := by
  have same : ∀ w' : St D, w'.log = w.log → w'.handle.isSome = w.handle.isSome → ∃ new, w'.log = w.log ++ new ∧ play w.handle.isSome new = some w'.handle.isSome :=
    fun w' h1 h2 => ⟨[], by simp [h1], by simp [play, h2]⟩
  obtain ⟨hf1, hf2⟩ := hf
  have body : ∀ a : Flycheck.Act D, (match w.mode with
      | .waiting =>
        match w.nextEvent a with
        | none => none
        | some (some e, s') => some (s'.onEvent e)
        | some (none, s') => some { s'.cancelCheck with mode := .ended }
      | .debouncing =>
        match a with
        | .takeInbox =>
          match w.inbox with
          | .restart :: cs => some { w with inbox := cs }
          | .cancel :: cs => some { w with inbox := cs, mode := .waiting }
          | [] => none
        | .timeout starts => if w.inbox = [] then some (w.start starts) else none
        | _ => none
      | .ended | .panicked => none) = some w' →
      Fine w' ∧ ∃ new, w'.log = w.log ++ new ∧ play w.handle.isSome new = some w'.handle.isSome := by
    intro a hs
    cases hm : w.mode with
    | waiting =>
      rw [hm] at hs
      simp only at hs
      cases hn : w.nextEvent a with
      | none => rw [hn] at hs; simp at hs
      | some p =>
        obtain ⟨e, s1⟩ := p
        rw [hn] at hs
        cases a with
        | takeInbox =>
          simp only [St.nextEvent] at hn
          split at hn
          · rename_i c cs hin
            simp only [Option.some.injEq, Prod.mk.injEq] at hn
            obtain ⟨rfl, rfl⟩ := hn
            simp only [Option.some.injEq] at hs
            subst hs
            obtain ⟨new, h1, h2, h3, h4, -⟩ := cancelCheck_new ({ w with inbox := cs } : St D)
            cases c with
            | cancel => exact ⟨⟨fun _ => h3, by show ({ w with inbox := cs } : St D).cancelCheck.mode ≠ _; rw [h4]; exact hf2⟩, new, h1, by refine h2.trans ?_; simp only [St.onEvent]; rw [h3]; rfl⟩
            | restart => exact ⟨⟨fun _ => h3, by simp [St.onEvent]⟩, new, h1, by refine h2.trans ?_; simp only [St.onEvent]; rw [h3]; rfl⟩
          · split at hn
            · simp only [Option.some.injEq, Prod.mk.injEq] at hn
              obtain ⟨rfl, rfl⟩ := hn
              simp only [Option.some.injEq] at hs
              subst hs
              obtain ⟨new, h1, h2, h3, h4, -⟩ := cancelCheck_new w
              exact ⟨⟨fun _ => h3, by simp⟩, new, h1, by refine h2.trans ?_; simp only []; rw [h3]; rfl⟩
            · simp at hn
        | takeOutput =>
          simp only [St.nextEvent] at hn
          split at hn
          · simp at hn
          · rename_i c hc
            split at hn
            · simp only [Option.some.injEq, Prod.mk.injEq] at hn
              obtain ⟨rfl, rfl⟩ := hn
              simp only [Option.some.injEq] at hs
              subst hs
              refine ⟨⟨fun h => ?_, hf2⟩, [.add _], rfl, ?_⟩
              · simp only [St.onEvent, St.say] at h; rw [hm] at h; simp at h
              · simp [play, play1, hc, St.onEvent, St.say]
            · split at hn
              · simp only [Option.some.injEq, Prod.mk.injEq] at hn
                obtain ⟨rfl, rfl⟩ := hn
                simp only [Option.some.injEq, St.onEvent, hc] at hs
                subst hs
                exact ⟨⟨fun _ => rfl, hf2⟩, [.didFinish], rfl, by simp [play, play1, hc, St.say]⟩
              · simp at hn
        | _ => simp [St.nextEvent] at hn
    | debouncing =>
      rw [hm] at hs
      simp only at hs
      have hh := hf1 (.inl hm)
      cases a with
      | takeInbox =>
        simp only at hs
        split at hs
        · simp only [Option.some.injEq] at hs; subst hs; exact ⟨⟨fun _ => hh, by simp⟩, same _ rfl rfl⟩
        · simp only [Option.some.injEq] at hs; subst hs; exact ⟨⟨fun _ => hh, by simp⟩, same _ rfl rfl⟩
        · simp at hs
      | timeout b =>
        simp only at hs
        split at hs
        · simp only [Option.some.injEq] at hs; subst hs
          cases b with
          | true => exact ⟨⟨by simp [St.start, St.say], by simp [St.start, St.say]⟩, [.didStart], rfl, by rw [hh]; rfl⟩
          | false => exact ⟨⟨fun _ => hh, by simp [St.start, St.say]⟩, [.didFailToRestart], rfl, by rw [hh]; simp [play, play1, St.start, St.say, hh]⟩
        · simp at hs
      | _ => simp at hs
    | ended => rw [hm] at hs; simp at hs
    | panicked => rw [hm] at hs; simp at hs
  cases a with
  | send c =>
    simp only [St.step] at hs
    split at hs
    · simp at hs
    · simp only [Option.some.injEq] at hs; subst hs; exact ⟨⟨hf1, hf2⟩, same _ rfl rfl⟩
  | drop => simp only [St.step, Option.some.injEq] at hs; subst hs; exact ⟨⟨hf1, hf2⟩, same _ rfl rfl⟩
  | output d =>
    simp only [St.step] at hs
    split at hs
    · rename_i c hc
      split at hs
      · simp at hs
      · simp only [Option.some.injEq] at hs; subst hs
        exact ⟨⟨fun h => by have := hf1 h; rw [hc] at this; simp at this, hf2⟩, same _ rfl (by simp [hc])⟩
    · simp at hs
  | eof =>
    simp only [St.step] at hs
    split at hs
    · rename_i c hc
      simp only [Option.some.injEq] at hs; subst hs
      exact ⟨⟨fun h => by have := hf1 h; rw [hc] at this; simp at this, hf2⟩, same _ rfl (by simp [hc])⟩
    · simp at hs
  | takeInbox => exact body _ hs
  | takeOutput => exact body _ hs
  | timeout b => exact body (.timeout b) hs

theorem news_eq {w w' : St D} {new : List (Msg D)} (h : w'.log = w.log ++ new) : news w w' = new := by
  simp [news, h]

/-! ### Tokens -/

theorem shown_inj {a b : Nat} (h : shown a = shown b) : a = b := by
  simp only [shown] at h
  rw [← @Nat.ofDigitChars_toDigits 10 a (by decide) (by decide), h, Nat.ofDigitChars_toDigits (by decide) (by decide)]

theorem tokenOf_inj {a b : Nat} (h : tokenOf a = tokenOf b) : a = b := shown_inj (List.append_cancel_left h)

theorem strip_append (p l : Str) : stripPrefix p (p ++ l) = some l := by
  induction p with
  | nil => rfl
  | cons c p ih => simp [stripPrefix, ih]

theorem strip_some {p l r : Str} (h : stripPrefix p l = some r) : l = p ++ r := by
  induction p generalizing l with
  | nil => simpa [stripPrefix] using h
  | cons c p ih =>
    cases l with
    | nil => simp [stripPrefix] at h
    | cons d l =>
      simp only [stripPrefix] at h
      split at h
      · rename_i he; rw [ih h, he]; rfl
      · simp at h

theorem parse_shown {id : Nat} (h : id < 2 ^ 32) : parseId (shown id) = some id := by
  have hd : ∀ c ∈ shown id, c.isDigit = true := fun c hc => Nat.isDigit_of_mem_toDigits (by decide) (by decide) hc
  have hp : parseDigits (shown id) = some id := by
    have hv : Nat.ofDigitChars 10 (shown id) 0 = id := Nat.ofDigitChars_toDigits (by decide) (by decide)
    have hn : shown id ≠ [] := Nat.toDigits_ne_nil
    simp only [parseDigits, hv]
    rw [if_pos ⟨hn, List.all_eq_true.2 hd, h⟩]
  unfold parseId
  split
  · rename_i l he
    have := hd '+' (by rw [he]; exact List.mem_cons_self)
    simp at this
  · exact hp

theorem idOf_token {id : Nat} (h : id < 2 ^ 32) : idOf (tokenOf id) = some id := by
  simp [idOf, tokenOf, strip_append, parse_shown h]

/-! ### The invariant -/

def msgsOf (id : Nat) (l : List (Nat × Msg D)) : List (Msg D) := l.filterMap fun m => if m.1 = id then some m.2 else none

theorem msgsOf_append (id : Nat) (a b : List (Nat × Msg D)) : msgsOf id (a ++ b) = msgsOf id a ++ msgsOf id b := by simp [msgsOf]

theorem msgsOf_own (id : Nat) (l : List (Msg D)) : msgsOf id (l.map (Prod.mk id)) = l := by
  induction l with
  | nil => rfl
  | cons m l ih => simp only [List.map_cons, msgsOf, List.filterMap_cons, if_true]; exact congrArg _ ih

theorem msgsOf_other {id i : Nat} (h : i ≠ id) (l : List (Msg D)) : msgsOf id (l.map (Prod.mk i)) = [] := by
  induction l with
  | nil => rfl
  | cons m l ih => simp only [List.map_cons, msgsOf, List.filterMap_cons, h, if_false]; exact ih

/-- Is there a compiler for root `id`? -/
def runs (s : Sys D) (id : Nat) : Bool := decide (id ∈ s.ids) && (s.worker id).handle.isSome

theorem runs_iff (s : Sys D) (id : Nat) : runs s id = true ↔ Running s id := by simp [runs, Running]

theorem handle_shown (n id i : Nat) (m : Msg D) {b b' : Bool} {l : List Out} (hl : Shown (tokenOf id) b l)
    (hp : i = id → play1 b m = some b') (hb : i ≠ id → b' = b) : Shown (tokenOf id) b' (l ++ (handleMsg n i m).filter (about (tokenOf id))) := by
  by_cases hi : i = id
  · subst hi
    have hp := hp rfl
    cases m with
    | add d => simp only [play1, Option.some.injEq] at hp; subst hp; simpa [handleMsg] using hl
    | didFailToRestart => simp only [play1, Option.some.injEq] at hp; subst hp; simpa [handleMsg] using hl
    | didStart =>
      cases b with
      | true => simp [play1] at hp
      | false =>
        simp only [play1, Bool.false_eq_true, if_false, Option.some.injEq] at hp; subst hp
        simpa [handleMsg, reportProgress, about] using Shown.start (title := titleOf n i) hl
    | didFinish =>
      cases b with
      | false => simp [play1] at hp
      | true =>
        simp only [play1, if_true, Option.some.injEq] at hp; subst hp
        simpa [handleMsg, reportProgress, about] using Shown.stop hl
    | didCancel =>
      cases b with
      | false => simp [play1] at hp
      | true =>
        simp only [play1, if_true, Option.some.injEq] at hp; subst hp
        simpa [handleMsg, reportProgress, about] using Shown.stop hl
  · have ht : tokenOf i ≠ tokenOf id := fun h => hi (tokenOf_inj h)
    rw [hb hi]
    have : (handleMsg n i m).filter (about (tokenOf id)) = [] := by
      cases m <;> simp [handleMsg, reportProgress, about, ht]
    rw [this, List.append_nil]; exact hl

theorem handle_all (n id : Nat) (ms : List (Nat × Msg D)) : ∀ {b b' : Bool} {l : List Out}, Shown (tokenOf id) b l →
    play b (msgsOf id ms) = some b' →
    Shown (tokenOf id) b' (l ++ (ms.flatMap fun m => handleMsg n m.1 m.2).filter (about (tokenOf id))) := by
  induction ms with
  | nil => intro b b' l hl hp; simp only [msgsOf, List.filterMap_nil, play, Option.some.injEq] at hp; subst hp; simpa using hl
  | cons m ms ih =>
    intro b b' l hl hp
    rw [List.flatMap_cons, List.filter_append, ← List.append_assoc]
    by_cases hi : m.1 = id
    · have he : msgsOf id (m :: ms) = m.2 :: msgsOf id ms := by simp [msgsOf, hi]
      rw [he, play, Option.bind_eq_some_iff] at hp
      obtain ⟨c, h1, h2⟩ := hp
      exact ih (handle_shown n id m.1 m.2 hl (fun _ => h1) (fun h => absurd hi h)) h2
    · have he : msgsOf id (m :: ms) = msgsOf id ms := by simp [msgsOf, hi]
      rw [he] at hp
      exact ih (handle_shown n id m.1 m.2 hl (fun h => absurd h hi) (fun _ => rfl)) hp

structure Inv (s : Sys D) : Prop where
  calm : s.retired = []
  fine : ∀ i ∈ s.ids, Fine (s.worker i)
  keys : keysOk s.ids = true
  order : ∀ id, ∃ b, Shown (tokenOf id) b (s.out.filter (about (tokenOf id))) ∧ play b (msgsOf id s.chan) = some (runs s id)

theorem inv_worker {s : Sys D} (h : Inv s) {id : Nat} (hid : id ∈ s.ids) {a : Flycheck.Act D} {w : St D} (hw : (s.worker id).step a = some w) :
    Inv { s with worker := setAt s.worker id w, chan := s.chan ++ (news (s.worker id) w).map (Prod.mk id) } := by
  obtain ⟨hf, new, hn, hp⟩ := worker_step (h.fine id hid) a hw
  rw [news_eq hn]
  refine ⟨h.calm, ?_, h.keys, ?_⟩
  · intro i hi
    simp only [setAt]
    split
    · exact hf
    · exact h.fine i hi
  · intro i
    obtain ⟨b, h1, h2⟩ := h.order i
    refine ⟨b, h1, ?_⟩
    simp only [msgsOf_append, play_append, h2, Option.bind_some]
    by_cases hi : i = id
    · subst hi
      rw [msgsOf_own]
      simp only [runs, hid, decide_true, Bool.true_and, setAt, if_true]
      exact hp
    · rw [msgsOf_other (Ne.symm hi)]
      simp only [play, runs, setAt, hi, if_false]

theorem inv_step {s s' : Sys D} (h : Inv s) (a : Lsp.Compile.Act D) (hc : Calm a = true) (hs : s.step a = some s') : Inv s' := by
  cases a with
  | worker id a =>
    simp only [Sys.step] at hs
    split at hs
    · rename_i hid
      split at hs
      · simp at hs
      · simp only [Option.map_eq_some_iff] at hs
        obtain ⟨w, hw, rfl⟩ := hs
        exact inv_worker h hid hw
    · simp at hs
  | old i a => simp [Sys.step, h.calm] at hs
  | turn k =>
    simp only [Sys.step] at hs
    split at hs
    · simp at hs
    · simp only [Option.some.injEq] at hs; subst hs
      refine ⟨h.calm, h.fine, h.keys, fun id => ?_⟩
      obtain ⟨b, h1, h2⟩ := h.order id
      rw [← List.take_append_drop (k + 1) s.chan, msgsOf_append, play_append, Option.bind_eq_some_iff] at h2
      obtain ⟨c, h3, h4⟩ := h2
      refine ⟨c, ?_, h4⟩
      rw [List.filter_append]
      exact handle_all _ id _ h1 h3
  | cancel token =>
    simp only [Sys.step] at hs
    split at hs
    · simp at hs
    · simp only [Option.some.injEq] at hs; subst hs
      unfold Sys.onCancel
      split
      · exact h
      · rename_i id _
        split
        · rename_i hid
          refine ⟨h.calm, ?_, h.keys, ?_⟩
          · intro i hi
            simp only [setAt]
            split
            · rename_i e; subst e; exact h.fine _ hid
            · exact h.fine i hi
          · intro i
            obtain ⟨b, h1, h2⟩ := h.order i
            refine ⟨b, h1, h2.trans ?_⟩
            simp only [runs, setAt]
            split
            · rename_i e; subst e; rfl
            · rfl
        · exact h
  | release =>
    simp only [Sys.step] at hs
    split at hs
    · simp at hs
    · simp only [Option.some.injEq] at hs; subst hs
      exact ⟨h.calm, h.fine, h.keys, h.order⟩
  | reload ids =>
    simp only [Sys.step] at hs
    split at hs
    · rename_i hg
      simp only [Bool.and_eq_true, List.all_eq_true, decide_eq_true_eq] at hg
      obtain ⟨⟨-, hend⟩, hk⟩ := hg
      simp only [Option.some.injEq] at hs; subst hs
      refine ⟨h.calm, fun _ _ => ⟨fun _ => rfl, by simp⟩, hk, fun id => ?_⟩
      obtain ⟨b, h1, h2⟩ := h.order id
      refine ⟨b, h1, h2.trans ?_⟩
      have : runs s id = false := by
        by_cases hid : id ∈ s.ids
        · simp [runs, (h.fine id hid).1 (.inr (hend id hid))]
        · simp [runs, hid]
      rw [this]; simp [runs]
    · simp at hs
  | reloadHeld ids => simp [Calm] at hc

theorem inv_run (acts : List (Lsp.Compile.Act D)) : ∀ (s s' : Sys D), Inv s → (∀ a ∈ acts, Calm a = true) → s.run acts = some s' → Inv s' := by
  induction acts with
  | nil => intro s s' h _ hs; simp only [Sys.run, Option.some.injEq] at hs; subst hs; exact h
  | cons a acts ih =>
    intro s s' h hc hs
    simp only [Sys.run, Option.bind_eq_some_iff] at hs
    obtain ⟨s1, h1, h2⟩ := hs
    exact ih s1 s' (inv_step h a (hc a List.mem_cons_self) h1) (fun b hb => hc b (List.mem_cons_of_mem _ hb)) h2

theorem inv_init : Inv ({} : Sys D) :=
  ⟨rfl, fun _ h => by simp at h, rfl, fun _ => ⟨false, .nothing, rfl⟩⟩

/-- **C86, progress.** In every run in which no workers are replaced under a save that is being handled: for each project the client sees
a progress that is created, begun and ended in turn, that the user can cancel while it is shown, and once the messages of the workers are
handled it is shown exactly if a compiler of the project is running. -/
theorem progress_partial (acts : List (Lsp.Compile.Act D)) (s : Sys D) (h : Sys.run {} acts = some s) (hc : ∀ a ∈ acts, Calm a = true) (id : Nat) :
    ∃ b, Shown (tokenOf id) b (s.out.filter (about (tokenOf id))) ∧ (s.chan = [] → (b = true ↔ Running s id)) := by
  obtain ⟨b, h1, h2⟩ := (inv_run acts _ _ inv_init hc h).order id
  refine ⟨b, h1, fun he => ?_⟩
  rw [he] at h2
  simp only [msgsOf, List.filterMap_nil, play, Option.some.injEq] at h2
  rw [← runs_iff, h2]

/-- **C86 is violated** when the workers are replaced while a save is still being handled: the client sees the progress of the project
begun twice, once while it is already shown, and ended while a compiler of the project is running. -/
theorem progress_refuted : ∃ (acts : List (Lsp.Compile.Act Nat)) (s : Sys Nat), Sys.run {} acts = some s ∧ s.chan = [] ∧ Running s 7 ∧
    s.out.filter (about (tokenOf 7)) = [.create (tokenOf 7), .begins (tokenOf 7) "spcomp check".toList true, .create (tokenOf 7),
      .begins (tokenOf 7) "spcomp check".toList true, .ends (tokenOf 7)] :=
  ⟨[.release, .reload [7], .reloadHeld [7], .old 0 (.send .restart), .old 0 .takeInbox, .old 0 (.timeout true),
    .worker 7 (.send .restart), .worker 7 .takeInbox, .worker 7 (.timeout true), .old 0 .drop, .old 0 .takeInbox, .turn 5],
    _, rfl, by decide +kernel, by decide +kernel, by decide +kernel⟩

/-! ### The status -/

/-- The status a message leads to. -/
def statusOf : Msg D → Option Bool
  | .didStart => some false
  | .didFinish | .didCancel => some true
  | _ => none

theorem handle_told (n id : Nat) (m : Msg D) : (handleMsg n id m).filterMap toldOf = (statusOf m).toList := by
  cases m <;> rfl

theorem handle_told_all (n : Nat) (ms : List (Nat × Msg D)) :
    (ms.flatMap fun m => handleMsg n m.1 m.2).filterMap toldOf = ms.filterMap fun m => statusOf m.2 := by
  induction ms with
  | nil => rfl
  | cons m ms ih =>
    rw [List.flatMap_cons, List.filterMap_append, ih, handle_told, List.filterMap_cons]
    cases statusOf m.2 <;> rfl

/-- The statuses sent, and those that follow from the messages not handled yet. -/
def statuses (s : Sys D) : List Bool := s.out.filterMap toldOf ++ s.chan.filterMap fun m => statusOf m.2

theorem play_status (ms : List (Msg D)) : ∀ {b b' : Bool}, play b ms = some b' →
    (ms.filterMap statusOf = [] ∧ b' = b) ∨ (ms.filterMap statusOf).getLast? = some (!b') := by
  induction ms with
  | nil => intro b b' h; simp only [play, Option.some.injEq] at h; exact .inl ⟨rfl, h.symm⟩
  | cons m ms ih =>
    intro b b' h
    simp only [play, Option.bind_eq_some_iff] at h
    obtain ⟨c, h1, h2⟩ := h
    rcases ih h2 with ⟨h3, h4⟩ | h3
    · subst h4
      cases m with
      | add d => simp only [play1, Option.some.injEq] at h1; exact .inl ⟨by rw [List.filterMap_cons]; exact h3, h1.symm⟩
      | didFailToRestart => simp only [play1, Option.some.injEq] at h1; exact .inl ⟨by rw [List.filterMap_cons]; exact h3, h1.symm⟩
      | didStart =>
        right
        cases b with
        | true => simp [play1] at h1
        | false => simp only [play1, Bool.false_eq_true, if_false, Option.some.injEq] at h1; subst h1; simp [statusOf, h3]
      | didFinish =>
        right
        cases b with
        | false => simp [play1] at h1
        | true => simp only [play1, if_true, Option.some.injEq] at h1; subst h1; simp [statusOf, h3]
      | didCancel =>
        right
        cases b with
        | false => simp [play1] at h1
        | true => simp only [play1, if_true, Option.some.injEq] at h1; subst h1; simp [statusOf, h3]
    · right
      rw [List.filterMap_cons]
      cases statusOf m with
      | none => exact h3
      | some x =>
        have : ms.filterMap statusOf ≠ [] := fun e => by rw [e] at h3; simp at h3
        rw [List.getLast?_cons, h3]; rfl

/-- What is told follows from what runs, and (with one project) conversely. -/
structure Told (one : Bool) (s : Sys D) : Prop where
  inv : Inv s
  busy : (statuses s).getLast? = some false → ∃ id, runs s id = true
  len : one = true → s.ids.length ≤ 1
  idle : one = true → ∀ id, runs s id = true → (statuses s).getLast? = some false

theorem told_same {one : Bool} {s s' : Sys D} (h : Told one s) (hi : Inv s') (h1 : statuses s' = statuses s) (h2 : s'.ids = s.ids)
    (h3 : ∀ id, runs s' id = runs s id) : Told one s' :=
  ⟨hi, fun hb => by rw [h1] at hb; obtain ⟨i, hb⟩ := h.busy hb; exact ⟨i, by rw [h3]; exact hb⟩, fun ho => by rw [h2]; exact h.len ho,
    fun ho i hr => by rw [h1]; exact h.idle ho i (by rw [← h3]; exact hr)⟩

theorem told_step {one : Bool} {s s' : Sys D} (h : Told one s) (a : Lsp.Compile.Act D) (hc : Calm a = true) (ho : one = true → OneProject a = true)
    (hs : s.step a = some s') : Told one s' := by
  have hi := inv_step h.inv a hc hs
  cases a with
  | worker id a =>
    simp only [Sys.step] at hs
    split at hs
    · rename_i hid
      split at hs
      · simp at hs
      · simp only [Option.map_eq_some_iff] at hs
        obtain ⟨w, hw, rfl⟩ := hs
        obtain ⟨hf, new, hn, hp⟩ := worker_step (h.inv.fine id hid) _ hw
        have hst : statuses { s with worker := setAt s.worker id w, chan := s.chan ++ (news (s.worker id) w).map (Prod.mk id) } =
            statuses s ++ new.filterMap statusOf := by
          simp only [statuses, news_eq hn, List.filterMap_append, List.filterMap_map, List.append_assoc]; rfl
        have hrun : runs { s with worker := setAt s.worker id w, chan := s.chan ++ (news (s.worker id) w).map (Prod.mk id) } id = w.handle.isSome := by
          simp [runs, hid, setAt]
        have hother : ∀ i, i ≠ id → runs { s with worker := setAt s.worker id w, chan := s.chan ++ (news (s.worker id) w).map (Prod.mk id) } i = runs s i := by
          intro i hne; simp [runs, setAt, hne]
        rcases play_status new hp with ⟨h1, h2⟩ | h1
        · refine told_same h hi (by rw [hst, h1, List.append_nil]) rfl fun i => ?_
          by_cases hne : i = id
          · subst hne; rw [hrun, h2]; simp [runs, hid]
          · exact hother i hne
        · have hl : (statuses s ++ new.filterMap statusOf).getLast? = some (!w.handle.isSome) := by
            rw [List.getLast?_append, h1]; rfl
          refine ⟨hi, ?_, h.len, ?_⟩
          · intro hb
            rw [hst, hl] at hb
            exact ⟨id, by rw [hrun]; simpa using hb⟩
          · intro hone i hr
            have hii : i = id := by
              have hmem : i ∈ s.ids := by simp only [runs, Bool.and_eq_true, decide_eq_true_eq] at hr; exact hr.1
              have := h.len hone
              match hids : s.ids, this with
              | [], _ => rw [hids] at hid; simp at hid
              | [x], _ => rw [hids] at hid hmem; simp only [List.mem_singleton] at hid hmem; rw [hid, hmem]
            subst hii
            rw [hrun] at hr
            rw [hst, hl, hr]; rfl
    · simp at hs
  | old i a => simp [Sys.step, h.inv.calm] at hs
  | turn k =>
    simp only [Sys.step] at hs
    split at hs
    · simp at hs
    · simp only [Option.some.injEq] at hs; subst hs
      refine told_same h hi ?_ rfl fun _ => rfl
      simp only [statuses, List.filterMap_append, handle_told_all, List.append_assoc]
      rw [← List.filterMap_append, List.take_append_drop]
  | cancel token =>
    simp only [Sys.step] at hs
    split at hs
    · simp at hs
    · simp only [Option.some.injEq] at hs; subst hs
      unfold Sys.onCancel at hi ⊢
      split
      · exact h
      · split
        · rename_i id _ hid
          refine told_same h ?_ rfl rfl fun i => ?_
          · rename_i he
            rw [he] at hi; simpa [hid] using hi
          · simp only [runs, setAt]
            split
            · rename_i e; subst e; rfl
            · rfl
        · exact h
  | release =>
    simp only [Sys.step] at hs
    split at hs
    · simp at hs
    · simp only [Option.some.injEq] at hs; subst hs
      exact told_same h hi rfl rfl fun _ => rfl
  | reload ids =>
    simp only [Sys.step] at hs
    split at hs
    · rename_i hg
      simp only [Bool.and_eq_true, List.all_eq_true, decide_eq_true_eq] at hg
      obtain ⟨⟨-, hend⟩, -⟩ := hg
      simp only [Option.some.injEq] at hs; subst hs
      refine ⟨hi, fun hb => ?_, fun hone => by simpa [OneProject] using ho hone, fun _ i hr => by simp [runs] at hr⟩
      obtain ⟨i, hr⟩ := h.busy hb
      simp only [runs, Bool.and_eq_true, decide_eq_true_eq] at hr
      rw [(h.inv.fine i hr.1).1 (.inr (hend i hr.1))] at hr
      simp at hr
    · simp at hs
  | reloadHeld ids => simp [Calm] at hc

theorem told_run {one : Bool} (acts : List (Lsp.Compile.Act D)) : ∀ (s s' : Sys D), Told one s → (∀ a ∈ acts, Calm a = true) →
    (one = true → ∀ a ∈ acts, OneProject a = true) → s.run acts = some s' → Told one s' := by
  induction acts with
  | nil => intro s s' h _ _ hs; simp only [Sys.run, Option.some.injEq] at hs; subst hs; exact h
  | cons a acts ih =>
    intro s s' h hc ho hs
    simp only [Sys.run, Option.bind_eq_some_iff] at hs
    obtain ⟨s1, h1, h2⟩ := hs
    exact ih s1 s' (told_step h a (hc a List.mem_cons_self) (fun hone => ho hone a List.mem_cons_self) h1)
      (fun b hb => hc b (List.mem_cons_of_mem _ hb)) (fun hone b hb => ho hone b (List.mem_cons_of_mem _ hb)) h2

theorem told_init (one : Bool) : Told one ({} : Sys D) := ⟨inv_init, fun h => by simp [statuses] at h, fun _ => by simp, fun _ i h => by simp [runs] at h⟩

theorem told_settled {s : Sys D} (h : s.chan = []) : told s.out = (statuses s).getLast? := by simp [told, statuses, h]

/-- **C86, the status is not stuck.** With any number of projects: if the last status says that a compiler is at work and the messages of
the workers are handled, then a compiler is running. -/
theorem busy_runs (acts : List (Lsp.Compile.Act D)) (s : Sys D) (h : Sys.run {} acts = some s) (hc : ∀ a ∈ acts, Calm a = true) (he : s.chan = [])
    (hb : told s.out = some false) : ∃ id, Running s id := by
  obtain ⟨i, hr⟩ := (told_run acts _ _ (told_init false) hc (by simp) h).busy (by rw [← told_settled he]; exact hb)
  exact ⟨i, (runs_iff s i).1 hr⟩

/-- **C86, the status, with one project.** If there is never more than one project: once the messages of the workers are handled, the last
status says that the compiler is at work exactly if it is. -/
theorem status_partial (acts : List (Lsp.Compile.Act D)) (s : Sys D) (h : Sys.run {} acts = some s) (hc : ∀ a ∈ acts, Calm a = true)
    (ho : ∀ a ∈ acts, OneProject a = true) (he : s.chan = []) : told s.out = some false ↔ ∃ id, Running s id := by
  refine ⟨busy_runs acts s h hc he, ?_⟩
  rintro ⟨i, hr⟩
  rw [told_settled he]
  exact (told_run acts _ _ (told_init true) hc (fun _ => ho) h).idle rfl i ((runs_iff s i).2 hr)

/-- **C86 is violated** with two projects: the compiler of one finishes while that of the other runs, and the client is told that no
compiler is at work. -/
theorem status_refuted : ∃ (acts : List (Lsp.Compile.Act Nat)) (s : Sys Nat), Sys.run {} acts = some s ∧ (∀ a ∈ acts, Calm a = true) ∧ s.chan = [] ∧
    Running s 4 ∧ told s.out = some true :=
  ⟨[.release, .reload [3, 4], .worker 3 (.send .restart), .worker 4 (.send .restart), .worker 3 .takeInbox, .worker 4 .takeInbox,
    .worker 3 (.timeout true), .worker 4 (.timeout true), .worker 3 .eof, .worker 3 .takeOutput, .turn 5],
    _, rfl, by simp [Calm], by decide +kernel, by decide +kernel, by decide +kernel⟩

/-! ### Cancelling -/

/-- **C86, the button.** Cancelling the progress of a project sends the worker of this project, and nobody else, the wish to stop. -/
theorem cancel_reaches (acts : List (Lsp.Compile.Act D)) (s : Sys D) (h : Sys.run {} acts = some s) (hc : ∀ a ∈ acts, Calm a = true) {id : Nat}
    (hid : id ∈ s.ids) : ((s.onCancel (tokenOf id)).worker id).inbox = (s.worker id).inbox ++ [.cancel] ∧
      (∀ i, i ≠ id → (s.onCancel (tokenOf id)).worker i = s.worker i) ∧
      (s.onCancel (tokenOf id)).ids = s.ids ∧ (s.onCancel (tokenOf id)).chan = s.chan ∧ (s.onCancel (tokenOf id)).out = s.out := by
  have hk := (inv_run acts _ _ inv_init hc h).keys
  simp only [keysOk, Bool.and_eq_true, List.all_eq_true, decide_eq_true_eq] at hk
  unfold Sys.onCancel
  rw [idOf_token (hk.2 id hid)]
  simp only [hid, if_true]
  exact ⟨by simp [setAt], fun i hi => by simp [setAt, hi], trivial, trivial, trivial⟩

/-- Cancelling another progress changes nothing. -/
theorem cancel_other (s : Sys D) (token : Str) (h : ¬ tokenPrefix <+: token) : s.onCancel token = s := by
  have : stripPrefix tokenPrefix token = none := by
    cases hs : stripPrefix tokenPrefix token with
    | none => rfl
    | some r => exact absurd ⟨r, (strip_some hs).symm⟩ h
  simp [Sys.onCancel, idOf, this]

/-- The progress a message is about. -/
def progressOf : Out → Option Str
  | .compiling _ => none
  | .create t | .begins t _ _ | .reports t _ | .ends t => some t

/-- **C86, tokens.** What is sent about the scan of the folders and about indexing (main_loop.rs:481-487,644) never has the token of a
compiler or of the other one, it cannot be cancelled, and cancelling it all the same reaches no compiler. -/
theorem others_apart (title title' : Str) (k k' : Lsp.Compile.Kind) (hne : title ≠ title') :
    (∀ o ∈ reportProgress title k none, ∀ o' ∈ reportProgress title' k' none, progressOf o ≠ progressOf o') ∧
    (∀ o ∈ reportProgress title k none, ∀ id, progressOf o ≠ some (tokenOf id)) ∧
    (∀ o ∈ reportProgress title k none, ∀ t l c, o = .begins t l c → c = false) ∧
    (∀ o ∈ reportProgress title k none, ∀ t, progressOf o = some t → ∀ s : Sys D, s.onCancel t = s) := by
  have e1 : "rustAnalyzer/".toList = 'r' :: "ustAnalyzer/".toList := by decide
  have e2 : tokenPrefix = 's' :: "ourcepawn-lsp/flycheck/".toList := by decide
  have tok : ∀ (title : Str) (k : Lsp.Compile.Kind), ∀ o ∈ reportProgress title k none, progressOf o = some ("rustAnalyzer/".toList ++ title) := by
    intro title k o ho
    cases k <;> simp only [reportProgress, Option.getD_none, List.mem_cons, List.not_mem_nil, or_false] at ho
    · rcases ho with rfl | rfl <;> rfl
    · subst ho; rfl
    · subst ho; rfl
  refine ⟨?_, ?_, ?_, ?_⟩
  · intro o ho o' ho'
    rw [tok _ _ o ho, tok _ _ o' ho']
    intro h
    exact hne (List.append_cancel_left (Option.some.inj h))
  · intro o ho id
    rw [tok _ _ o ho]
    intro h
    have h' := Option.some.inj h
    rw [e1, tokenOf, e2] at h'
    simp at h'
  · rintro o ho t l c rfl
    cases k <;> simp [reportProgress] at ho
    exact ho.2.2
  · intro o ho t ht s
    rw [tok _ _ o ho] at ht
    cases ht
    refine cancel_other s _ ?_
    rintro ⟨r, hr⟩
    rw [e1, e2] at hr
    simp at hr

example : reportProgress "Indexing".toList .begin_ none =
    [.create "rustAnalyzer/Indexing".toList, .begins "rustAnalyzer/Indexing".toList "Indexing".toList false] := by decide

/-- The wish to stop is under way, or has been followed. -/
def Stopping (w : St D) : Prop := (∃ pre, w.inbox = pre ++ [.cancel]) ∨ (w.inbox = [] ∧ w.handle = none ∧ w.mode ≠ .debouncing)

theorem stopping_step {w w' : St D} (hf : Fine w) (h : Stopping w) (a : Flycheck.Act D) (ha : ∀ c, a = .send c → c = .cancel) (hs : w.step a = some w') :
    Stopping w' := by
  have keep : ∀ w' : St D, w'.inbox = w.inbox → (w.handle = none → w'.handle = none) → (w.mode ≠ .debouncing → w'.mode ≠ .debouncing) → Stopping w' := by
    intro w' h1 h2 h3
    rcases h with ⟨pre, h⟩ | ⟨h4, h5, h6⟩
    · exact .inl ⟨pre, by rw [h1, h]⟩
    · exact .inr ⟨by rw [h1, h4], h2 h5, h3 h6⟩
  have body : ∀ a : Flycheck.Act D, (match w.mode with
      | .waiting =>
        match w.nextEvent a with
        | none => none
        | some (some e, s') => some (s'.onEvent e)
        | some (none, s') => some { s'.cancelCheck with mode := .ended }
      | .debouncing =>
        match a with
        | .takeInbox =>
          match w.inbox with
          | .restart :: cs => some { w with inbox := cs }
          | .cancel :: cs => some { w with inbox := cs, mode := .waiting }
          | [] => none
        | .timeout starts => if w.inbox = [] then some (w.start starts) else none
        | _ => none
      | .ended | .panicked => none) = some w' → Stopping w' := by
    intro a hs
    cases hm : w.mode with
    | waiting =>
      rw [hm] at hs
      simp only at hs
      cases hn : w.nextEvent a with
      | none => rw [hn] at hs; simp at hs
      | some p =>
        obtain ⟨e, s1⟩ := p
        rw [hn] at hs
        cases a with
        | takeInbox =>
          simp only [St.nextEvent] at hn
          split at hn
          · rename_i c cs hin
            simp only [Option.some.injEq, Prod.mk.injEq] at hn
            obtain ⟨rfl, rfl⟩ := hn
            simp only [Option.some.injEq] at hs
            subst hs
            obtain ⟨-, -, -, h3, h4, h5⟩ := cancelCheck_new ({ w with inbox := cs } : St D)
            rcases h with ⟨pre, h⟩ | ⟨h6, -, -⟩
            · cases pre with
              | nil =>
                rw [hin] at h
                simp only [List.nil_append, List.cons.injEq] at h
                obtain ⟨rfl, rfl⟩ := h
                refine .inr ⟨h5, h3, ?_⟩
                show St.mode (St.cancelCheck _) ≠ _
                rw [h4]; show w.mode ≠ _; rw [hm]; simp
              | cons d pre =>
                rw [hin, List.cons_append, List.cons.injEq] at h
                refine .inl ⟨pre, ?_⟩
                cases c <;> (simp only [St.onEvent]; rw [h5]; exact h.2)
            · rw [hin] at h6; simp at h6
          · rename_i hin
            split at hn
            · simp only [Option.some.injEq, Prod.mk.injEq] at hn
              obtain ⟨rfl, rfl⟩ := hn
              simp only [Option.some.injEq] at hs
              subst hs
              obtain ⟨-, -, -, h3, -, h5⟩ := cancelCheck_new w
              exact .inr ⟨by simp only []; rw [h5, hin], h3, by simp⟩
            · simp at hn
        | takeOutput =>
          simp only [St.nextEvent] at hn
          split at hn
          · simp at hn
          · rename_i c hc
            split at hn
            · simp only [Option.some.injEq, Prod.mk.injEq] at hn
              obtain ⟨rfl, rfl⟩ := hn
              simp only [Option.some.injEq] at hs
              subst hs
              exact keep _ rfl (fun h => by rw [hc] at h; simp at h) (fun h => h)
            · split at hn
              · simp only [Option.some.injEq, Prod.mk.injEq] at hn
                obtain ⟨rfl, rfl⟩ := hn
                simp only [Option.some.injEq, St.onEvent, hc] at hs
                subst hs
                exact keep _ rfl (fun _ => rfl) (fun h => h)
              · simp at hn
        | _ => simp [St.nextEvent] at hn
    | debouncing =>
      rw [hm] at hs
      simp only at hs
      have hh := hf.1 (.inl hm)
      rcases h with ⟨pre, h⟩ | ⟨-, -, h6⟩
      · cases a with
        | takeInbox =>
          simp only at hs
          split at hs
          · rename_i cs hin
            simp only [Option.some.injEq] at hs; subst hs
            cases pre with
            | nil => rw [hin] at h; simp at h
            | cons d pre => rw [hin, List.cons_append, List.cons.injEq] at h; exact .inl ⟨pre, h.2⟩
          · rename_i cs hin
            simp only [Option.some.injEq] at hs; subst hs
            cases pre with
            | nil => rw [hin] at h; simp only [List.nil_append, List.cons.injEq, true_and] at h; exact .inr ⟨h, hh, by simp⟩
            | cons d pre => rw [hin, List.cons_append, List.cons.injEq] at h; exact .inl ⟨pre, h.2⟩
          · simp at hs
        | timeout b =>
          simp only at hs
          split at hs
          · rename_i hin; rw [hin] at h; simp at h
          · simp at hs
        | _ => simp at hs
      · exact absurd hm h6
    | ended => rw [hm] at hs; simp at hs
    | panicked => rw [hm] at hs; simp at hs
  cases a with
  | send c =>
    simp only [St.step] at hs
    split at hs
    · simp at hs
    · simp only [Option.some.injEq] at hs; subst hs
      exact .inl ⟨w.inbox, by rw [ha c rfl]⟩
  | drop => simp only [St.step, Option.some.injEq] at hs; subst hs; exact keep _ rfl (fun h => h) (fun h => h)
  | output d =>
    simp only [St.step] at hs
    split at hs
    · rename_i c hc
      split at hs
      · simp at hs
      · simp only [Option.some.injEq] at hs; subst hs
        exact keep _ rfl (fun h => by rw [hc] at h; simp at h) (fun h => h)
    · simp at hs
  | eof =>
    simp only [St.step] at hs
    split at hs
    · rename_i c hc
      simp only [Option.some.injEq] at hs; subst hs
      exact keep _ rfl (fun h => by rw [hc] at h; simp at h) (fun h => h)
    · simp at hs
  | takeInbox => exact body .takeInbox hs
  | takeOutput => exact body .takeOutput hs
  | timeout b => exact body (.timeout b) hs

theorem stopping_run {id : Nat} (acts : List (Lsp.Compile.Act D)) : ∀ (s s' : Sys D), Inv s → id ∈ s.ids → Stopping (s.worker id) →
    (∀ a ∈ acts, asksFor id a = false) → s.run acts = some s' → Inv s' ∧ id ∈ s'.ids ∧ Stopping (s'.worker id) := by
  induction acts with
  | nil => intro s s' h hid hst _ hs; simp only [Sys.run, Option.some.injEq] at hs; subst hs; exact ⟨h, hid, hst⟩
  | cons a acts ih =>
    intro s s' h hid hst ha hs
    simp only [Sys.run, Option.bind_eq_some_iff] at hs
    obtain ⟨s1, h1, h2⟩ := hs
    have haa := ha a List.mem_cons_self
    have hi := inv_step h a (by cases a <;> simp_all [Calm, asksFor]) h1
    suffices hx : id ∈ s1.ids ∧ Stopping (s1.worker id) from ih s1 s' hi hx.1 hx.2 (fun b hb => ha b (List.mem_cons_of_mem _ hb)) h2
    cases a with
    | worker i a =>
      simp only [Sys.step] at h1
      split at h1
      · split at h1
        · simp at h1
        · simp only [Option.map_eq_some_iff] at h1
          obtain ⟨w, hw, rfl⟩ := h1
          refine ⟨hid, ?_⟩
          simp only [setAt]
          split
          · rename_i e
            subst e
            refine stopping_step (h.fine _ hid) hst _ (fun c hc => ?_) hw
            subst hc
            cases c with
            | cancel => rfl
            | restart => simp [asksFor] at haa
          · exact hst
      · simp at h1
    | old i a => simp [Sys.step, h.calm] at h1
    | turn k =>
      simp only [Sys.step] at h1
      split at h1
      · simp at h1
      · simp only [Option.some.injEq] at h1; subst h1; exact ⟨hid, hst⟩
    | cancel token =>
      simp only [Sys.step] at h1
      split at h1
      · simp at h1
      · simp only [Option.some.injEq] at h1; subst h1
        unfold Sys.onCancel
        split
        · exact ⟨hid, hst⟩
        · split
          · refine ⟨hid, ?_⟩
            simp only [setAt]
            split
            · rename_i e; subst e; exact .inl ⟨_, rfl⟩
            · exact hst
          · exact ⟨hid, hst⟩
    | release => simp [asksFor] at haa
    | reload ids => simp [asksFor] at haa
    | reloadHeld ids => simp [asksFor] at haa

/-- **C86, cancelling.** After the user has cancelled the progress of a project, if nobody asks for a new run, then once its worker has
received all that was sent to it, no compiler of the project is running, and once the main loop has handled the messages of the workers the
progress is no longer shown. -/
theorem cancel_stops (acts acts' : List (Lsp.Compile.Act D)) (s s1 s2 : Sys D) (h : Sys.run {} acts = some s) (hc : ∀ a ∈ acts, Calm a = true) {id : Nat}
    (hid : id ∈ s.ids) (h1 : s.step (.cancel (tokenOf id)) = some s1) (h2 : s1.run acts' = some s2) (ha : ∀ a ∈ acts', asksFor id a = false)
    (he : (s2.worker id).inbox = []) : ¬ Running s2 id ∧ (s2.worker id).mode ≠ .debouncing ∧
      (s2.chan = [] → Shown (tokenOf id) false (s2.out.filter (about (tokenOf id)))) := by
  have hi := inv_run acts _ _ inv_init hc h
  have hi1 := inv_step hi _ rfl h1
  have hr := cancel_reaches acts s h hc hid
  simp only [Sys.step] at h1
  split at h1
  · simp at h1
  · simp only [Option.some.injEq] at h1; subst h1
    obtain ⟨i2, hid2, hst⟩ := stopping_run acts' _ _ hi1 (by rw [hr.2.2.1]; exact hid) (.inl ⟨_, hr.1⟩) ha h2
    rcases hst with ⟨pre, hp⟩ | ⟨-, hh, hm⟩
    · rw [he] at hp; simp at hp
    · have hn : ¬ Running s2 id := fun hr => by have := hr.2; rw [hh] at this; simp at this
      refine ⟨hn, hm, fun hch => ?_⟩
      obtain ⟨b, hb1, hb2⟩ := i2.order id
      rw [hch] at hb2
      simp only [msgsOf, List.filterMap_nil, play, Option.some.injEq] at hb2
      cases b with
      | false => exact hb1
      | true => exact absurd ((runs_iff s2 id).1 hb2.symm) hn

/-- With several workers, their progress has different titles. -/
theorem titles_differ {n a b : Nat} (hn : n ≠ 1) (h : titleOf n a = titleOf n b) : a = b := by
  simp only [titleOf, hn, if_false] at h
  exact Nat.succ.inj (shown_inj (List.append_cancel_left (List.append_cancel_right h)))

/-! ### Examples -/

/-- Two projects: both compilers start, one finishes, the user cancels the other, and its worker stops. -/
def busyDay : List (Lsp.Compile.Act Nat) :=
  [.release, .reload [3, 40], .worker 3 (.send .restart), .worker 40 (.send .restart), .worker 3 .takeInbox, .worker 40 .takeInbox,
    .worker 3 (.timeout true), .worker 40 (.timeout true), .worker 3 .eof, .worker 3 .takeOutput, .turn 2]

def afterDay : List (Lsp.Compile.Act Nat) := [.worker 40 (.output 9), .worker 40 .takeInbox, .turn 0]

example : ∃ s s1 s2, Sys.run {} busyDay = some s ∧ (∀ a ∈ busyDay, Calm a = true) ∧ 40 ∈ s.ids ∧ s.step (.cancel (tokenOf 40)) = some s1 ∧
    s1.run afterDay = some s2 ∧ (∀ a ∈ afterDay, asksFor 40 a = false) ∧ (s2.worker 40).inbox = [] ∧ s2.chan = [] ∧ Running s 40 ∧
    s.out.filter (about (tokenOf 40)) = [.create "sourcepawn-lsp/flycheck/40".toList,
      .begins "sourcepawn-lsp/flycheck/40".toList "spcomp check (#41)".toList true] ∧
    s2.out.filter (about (tokenOf 40)) = [.create "sourcepawn-lsp/flycheck/40".toList,
      .begins "sourcepawn-lsp/flycheck/40".toList "spcomp check (#41)".toList true, .ends "sourcepawn-lsp/flycheck/40".toList] :=
  ⟨_, _, _, rfl, by simp [busyDay, Calm], by decide +kernel, rfl, rfl, by simp [afterDay, asksFor], by decide +kernel, by decide +kernel, by decide +kernel,
    by decide +kernel, by decide +kernel⟩

/-- One project, replaced by another while its compiler runs. -/
def oneDay : List (Lsp.Compile.Act Nat) :=
  [.release, .reload [3], .worker 3 (.send .restart), .worker 3 .takeInbox, .worker 3 (.timeout true), .turn 0, .release, .worker 3 .takeInbox, .reload [4],
    .worker 4 (.send .restart), .worker 4 .takeInbox, .worker 4 (.timeout true), .turn 2]

example : ∃ s, Sys.run {} oneDay = some s ∧ (∀ a ∈ oneDay, Calm a = true) ∧ (∀ a ∈ oneDay, OneProject a = true) ∧ s.chan = [] ∧ Running s 4 ∧
    s.out.filterMap toldOf = [false, true, false] :=
  ⟨_, rfl, by simp [oneDay, Calm], by simp [oneDay, OneProject], by decide +kernel, by decide +kernel, by decide +kernel⟩

/-- The tokens of the other two progresses are not tokens of workers. -/
example : ¬ tokenPrefix <+: "rustAnalyzer/Indexing".toList ∧ ¬ tokenPrefix <+: "rustAnalyzer/Roots Scanned".toList := by decide +kernel

end Verif.Props.Compile
