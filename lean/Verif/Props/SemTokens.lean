import Verif.Lsp.SemTokens
/-! # C35, C36, C37: semantic tokens -/

namespace Verif.Props.SemTokens
open Verif.Lsp.SemTokens Verif.Lsp.SemTokens.Spec

theorem flat_append (a b : List Tok) : flat (a ++ b) = flat a ++ flat b := by simp [flat]

theorem flat_length (a : List Tok) : (flat a).length = 5 * a.length := by
  induction a with
  | nil => rfl
  | cons t l ih =>
    have : flat (t :: l) = t.flat ++ flat l := rfl
    rw [this, List.length_append, ih]; simp [Tok.flat]; omega

theorem commonPrefix_le (a b : List Tok) : commonPrefix a b ≤ a.length ∧ commonPrefix a b ≤ b.length := by
  fun_induction commonPrefix a b <;> simp_all

theorem commonPrefix_take (a b : List Tok) : a.take (commonPrefix a b) = b.take (commonPrefix a b) := by
  fun_induction commonPrefix a b <;> simp_all

theorem take_reverse_eq {a b : List Tok} {n : Nat} (h : a.reverse.take n = b.reverse.take n) :
    a.drop (a.length - n) = b.drop (b.length - n) := by
  have := congrArg List.reverse h
  simpa [List.reverse_take] using this

/-- **C35**. The edits returned for an old and a new token list, applied to the old `data` array, give the new one. -/
theorem diff_correct (old new : List Tok) : applyEdits (flat old) (diffTokens old new) = flat new := by
  have hp := commonPrefix_take new old
  have hpl := commonPrefix_le new old
  generalize hk : commonPrefix new old = k at hp hpl
  have hs := commonPrefix_take (new.drop k).reverse (old.drop k).reverse
  have hsl := commonPrefix_le (new.drop k).reverse (old.drop k).reverse
  generalize hm : commonPrefix (new.drop k).reverse (old.drop k).reverse = m at hs hsl
  have hs' := take_reverse_eq hs
  simp only [List.length_reverse] at hsl
  -- decompose both lists
  have hold : old = new.take k ++ ((old.drop k).take ((old.drop k).length - m) ++
      (old.drop k).drop ((old.drop k).length - m)) := by
    rw [List.take_append_drop, hp, List.take_append_drop]
  have hnew : new = new.take k ++ ((new.drop k).take ((new.drop k).length - m) ++
      (new.drop k).drop ((new.drop k).length - m)) := by
    rw [List.take_append_drop, List.take_append_drop]
  rw [← hs'] at hold
  simp only [diffTokens, hk, hm]
  generalize ho' : (old.drop k).take ((old.drop k).length - m) = o' at hold
  generalize hn' : (new.drop k).take ((new.drop k).length - m) = n' at hnew
  generalize hsuf : (new.drop k).drop ((new.drop k).length - m) = suf at hold hnew
  have hkl : (new.take k).length = k := by simp; omega
  generalize hpre : new.take k = pre at hold hnew hkl
  by_cases he : (o'.isEmpty && n'.isEmpty) = true
  · simp only [he, if_true, applyEdits, List.foldr_nil]
    simp at he
    rw [hold, hnew, he.1, he.2]
  · simp only [he, Bool.false_eq_true, if_false]
    simp only [applyEdits, applyEdit, List.foldr_cons, List.foldr_nil]
    conv => lhs; rw [hold]
    conv => rhs; rw [hnew]
    simp only [flat_append]
    have h5 : (flat pre).length = 5 * k := by rw [flat_length, hkl]
    have h5o : (flat o').length = 5 * o'.length := flat_length _
    rw [List.take_append_of_le_length (by omega), ← h5, List.take_length,
      ← List.drop_drop, List.drop_left, ← h5o, List.drop_left]
    simp

/-- A change in the middle, an insertion and a deletion. -/
example : diffTokens [⟨1,2,3,4,5⟩, ⟨0,9,1,1,0⟩, ⟨6,7,8,9,10⟩] [⟨1,2,3,4,5⟩, ⟨0,9,2,1,0⟩, ⟨1,1,1,1,1⟩, ⟨6,7,8,9,10⟩] =
    [⟨5, 5, [⟨0,9,2,1,0⟩, ⟨1,1,1,1,1⟩]⟩] := by decide

/-- At most one edit is sent, and none when nothing changed. -/
theorem diff_minimal (old new : List Tok) : (diffTokens old new).length ≤ 1 ∧ (diffTokens old old) = [] := by
  constructor
  · simp only [diffTokens]; split <;> simp
  · have : ∀ l : List Tok, commonPrefix l l = l.length := by
      intro l; induction l with
      | nil => rfl
      | cons a l ih => simp [commonPrefix, ih]
    simp [diffTokens, this]

/-! ### C36 -/

theorem push_data {b b' : Builder} {t : Abs} (h : b.push t = some b') : b'.data ≠ [] ∧ b'.prevLine = t.line ∧ b'.prevChar = t.start := by
  simp only [Builder.push, Option.bind_eq_some_iff, Option.map_eq_some_iff] at h
  obtain ⟨pos, _, len, _, rfl⟩ := h
  simp

/-- Pushing after a token at `(line, char)`. -/
theorem push_next (b : Builder) (t : Abs) (hb : b.data ≠ []) :
    (∃ b', b.push t = some b') ↔
      (b.prevLine < t.line ∨ (b.prevLine = t.line ∧ b.prevChar ≤ t.start)) ∧ t.start ≤ t.stop := by
  have he : b.data.isEmpty = false := by simpa using hb
  simp only [Builder.push, Builder.pos, he, sub?]
  by_cases h1 : b.prevLine ≤ t.line
  · by_cases h2 : t.line - b.prevLine = 0
    · by_cases h3 : b.prevChar ≤ t.start <;> by_cases h4 : t.start ≤ t.stop <;> simp [h1, h2, h3, h4] <;> omega
    · by_cases h4 : t.start ≤ t.stop <;> simp [h1, h2, h4]; omega
  · simp [h1]; omega

theorem push_tok (b : Builder) (t : Abs) (hb : b.data ≠ []) {b'} (h : b.push t = some b') :
    ∃ k, b'.data = b.data ++ [k] ∧ ∀ ts, decodeFrom b.prevLine b.prevChar (k :: ts) = t :: decodeFrom t.line t.start ts := by
  have he : b.data.isEmpty = false := by simpa using hb
  have hok := (push_next b t hb).1 ⟨b', h⟩
  simp only [Builder.push, Builder.pos, he, sub?] at h
  have h1 : b.prevLine ≤ t.line := by omega
  have h4 : t.start ≤ t.stop := hok.2
  by_cases h2 : t.line - b.prevLine = 0
  · have h3 : b.prevChar ≤ t.start := by omega
    simp [h1, h2, h3, h4] at h
    subst h
    refine ⟨_, rfl, fun ts => ?_⟩
    have e1 : b.prevLine = t.line := by omega
    have e2 : b.prevChar + (t.start - b.prevChar) = t.start := by omega
    have e3 : t.start + (t.stop - t.start) = t.stop := by omega
    cases t
    simp only [decodeFrom] at *
    simp [e1, e2, e3]
  · simp [h1, h2, h4] at h
    subst h
    refine ⟨_, rfl, fun ts => ?_⟩
    have e1 : b.prevLine + (t.line - b.prevLine) = t.line := by omega
    have e3 : t.start + (t.stop - t.start) = t.stop := by omega
    cases t
    simp only [decodeFrom] at *
    simp [e1, h2, e3]

theorem pushAll_spec (l : List Abs) : ∀ (b : Builder) (a : Abs), b.data ≠ [] → b.prevLine = a.line → b.prevChar = a.start →
    a.start ≤ a.stop →
    ((b.pushAll l).isSome ↔ Ordered (a :: l)) ∧
    ∀ b', b.pushAll l = some b' → ∃ ks, b'.data = b.data ++ ks ∧ decodeFrom a.line a.start ks = l := by
  induction l with
  | nil =>
    intro b a _ _ _ ha
    refine ⟨by simp [Builder.pushAll, Ordered, ha], ?_⟩
    intro b' h
    simp [Builder.pushAll] at h
    subst h
    exact ⟨[], by simp, rfl⟩
  | cons t ts ih =>
    intro b a hb hl hc ha
    have hn := push_next b t hb
    cases hp : b.push t with
    | none =>
      simp only [Builder.pushAll, hp]
      refine ⟨?_, by simp⟩
      simp only [Option.isSome_none, Bool.false_eq_true, Ordered, false_iff]
      rintro ⟨_, h1, h2⟩
      have : ∃ b', b.push t = some b' := by
        rw [hn]
        refine ⟨by rw [hl, hc]; exact h1, ?_⟩
        cases ts with
        | nil => exact h2
        | cons => exact h2.1
      rw [hp] at this; simp at this
    | some b1 =>
      obtain ⟨hne, e1, e2⟩ := push_data hp
      have hok := hn.1 ⟨b1, hp⟩
      obtain ⟨h1, h2⟩ := ih b1 t hne e1 e2 hok.2
      obtain ⟨k, hk, hdec⟩ := push_tok b t hb hp
      simp only [Builder.pushAll, hp]
      refine ⟨?_, ?_⟩
      · rw [h1]
        simp only [Ordered]
        constructor
        · intro h; exact ⟨ha, by rw [hl, hc] at hok; exact hok.1, h⟩
        · intro h; exact h.2.2
      · intro b' hb'
        obtain ⟨ks, hks, hd⟩ := h2 b' hb'
        refine ⟨k :: ks, by rw [hks, hk]; simp, ?_⟩
        rw [← hl, ← hc, hdec, hd]

/-- **C36**. Encoding succeeds (does not panic) exactly on tokens in document order that do not end before they start,
and then decoding what is sent gives back exactly the tokens. -/
theorem encode_lossless (l : List Abs) :
    ((encode l).isSome ↔ Ordered l) ∧ ∀ toks, encode l = some toks → decode toks = l := by
  cases l with
  | nil => simp [encode, Builder.pushAll, Ordered, Builder.new, decode, decodeFrom]
  | cons t ts =>
    simp only [encode, Builder.pushAll]
    by_cases h : t.start ≤ t.stop
    · have hp : Builder.new.push t = some ⟨t.line, t.start, [⟨t.line, t.start, t.stop - t.start, t.type, t.mods⟩]⟩ := by
        simp [Builder.push, Builder.pos, Builder.new, sub?, h]
      obtain ⟨h1, h2⟩ := pushAll_spec ts ⟨t.line, t.start, [⟨t.line, t.start, t.stop - t.start, t.type, t.mods⟩]⟩ t
        (by simp) rfl rfl h
      simp only [hp, Option.isSome_map]
      refine ⟨h1, ?_⟩
      intro toks htoks
      simp only [Option.map_eq_some_iff] at htoks
      obtain ⟨b', hb', rfl⟩ := htoks
      obtain ⟨ks, hks, hd⟩ := h2 b' hb'
      rw [hks]
      have e3 : t.start + (t.stop - t.start) = t.stop := by omega
      cases t with
      | mk line start stop type mods =>
        simp only [List.cons_append, List.nil_append, decode, decodeFrom, Nat.zero_add] at *
        simp [e3, hd]
    · have hp : Builder.new.push t = none := by simp [Builder.push, Builder.pos, Builder.new, sub?, h]
      simp only [hp]
      refine ⟨?_, by simp⟩
      simp only [Option.map_none, Option.isSome_none, Bool.false_eq_true, false_iff]
      cases ts with
      | nil => exact h
      | cons => intro h'; exact h h'.1

/-- Two tokens on one line and one on a later line. -/
example : Ordered [⟨2, 4, 7, 1, 0⟩, ⟨2, 9, 9, 2, 1⟩, ⟨5, 0, 3, 1, 4⟩] ∧
    encode [⟨2, 4, 7, 1, 0⟩, ⟨2, 9, 9, 2, 1⟩, ⟨5, 0, 3, 1, 4⟩] = some [⟨2, 4, 3, 1, 0⟩, ⟨0, 5, 0, 2, 1⟩, ⟨3, 0, 3, 1, 4⟩] := by
  refine ⟨?_, by decide⟩
  simp [Ordered, Le]

/-! ### C37 -/

/-- Facts about one handler. -/
def HandlerOK (s : St) : Handler → Prop
  | .fullComputed id d => (id, d) ∈ s.issued
  | .deltaComputed _ id d => (id, d) ∈ s.issued
  | .deltaTaken _ id d t => (id, d) ∈ s.issued ∧ ∀ e, t = some e → e ∈ s.issued
  | _ => True

def ResponseOK (issued : List (Nat × List Tok)) : Response → Prop
  | .full id d => (id, d) ∈ issued
  | .delta id base es => ∃ d bd, (id, d) ∈ issued ∧ (base, bd) ∈ issued ∧ es = diffTokens bd d

structure Inv (s : St) : Prop where
  lt : ∀ e ∈ s.issued, e.1 < s.counter
  uniq : (s.issued.map (·.1)).Nodup
  cache : ∀ e, s.cache = some e → e ∈ s.issued
  handlers : ∀ h ∈ s.handlers, HandlerOK s h
  responses : ∀ r ∈ s.responses, ResponseOK s.issued r

theorem HandlerOK.mono {s s' : St} (h : ∀ e ∈ s.issued, e ∈ s'.issued) {x : Handler} (hx : HandlerOK s x) :
    HandlerOK s' x := by
  cases x <;> simp only [HandlerOK] at hx ⊢
  · exact h _ hx
  · exact h _ hx
  · exact ⟨h _ hx.1, fun e he => h _ (hx.2 e he)⟩

theorem ResponseOK.mono {a b : List (Nat × List Tok)} (h : ∀ e ∈ a, e ∈ b) {x : Response} (hx : ResponseOK a x) :
    ResponseOK b x := by
  cases x <;> simp only [ResponseOK] at hx ⊢
  · exact h _ hx
  · obtain ⟨d, bd, h1, h2, h3⟩ := hx
    exact ⟨d, bd, h _ h1, h _ h2, h3⟩

theorem mem_set {l : List Handler} {i : Nat} {a x : Handler} (h : x ∈ l.set i a) : x ∈ l ∨ x = a :=
  List.mem_or_eq_of_mem_set h

theorem nodup_snoc {l : List (Nat × List Tok)} {n : Nat} {d : List Tok} (h : (l.map (·.1)).Nodup)
    (hl : ∀ e ∈ l, e.1 < n) : ((l ++ [(n, d)]).map (·.1)).Nodup := by
  simp only [List.map_append, List.map_cons, List.map_nil]
  rw [List.nodup_append]
  refine ⟨h, by simp, ?_⟩
  intro a ha b hb
  simp at ha hb
  obtain ⟨x, hx⟩ := ha
  have := hl _ hx
  simp at this
  omega

theorem step_inv {s : St} (h : Inv s) (a : Act) : Inv (s.step a) ∧ ∀ e ∈ s.issued, e ∈ (s.step a).issued := by
  cases a with
  | reqFull =>
    refine ⟨⟨h.lt, h.uniq, h.cache, ?_, h.responses⟩, fun e he => he⟩
    intro x hx
    simp [St.step] at hx
    rcases hx with hx | rfl
    · exact (h.handlers x hx).mono (fun _ he => he)
    · trivial
  | reqDelta p =>
    refine ⟨⟨h.lt, h.uniq, h.cache, ?_, h.responses⟩, fun e he => he⟩
    intro x hx
    simp [St.step] at hx
    rcases hx with hx | rfl
    · exact (h.handlers x hx).mono (fun _ he => he)
    · trivial
  | otherId =>
    exact ⟨⟨fun e he => Nat.lt_succ_of_lt (h.lt e he), h.uniq, h.cache,
      fun x hx => (h.handlers x hx).mono (fun _ he => he), h.responses⟩, fun e he => he⟩
  | drop =>
    exact ⟨⟨h.lt, h.uniq, by simp [St.step], fun x hx => (h.handlers x hx).mono (fun _ he => he), h.responses⟩, fun e he => he⟩
  | compute i d =>
    have key : ∀ x : Handler,
        HandlerOK ⟨s.counter + 1, s.cache, s.handlers.set i x, s.responses, s.issued ++ [(s.counter, d)]⟩ x →
        Inv ⟨s.counter + 1, s.cache, s.handlers.set i x, s.responses, s.issued ++ [(s.counter, d)]⟩ := by
      intro x hx
      refine ⟨?_, nodup_snoc h.uniq h.lt, ?_, ?_, ?_⟩
      · intro e he
        simp at he
        rcases he with he | rfl
        · exact Nat.lt_succ_of_lt (h.lt e he)
        · simp
      · intro e he; exact List.mem_append_left _ (h.cache e he)
      · intro y hy
        rcases mem_set hy with hy | rfl
        · exact (h.handlers y hy).mono (fun _ he => List.mem_append_left _ he)
        · exact hx
      · intro r hr; exact (h.responses r hr).mono (fun _ he => List.mem_append_left _ he)
    simp only [St.step]
    split
    · exact ⟨key _ (by simp [HandlerOK]), fun e he => List.mem_append_left _ he⟩
    · exact ⟨key _ (by simp [HandlerOK]), fun e he => List.mem_append_left _ he⟩
    · exact ⟨h, fun e he => he⟩
  | cacheStep i =>
    simp only [St.step]
    split
    · next id d hh =>
      have hk := h.handlers _ (List.mem_of_getElem? hh)
      simp only [HandlerOK] at hk
      refine ⟨⟨h.lt, h.uniq, ?_, ?_, ?_⟩, fun e he => he⟩
      · intro e he; simp at he; subst he; exact hk
      · intro y hy
        rcases mem_set hy with hy | rfl
        · exact (h.handlers y hy).mono (fun _ he => he)
        · trivial
      · intro r hr
        simp at hr
        rcases hr with hr | rfl
        · exact h.responses r hr
        · exact hk
    · next p id d hh =>
      have hk := h.handlers _ (List.mem_of_getElem? hh)
      simp only [HandlerOK] at hk
      refine ⟨⟨h.lt, h.uniq, by simp, ?_, h.responses⟩, fun e he => he⟩
      intro y hy
      rcases mem_set hy with hy | rfl
      · exact (h.handlers y hy).mono (fun _ he => he)
      · exact ⟨hk, fun e he => h.cache e he⟩
    · next p id d taken hh =>
      have hk := h.handlers _ (List.mem_of_getElem? hh)
      simp only [HandlerOK] at hk
      have key : ∀ r, ResponseOK s.issued r →
          Inv { s with cache := some (id, d), handlers := s.handlers.set i .done, responses := s.responses ++ [r] } := by
        intro r hr
        refine ⟨h.lt, h.uniq, ?_, ?_, ?_⟩
        · intro e he; simp at he; subst he; exact hk.1
        · intro y hy
          rcases mem_set hy with hy | rfl
          · exact (h.handlers y hy).mono (fun _ he => he)
          · trivial
        · intro r' hr'
          simp at hr'
          rcases hr' with hr' | rfl
          · exact h.responses r' hr'
          · exact hr
      split
      · next pid pd =>
        split
        · next hp =>
          subst hp
          exact ⟨key _ ⟨d, pd, hk.1, hk.2 _ rfl, rfl⟩, fun e he => he⟩
        · exact ⟨key _ hk.1, fun e he => he⟩
      · exact ⟨key _ hk.1, fun e he => he⟩
    · exact ⟨h, fun e he => he⟩

theorem run_inv (acts : List Act) : ∀ {s : St}, Inv s → Inv (s.run acts) := by
  induction acts with
  | nil => intro s h; exact h
  | cons a as ih => intro s h; exact ih (step_inv h a).1

theorem inv_init : Inv St.init := by
  refine ⟨?_, ?_, ?_, ?_, ?_⟩ <;> simp [St.init]

/-- **C37a**. For every interleaving of full and delta handlers, closes, cache clears and other requests: each token id
names one token array; a full response carries the array computed under its id; a delta response, applied to the
array named by the base id the client sent, gives the array computed under its id. -/
theorem delta_protocol (acts : List Act) :
    let s := St.init.run acts
    (s.issued.map (·.1)).Nodup ∧
    (∀ i d, Response.full i d ∈ s.responses → (i, d) ∈ s.issued) ∧
    (∀ i b es, Response.delta i b es ∈ s.responses → ∃ d bd, (i, d) ∈ s.issued ∧ (b, bd) ∈ s.issued ∧
      applyEdits (flat bd) es = flat d) := by
  have h := run_inv acts inv_init
  refine ⟨h.uniq, fun i d hr => h.responses _ hr, ?_⟩
  intro i b es hr
  obtain ⟨d, bd, h1, h2, rfl⟩ := h.responses _ hr
  exact ⟨d, bd, h1, h2, diff_correct bd d⟩

theorem lookup_unique {l : List (Nat × List Tok)} (h : (l.map (·.1)).Nodup) {i d d'} (h1 : (i, d) ∈ l) (h2 : (i, d') ∈ l) :
    d = d' := by
  induction l with
  | nil => simp at h1
  | cons a l ih =>
    simp only [List.map_cons, List.nodup_cons, List.mem_map, not_exists, not_and] at h
    simp only [List.mem_cons] at h1 h2
    rcases h1 with rfl | h1 <;> rcases h2 with h2 | h2
    · cases h2; rfl
    · exact (h.1 (i, d') h2 rfl).elim
    · subst h2; exact (h.1 (i, d) h1 rfl).elim
    · exact ih h.2 h1 h2

/-- **C37b** (the client ends up with the server's tokens). A client that stores full responses and applies deltas to
what it stored under the base id has, for every result id it holds an array for, exactly the token array the server
computed for that response, at every point of every interleaving. -/
theorem client_view_correct (acts : List Act) (n : Nat) (i : Nat) (arr : List Nat)
    (h : clientView ((St.init.run acts).responses.take n) i = some arr) :
    ∃ d, (i, d) ∈ (St.init.run acts).issued ∧ arr = flat d := by
  have hi := run_inv acts inv_init
  generalize St.init.run acts = s at h hi
  have hall : ∀ r ∈ s.responses.take n, ResponseOK s.issued r := fun r hr => hi.responses r (List.mem_of_mem_take hr)
  generalize s.responses.take n = rs at h hall
  unfold clientView at h
  suffices key : ∀ (rs : List Response) (view : Nat → Option (List Nat)), (∀ r ∈ rs, ResponseOK s.issued r) →
      (∀ j a, view j = some a → ∃ d, (j, d) ∈ s.issued ∧ a = flat d) →
      ∀ j a, (rs.foldl (fun (view : Nat → Option (List Nat)) r =>
        match r with
        | .full i d => fun j => if j = i then some (flat d) else view j
        | .delta i b es => fun j => if j = i then (view b).map (fun a => applyEdits a es) else view j) view) j = some a →
        ∃ d, (j, d) ∈ s.issued ∧ a = flat d by
    exact key rs _ hall (by simp) i arr h
  intro rs
  induction rs with
  | nil => intro view _ hv j a hj; exact hv j a hj
  | cons r rs ih =>
    intro view hr hv
    rw [List.foldl_cons]
    apply ih _ (fun r' hr' => hr r' (List.mem_cons_of_mem _ hr'))
    intro j a hj
    have hr0 := hr r List.mem_cons_self
    cases r with
    | full i d =>
      simp only at hj
      split at hj
      · next e => subst e; simp at hj; subst hj; exact ⟨d, hr0, rfl⟩
      · exact hv j a hj
    | delta i b es =>
      simp only at hj
      split at hj
      · next e =>
        subst e
        simp only [Option.map_eq_some_iff] at hj
        obtain ⟨x, hx, rfl⟩ := hj
        obtain ⟨bd, hbd, rfl⟩ := hv b x hx
        obtain ⟨d, bd', h1, h2, rfl⟩ := hr0
        have := lookup_unique hi.uniq hbd h2
        subst this
        exact ⟨d, h1, diff_correct bd d⟩
      · exact hv j a hj

/-- The id of a response. -/
def idOf : Response → Nat
  | .full i _ => i
  | .delta i _ _ => i

theorem view_full (rs : List Response) (i : Nat) (d : List Tok) (j : Nat) :
    clientView (rs ++ [.full i d]) j = if j = i then some (flat d) else clientView rs j := by
  simp [clientView, List.foldl_append]

theorem view_delta (rs : List Response) (i b : Nat) (es : List Edit) (j : Nat) :
    clientView (rs ++ [.delta i b es]) j = if j = i then (clientView rs b).map (fun a => applyEdits a es) else clientView rs j := by
  simp [clientView, List.foldl_append]

/-- Whatever is in the cache, or was taken out of it, has been sent to the client. -/
structure Sent (s : St) : Prop where
  cache : ∀ i d, s.cache = some (i, d) → (clientView s.responses i).isSome
  taken : ∀ p id d i e, Handler.deltaTaken p id d (some (i, e)) ∈ s.handlers → (clientView s.responses i).isSome
  responses : ∀ r ∈ s.responses, (clientView s.responses (idOf r)).isSome

/-- One more response, which puts its tokens into the cache. -/
theorem Sent.answer {s s' : St} (h : Sent s) (r : Response) (hr : s'.responses = s.responses ++ [r]) (hc : ∃ d, s'.cache = some (idOf r, d))
    (hh : ∃ k : Nat, s'.handlers = s.handlers.set k .done) (hb : ∀ i b es, r = .delta i b es → (clientView s.responses b).isSome) : Sent s' := by
  have keep : ∀ j, (clientView s.responses j).isSome → (clientView s'.responses j).isSome := by
    intro j hj
    rw [hr]
    cases r with
    | full i d => rw [view_full]; split <;> simp_all
    | delta i b es => rw [view_delta]; split <;> simp_all
  have own : (clientView s'.responses (idOf r)).isSome := by
    rw [hr]
    cases r with
    | full i d => rw [view_full]; simp [idOf]
    | delta i b es => rw [view_delta]; simpa [idOf] using hb i b es rfl
  obtain ⟨d0, hc⟩ := hc
  obtain ⟨k, hh⟩ := hh
  refine ⟨fun i d hd => ?_, fun p id d i e hm => ?_, fun x hx => ?_⟩
  · rw [hc] at hd; cases hd; exact own
  · rw [hh] at hm
    rcases mem_set hm with hm | hm
    · exact keep _ (h.taken _ _ _ _ _ hm)
    · cases hm
  · rw [hr, List.mem_append, List.mem_singleton] at hx
    rcases hx with hx | rfl
    · exact keep _ (h.responses x hx)
    · exact own

/-- Nothing is sent, and no handler takes anything out of the cache. -/
theorem Sent.quiet {s s' : St} (h : Sent s) (hr : s'.responses = s.responses) (hc : s'.cache = s.cache ∨ s'.cache = none)
    (hh : ∀ p id d i e, Handler.deltaTaken p id d (some (i, e)) ∈ s'.handlers →
      Handler.deltaTaken p id d (some (i, e)) ∈ s.handlers ∨ s.cache = some (i, e)) : Sent s' := by
  refine ⟨fun i d hd => ?_, fun p id d i e hm => ?_, fun x hx => ?_⟩
  · rw [hr]
    rcases hc with hc | hc
    · exact h.cache i d (hc ▸ hd)
    · rw [hc] at hd; cases hd
  · rw [hr]
    rcases hh p id d i e hm with hm | hm
    · exact h.taken _ _ _ _ _ hm
    · exact h.cache _ _ hm
  · rw [hr] at hx ⊢; exact h.responses x hx

theorem sent_step {s : St} (h : Sent s) (a : Act) : Sent (s.step a) := by
  cases a with
  | reqFull => exact h.quiet rfl (.inl rfl) (fun p id d i e hm => by simp [St.step] at hm; exact .inl hm)
  | reqDelta q => exact h.quiet rfl (.inl rfl) (fun p id d i e hm => by simp [St.step] at hm; exact .inl hm)
  | otherId => exact h.quiet rfl (.inl rfl) (fun p id d i e hm => .inl hm)
  | drop => exact h.quiet rfl (.inr rfl) (fun p id d i e hm => .inl hm)
  | compute k data =>
    simp only [St.step]
    split
    · refine h.quiet rfl (.inl rfl) (fun p id d i e hm => ?_)
      rcases mem_set hm with hm | hm
      · exact .inl hm
      · cases hm
    · refine h.quiet rfl (.inl rfl) (fun p id d i e hm => ?_)
      rcases mem_set hm with hm | hm
      · exact .inl hm
      · cases hm
    · exact h
  | cacheStep k =>
    simp only [St.step]
    split
    · exact h.answer (.full _ _) rfl ⟨_, rfl⟩ ⟨k, rfl⟩ (fun _ _ _ hx => by cases hx)
    · refine h.quiet rfl (.inr rfl) (fun p id d i e hm => ?_)
      rcases mem_set hm with hm | hm
      · exact .inl hm
      · injection hm with _ _ _ h4
        exact .inr h4.symm
    · next p id d taken hk =>
      split
      · next pid pd =>
        split
        · next hp =>
          refine h.answer (.delta _ _ _) rfl ⟨_, rfl⟩ ⟨k, rfl⟩ (fun i b es hx => ?_)
          cases hx
          exact hp ▸ h.taken _ _ _ _ _ (List.mem_of_getElem? hk)
        · exact h.answer (.full _ _) rfl ⟨_, rfl⟩ ⟨k, rfl⟩ (fun _ _ _ hx => by cases hx)
      · exact h.answer (.full _ _) rfl ⟨_, rfl⟩ ⟨k, rfl⟩ (fun _ _ _ hx => by cases hx)
    · exact h

theorem sent_run (acts : List Act) : ∀ {s : St}, Sent s → Sent (s.run acts) := by
  induction acts with
  | nil => exact fun h => h
  | cons a acts ih => exact fun h => ih (sent_step h a)

/-- **C37c** (no answer is lost on the client). In every interleaving, a client that handles the responses in the order in which the handlers end has an array
for each of them, and it is the one the server computed: the base of a delta was always sent before it. -/
theorem client_view_total (acts : List Act) (r : Response) (hr : r ∈ (St.init.run acts).responses) :
    ∃ d, (idOf r, d) ∈ (St.init.run acts).issued ∧ clientView (St.init.run acts).responses (idOf r) = some (flat d) := by
  have h := sent_run acts (s := St.init) ⟨fun _ _ h => (by cases h), fun _ _ _ _ _ h => (by cases h), fun _ h => (by cases h)⟩
  obtain ⟨arr, ha⟩ := Option.isSome_iff_exists.1 (h.responses r hr)
  have hl : (St.init.run acts).responses.take (St.init.run acts).responses.length = (St.init.run acts).responses := List.take_length
  obtain ⟨d, hd, e⟩ := client_view_correct acts (St.init.run acts).responses.length (idOf r) arr (by rw [hl]; exact ha)
  exact ⟨d, hd, e ▸ ha⟩

/-- Two delta requests race for the cache, the second one gets a full answer; then a delta based on it. -/
example : (St.init.run [.reqFull, .compute 0 [⟨0,0,1,1,1⟩], .cacheStep 0, .reqDelta 1, .reqDelta 1,
      .compute 1 [⟨0,0,1,1,1⟩, ⟨1,0,1,1,1⟩], .compute 2 [], .cacheStep 2, .cacheStep 1, .cacheStep 1, .cacheStep 2,
      .reqDelta 3, .compute 3 [⟨1,1,1,1,1⟩], .cacheStep 3, .cacheStep 3]).responses =
    [.full 1 [⟨0,0,1,1,1⟩], .full 2 [⟨0,0,1,1,1⟩, ⟨1,0,1,1,1⟩], .delta 3 1 [⟨0, 5, []⟩],
     .delta 4 3 [⟨0, 0, [⟨1,1,1,1,1⟩]⟩]] := by decide

/-- A delta is answered, and the client has its tokens. -/
example : let s := St.init.run [.reqFull, .compute 0 [⟨0,0,1,1,1⟩], .cacheStep 0, .reqDelta 1, .compute 1 [], .cacheStep 1, .cacheStep 1]
    Response.delta 2 1 [⟨0, 5, []⟩] ∈ s.responses ∧ clientView s.responses 2 = some [] := by decide

end Verif.Props.SemTokens
