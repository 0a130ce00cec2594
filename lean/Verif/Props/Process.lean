import Verif.Stdx.Process
/-!
# The output of a process is read completely
-/

namespace Verif.Props.Process

open Verif.Stdx.Process Verif.Stdx.Process.Spec

theorem linesFrom_append (b : List Char) : ∀ (a cur : List Char), linesFrom cur (a ++ '\n' :: b) = linesFrom cur (a ++ ['\n']) ++ lines b
  | [], cur => by simp [linesFrom, lines]
  | c :: a, cur => by
    simp only [List.cons_append, linesFrom]
    split
    · rw [linesFrom_append b a, List.cons_append]
    · exact linesFrom_append b a _

theorem linesFrom_until (t : List Char) : ∀ (a cur : List Char), '\n' ∉ a → linesFrom cur (a ++ t) = linesFrom (a.reverse ++ cur) t
  | [], _, _ => rfl
  | c :: a, cur, h => by
    have hc : c ≠ '\n' := fun e => h (by simp [e])
    simp only [List.cons_append, linesFrom, hc, if_false]
    rw [linesFrom_until t a _ (fun hm => h (by simp [hm]))]
    simp

theorem lines_last {l : List Char} (h0 : l ≠ []) (h : '\n' ∉ l) : lines l = [l] := by
  have := linesFrom_until [] l [] h
  rw [List.append_nil, List.append_nil] at this
  unfold lines
  rw [this]
  simp [linesFrom, h0]

theorem lines_crlf {l : List Char} (t : List Char) (h : '\n' ∉ l) : lines (l ++ '\r' :: '\n' :: t) = l :: lines t := by
  have := linesFrom_until ('\n' :: t) (l ++ ['\r']) [] (by simpa using h)
  unfold lines
  rw [show l ++ '\r' :: '\n' :: t = (l ++ ['\r']) ++ '\n' :: t by simp, this]
  simp [linesFrom]

theorem lines_lf {l : List Char} (t : List Char) (h : '\n' ∉ l) (hr : l.getLast? ≠ some '\r') : lines (l ++ '\n' :: t) = l :: lines t := by
  have := linesFrom_until ('\n' :: t) l [] h
  unfold lines
  rw [this, List.append_nil]
  simp only [linesFrom, if_true]
  congr 1
  split
  · rename_i r e
    exfalso
    apply hr
    have : l = r.reverse ++ ['\r'] := by rw [← List.reverse_reverse l, e]; simp
    rw [this]; simp
  · simp

/-- The model's lines are the lines of the text, and no others are. -/
theorem lines_iff (t : List Char) (ls : List (List Char)) : IsLines t ls ↔ ls = lines t := by
  constructor
  · intro h
    induction h with
    | nil => rfl
    | last h0 h => rw [lines_last h0 h]
    | lf h hr _ ih => rw [lines_lf _ h hr, ih]
    | crlf h _ ih => rw [lines_crlf _ h, ih]
  · rintro rfl
    suffices ∀ (n : Nat) (t : List Char), t.length ≤ n → IsLines t (lines t) from this _ t (Nat.le_refl _)
    intro n
    induction n with
    | zero =>
      intro t ht
      have : t = [] := List.eq_nil_of_length_eq_zero (by omega)
      subst this
      exact .nil
    | succ n ih =>
      intro t ht
      by_cases hn : '\n' ∈ t
      · obtain ⟨l, r, rfl, hl⟩ := List.eq_append_cons_of_mem hn
        have hlen : r.length ≤ n := by simp at ht; omega
        by_cases hr : l.getLast? = some '\r'
        · obtain ⟨k, rfl⟩ : ∃ k, l = k ++ ['\r'] := by
            rcases List.eq_nil_or_concat l with rfl | ⟨k, c, rfl⟩
            · cases hr
            · rw [List.concat_eq_append] at hr ⊢
              rw [List.getLast?_append] at hr
              exact ⟨k, by simp at hr; rw [hr]⟩
          have hk : '\n' ∉ k := fun h => hl (by simp [h])
          rw [show k ++ ['\r'] ++ '\n' :: r = k ++ '\r' :: '\n' :: r by simp, lines_crlf _ hk]
          exact .crlf hk (ih r hlen)
        · rw [lines_lf _ hl hr]
          exact .lf hl hr (ih r hlen)
      · by_cases h0 : t = []
        · subst h0; exact .nil
        · rw [lines_last h0 hn]; exact .last h0 hn

/-- Text up to a line feed gives its lines whatever follows. -/
theorem lines_append (a b : List Char) : lines (a ++ '\n' :: b) = lines (a ++ ['\n']) ++ lines b := linesFrom_append b a []

theorem upToNewline_some : ∀ {l : List Byte} {n : Nat}, upToNewline l = some n → ∃ a b, l = a ++ newline :: b ∧ n = a.length + 1
  | b :: bs, n, h => by
    rw [upToNewline] at h
    split at h
    · next m hm =>
      obtain ⟨a, c, rfl, rfl⟩ := upToNewline_some hm
      cases h
      exact ⟨b :: a, c, rfl, rfl⟩
    · split at h
      · next hb => cases h; exact ⟨[], bs, by simp [hb], rfl⟩
      · cases h

/-- Empty, or ending at the end of a line. -/
def Whole (l : List Byte) : Prop := l = [] ∨ ∃ a, l = a ++ [newline]

theorem lines_whole {decode : List Byte → List Char} (hd : Decodes decode) {a : List Byte} (ha : Whole a) (b : List Byte) :
    lines (decode (a ++ b)) = lines (decode a) ++ lines (decode b) := by
  rcases ha with rfl | ⟨a, rfl⟩
  · simp [hd.nil, lines, linesFrom]
  · rw [List.append_assoc, List.singleton_append, hd.split, hd.split a [], hd.nil, lines_append]

/-- What holds between turns. -/
structure Inv (decode : List Byte → List Char) (content : Pipe → List Byte) (s : State) : Prop where
  all : ∀ p, content p = s.dst p ++ s.buf p ++ s.rest p
  whole : ∀ p, s.done p = false → Whole (s.dst p)
  finished : ∀ p, s.done p = true → s.buf p = [] ∧ s.rest p = []
  lines : ∀ p, got s p = lines (decode (s.dst p))

theorem got_append (s : State) (p q : Pipe) (ls : List (List Char)) :
    ((s.handed ++ ls.map fun l => (p, l)).filter fun l => l.1 = q).map (·.2) = got s q ++ if q = p then ls else [] := by
  have h : ∀ ls : List (List Char), ((ls.map fun l => (p, l)).filter fun l => l.1 = q).map (·.2) = if q = p then ls else [] := by
    intro ls
    induction ls with
    | nil => split <;> rfl
    | cons l ls ih =>
      rw [List.map_cons, List.filter_cons]
      by_cases hq : q = p
      · subst hq; simp only [if_true, decide_true] at ih ⊢; rw [List.map_cons, ih]
      · have : ¬ p = q := fun h => hq h.symm
        simp [hq, this]
  rw [List.filter_append, List.map_append, h]
  rfl

/-- The callback keeps the invariant. At the end of a pipe everything is handed over. `inv` without `finished` for the pipe at hand. -/
theorem feed_inv {decode : List Byte → List Char} (hd : Decodes decode) {content : Pipe → List Byte} {s : State} {p : Pipe}
    (h1 : ∀ q, content q = s.dst q ++ s.buf q ++ s.rest q) (h2 : ∀ q, s.done q = false ∨ q = p → Whole (s.dst q) ∨ s.buf q = [])
    (h2' : ∀ q, s.done q = false → Whole (s.dst q))
    (h3 : ∀ q, s.done q = true → s.rest q = [] ∧ (q ≠ p → s.buf q = [])) (h4 : ∀ q, got s q = lines (decode (s.dst q))) :
    Inv decode content (feed decode p (s.done p) s) := by
  unfold feed
  split
  · next hn =>
    have hp : s.done p = false := by
      cases hb : s.done p with
      | false => rfl
      | true => rw [hb] at hn; simp at hn
    refine ⟨h1, h2', fun q hq => ⟨(h3 q hq).2 ?_, (h3 q hq).1⟩, h4⟩
    rintro rfl; rw [hp] at hq; cases hq
  · next idx hidx =>
    refine ⟨fun q => ?_, fun q hq => ?_, fun q hq => ?_, fun q => ?_⟩
    · simp only [put]
      split
      · next hq => subst hq; simp only [h1 q, List.append_assoc]; rw [← List.append_assoc (List.take _ _), List.take_append_drop]
      · exact h1 q
    · simp only [put]
      split
      · next hqp =>
        subst hqp
        have hq : s.done q = false := hq
        rw [hq] at hidx
        obtain ⟨a, b, hb, rfl⟩ := upToNewline_some hidx
        refine .inr ⟨s.dst q ++ a, ?_⟩
        rw [hb, List.take_append, List.take_of_length_le (by omega)]
        simp
      · exact h2' q hq
    · simp only [put]
      have hq : s.done q = true := hq
      refine ⟨?_, (h3 q hq).1⟩
      split
      · next hqp =>
        subst hqp
        rw [hq] at hidx
        simp only [if_true] at hidx
        cases hidx
        simp
      · next hqp => exact (h3 q hq).2 hqp
    · show ((s.handed ++ _).filter _).map _ = _
      rw [got_append, h4]
      simp only [put]
      split
      · next hq =>
        subst hq
        rcases h2 q (.inr rfl) with hw | hb
        · rw [lines_whole hd hw]
        · simp [hb, hd.nil, lines, linesFrom]
      · simp

/-- Reading from a pipe. -/
theorem read_all {content : Pipe → List Byte} {s : State} (h : ∀ q, content q = s.dst q ++ s.buf q ++ s.rest q) (p : Pipe) (k : Nat) :
    ∀ q, content q = (readPipe p k s).dst q ++ (readPipe p k s).buf q ++ (readPipe p k s).rest q := by
  intro q
  simp only [readPipe, put]
  split
  · next hq => subst hq; rw [h q]; simp
  · exact h q

/-- The descriptors that are polled are the pipes that are not finished. -/
structure Fds (s : State) : Prop where
  count : s.nfds = (if s.done .out then 0 else 1) + (if s.done .err then 0 else 1)
  first : s.done .out = false → s.fd0 = .out
  second : s.done .out = false → s.fd1 = .err ∧ s.errfd1 = true
  swapped : s.done .out = true → s.fd0 = .err ∧ s.errfd1 = false

theorem fds_feed {decode : List Byte → List Char} {p : Pipe} {eof : Bool} {s : State} (h : Fds s) : Fds (feed decode p eof s) := by
  unfold feed
  split
  · exact h
  · exact ⟨h.count, h.first, h.second, h.swapped⟩

theorem turnErr_keeps {decode : List Byte → List Char} (hd : Decodes decode) {content : Pipe → List Byte} {read : Pipe → Nat × Res}
    {s s' : State} (hp : (read .err).1 ≤ (s.rest .err).length ∧ ((read .err).2 = .eof → (read .err).1 = (s.rest .err).length))
    (hi : Inv decode content s) (hf : Fds s) (h : turnErr decode read s = some s') :
    Inv decode content s' ∧ Fds s' ∧ s'.rest .out = s.rest .out ∧ s'.rev0 = s.rev0 := by
  have hrest : ∀ (p : Pipe) (eof : Bool) (s : State), (feed decode p eof s).rest = s.rest ∧ (feed decode p eof s).rev0 = s.rev0 := by
    intro p eof s; unfold feed; split <;> exact ⟨rfl, rfl⟩
  have key : Inv decode content (feed decode .err (s.done .err) s) :=
    feed_inv hd hi.all (fun q hq => by
        cases hb : s.done q with
        | false => exact .inl (hi.whole q hb)
        | true => exact .inr (hi.finished q hb).1) hi.whole (fun q hq => ⟨(hi.finished q hq).2, fun _ => (hi.finished q hq).1⟩) hi.lines
  unfold turnErr at h
  split at h
  · next hc =>
    simp only [Bool.and_eq_true, Bool.not_eq_true'] at hc
    have hde := hc.1
    split at h
    · cases h
    · next hr =>
      cases h
      refine ⟨?_, fds_feed ⟨hf.count, hf.first, hf.second, hf.swapped⟩, by rw [(hrest _ _ _).1]; simp [readPipe, put], by
        rw [(hrest _ _ _).2]; rfl⟩
      refine feed_inv hd (read_all hi.all _ _) (fun q hq => ?_) hi.whole (fun q hq => ?_) hi.lines
      · cases hb : s.done q with
        | false => exact .inl (hi.whole q hb)
        | true =>
          rcases hq with hq | hq
          · rw [show (readPipe Pipe.err (read Pipe.err).1 s).done q = s.done q from rfl, hb] at hq; cases hq
          · subst hq; rw [hde] at hb; cases hb
      · have hq : s.done q = true := hq
        have hne : q ≠ .err := by rintro rfl; rw [hde] at hq; cases hq
        simp only [readPipe, put, if_neg hne]
        exact ⟨(hi.finished q hq).2, fun _ => (hi.finished q hq).1⟩
    · next hr =>
      cases h
      refine ⟨?_, fds_feed ?_, by rw [(hrest _ _ _).1]; simp [readPipe, put], by rw [(hrest _ _ _).2]; rfl⟩
      · refine feed_inv hd (read_all hi.all _ _) (fun q hq => ?_) (fun q hq => ?_) (fun q hq => ?_) hi.lines
        · cases hb : s.done q with
          | false => exact .inl (hi.whole q hb)
          | true =>
            have hne : q ≠ .err := by rintro rfl; rw [hde] at hb; cases hb
            refine .inr ?_
            show (readPipe .err (read .err).1 s).buf q = []
            simp only [readPipe, put, if_neg hne]
            exact (hi.finished q hb).1
        · simp only [put] at hq
          split at hq
          · cases hq
          · exact hi.whole q hq
        · simp only [put] at hq
          split at hq
          · next he =>
            subst he
            refine ⟨?_, fun h => absurd rfl h⟩
            show (readPipe .err (read .err).1 s).rest .err = []
            simp only [readPipe, put, if_true, hp.2 hr]
            simp
          · next hne =>
            refine ⟨?_, fun _ => ?_⟩
            · show (readPipe .err (read .err).1 s).rest q = []
              simp only [readPipe, put, if_neg hne]; exact (hi.finished q hq).2
            · show (readPipe .err (read .err).1 s).buf q = []
              simp only [readPipe, put, if_neg hne]; exact (hi.finished q hq).1
      · have hc := hf.count
        rw [hde] at hc
        refine ⟨?_, ?_, ?_, ?_⟩
        · simp [put, readPipe, hc]
        · simpa [put, readPipe] using hf.first
        · simpa [put, readPipe] using hf.second
        · simpa [put, readPipe] using hf.swapped
  · cases h
    exact ⟨key, fds_feed hf, by rw [(hrest _ _ _).1], by rw [(hrest _ _ _).2]⟩

theorem turnOut_keeps {decode : List Byte → List Char} (hd : Decodes decode) {content : Pipe → List Byte} {read : Pipe → Nat × Res}
    {s s' : State} (hp : (read .out).1 ≤ (s.rest .out).length ∧ ((read .out).2 = .eof → (read .out).1 = (s.rest .out).length))
    (hi : Inv decode content s) (hf : Fds s) (h : turnOut decode read s = some s') : Inv decode content s' ∧ Fds s' := by
  have key : Inv decode content (feed decode .out (s.done .out) s) :=
    feed_inv hd hi.all (fun q hq => by
        cases hb : s.done q with
        | false => exact .inl (hi.whole q hb)
        | true => exact .inr (hi.finished q hb).1) hi.whole (fun q hq => ⟨(hi.finished q hq).2, fun _ => (hi.finished q hq).1⟩) hi.lines
  unfold turnOut at h
  split at h
  · next hc =>
    simp only [Bool.and_eq_true, Bool.not_eq_true'] at hc
    have hde := hc.1
    split at h
    · cases h
    · next hr =>
      cases h
      refine ⟨?_, fds_feed ⟨hf.count, hf.first, hf.second, hf.swapped⟩⟩
      refine feed_inv hd (read_all hi.all _ _) (fun q hq => ?_) hi.whole (fun q hq => ?_) hi.lines
      · cases hb : s.done q with
        | false => exact .inl (hi.whole q hb)
        | true =>
          rcases hq with hq | hq
          · rw [show (readPipe Pipe.out (read Pipe.out).1 s).done q = s.done q from rfl, hb] at hq; cases hq
          · subst hq; rw [hde] at hb; cases hb
      · have hq : s.done q = true := hq
        have hne : q ≠ .out := by rintro rfl; rw [hde] at hq; cases hq
        simp only [readPipe, put, if_neg hne]
        exact ⟨(hi.finished q hq).2, fun _ => (hi.finished q hq).1⟩
    · next hr =>
      cases h
      refine ⟨?_, fds_feed ?_⟩
      · refine feed_inv hd (read_all hi.all _ _) (fun q hq => ?_) (fun q hq => ?_) (fun q hq => ?_) hi.lines
        · cases hb : s.done q with
          | false => exact .inl (hi.whole q hb)
          | true =>
            have hne : q ≠ .out := by rintro rfl; rw [hde] at hb; cases hb
            refine .inr ?_
            show (readPipe .out (read .out).1 s).buf q = []
            simp only [readPipe, put, if_neg hne]
            exact (hi.finished q hb).1
        · simp only [put] at hq
          split at hq
          · cases hq
          · exact hi.whole q hq
        · simp only [put] at hq
          split at hq
          · next he =>
            subst he
            refine ⟨?_, fun h => absurd rfl h⟩
            show (readPipe .out (read .out).1 s).rest .out = []
            simp only [readPipe, put, if_true, hp.2 hr]
            simp
          · next hne =>
            refine ⟨?_, fun _ => ?_⟩
            · show (readPipe .out (read .out).1 s).rest q = []
              simp only [readPipe, put, if_neg hne]; exact (hi.finished q hq).2
            · show (readPipe .out (read .out).1 s).buf q = []
              simp only [readPipe, put, if_neg hne]; exact (hi.finished q hq).1
      · have hc := hf.count
        rw [hde] at hc
        refine ⟨?_, ?_, ?_, ?_⟩
        · simp [put, readPipe, hc]
        · simp [put]
        · simp [put]
        · simp [put]
  · cases h
    exact ⟨key, fds_feed hf⟩

theorem turn_keeps {decode : List Byte → List Char} (hd : Decodes decode) {content : Pipe → List Byte} {i : Input} {s s' : State}
    (hp : Possible s i) (hi : Inv decode content s) (hf : Fds s) (h : turn decode i s = some s') : Inv decode content s' ∧ Fds s' := by
  unfold turn at h
  split at h
  · cases h; exact ⟨hi, hf⟩
  · cases h
  · rw [Option.bind_eq_some_iff] at h
    obtain ⟨s1, h1, h2⟩ := h
    have g := turnErr_keeps (s := s.poll _ _) (content := content) hd (hp .err) ⟨hi.all, hi.whole, hi.finished, hi.lines⟩
      ⟨hf.count, hf.first, hf.second, hf.swapped⟩ h1
    refine turnOut_keeps hd ?_ g.1 g.2.1 h2
    rw [g.2.2.1]
    exact hp .out

theorem run_keeps {decode : List Byte → List Char} (hd : Decodes decode) {content : Pipe → List Byte} : ∀ {is : List Input} {s s' : State} {b : Bool},
    PossibleAll decode is s → Inv decode content s → Fds s → run decode is s = some (b, s') → Inv decode content s' ∧ Fds s' ∧ (b = true ↔ s'.nfds = 0)
  | [], s, s', b, _, hi, hf, h => by
    unfold run at h
    split at h
    · next hn => cases h; exact ⟨hi, hf, by simp [hn]⟩
    · next hn => cases h; exact ⟨hi, hf, by simp [hn]⟩
  | i :: is, s, s', b, hp, hi, hf, h => by
    unfold run at h
    split at h
    · next hn => cases h; exact ⟨hi, hf, by simp [hn]⟩
    · rw [Option.bind_eq_some_iff] at h
      obtain ⟨s1, h1, h2⟩ := h
      have g := turn_keeps hd hp.1 hi hf h1
      exact run_keeps hd (hp.2 s1 h1) g.1 g.2 h2

theorem start_inv {decode : List Byte → List Char} (hd : Decodes decode) (content : Pipe → List Byte) : Inv decode content { rest := content } :=
  ⟨fun _ => rfl, fun _ _ => .inl rfl, (fun _ h => nomatch h), fun _ => by simp [got, hd.nil, lines, linesFrom]⟩

theorem start_fds (content : Pipe → List Byte) : Fds { rest := content } :=
  ⟨rfl, fun _ => rfl, fun _ => ⟨rfl, rfl⟩, fun h => nomatch h⟩

/-- **The output of the compiler is read completely and line by line, whatever way it arrives.** However the two pipes become readable and however
their contents are cut into pieces, once the loop has ended, each line of each pipe has been handed over, in order, whole and once, and the
bytes returned are those that were written. -/
theorem output_complete {decode : List Byte → List Char} (hd : Decodes decode) (content : Pipe → List Byte) {is : List Input} {s : State}
    (hp : PossibleAll decode is { rest := content }) (h : run decode is { rest := content } = some (true, s)) (p : Pipe) :
    IsLines (decode (content p)) (got s p) ∧ s.dst p = content p := by
  obtain ⟨hi, hf, hend⟩ := run_keeps hd hp (start_inv hd content) (start_fds content) h
  have hend := hend.1 rfl
  have hdone : s.done p = true := by
    have := hf.count
    rw [hend] at this
    cases h1 : s.done .out <;> cases h2 : s.done .err <;> rw [h1, h2] at this <;> simp at this
    cases p <;> assumption
  have he : content p = s.dst p := by
    have := hi.all p
    rw [(hi.finished p hdone).1, (hi.finished p hdone).2] at this
    simpa using this
  exact ⟨(lines_iff _ _).2 (by rw [hi.lines p, he]), he.symm⟩

/-- **The loop ends exactly when both pipes have been read to their end**: it neither stops early nor waits for nothing. -/
theorem ends_iff {decode : List Byte → List Char} (hd : Decodes decode) (content : Pipe → List Byte) {is : List Input} {s : State} {b : Bool}
    (hp : PossibleAll decode is { rest := content }) (h : run decode is { rest := content } = some (b, s)) :
    b = true ↔ ∀ p, s.done p = true := by
  obtain ⟨hi, hf, hend⟩ := run_keeps hd hp (start_inv hd content) (start_fds content) h
  rw [hend, hf.count]
  constructor
  · intro h p
    cases h1 : s.done .out <;> cases h2 : s.done .err <;> rw [h1, h2] at h <;> simp at h
    cases p <;> assumption
  · intro h
    rw [h .out, h .err]; rfl

/-- **At every moment only whole lines have been handed over**, and they are the first ones. -/
theorem output_prefix {decode : List Byte → List Char} (hd : Decodes decode) (content : Pipe → List Byte) {is : List Input} {s : State} {b : Bool}
    (hp : PossibleAll decode is { rest := content }) (h : run decode is { rest := content } = some (b, s)) (p : Pipe) :
    ∃ ls, IsLines (decode (content p)) ls ∧ got s p <+: ls := by
  refine ⟨_, (lines_iff _ _).2 rfl, ?_⟩
  obtain ⟨hi, _, _⟩ := run_keeps hd hp (start_inv hd content) (start_fds content) h
  rw [hi.lines p, hi.all p, List.append_assoc]
  cases hb : s.done p with
  | false => rw [lines_whole hd (hi.whole p hb)]; exact List.prefix_append _ _
  | true => rw [(hi.finished p hb).1, (hi.finished p hb).2]; simp

/-- **The server waits for exactly the pipes that are still open**: it neither misses one nor waits for one that is finished. -/
theorem waits_for_open {decode : List Byte → List Char} (hd : Decodes decode) (content : Pipe → List Byte) {is : List Input} {s : State} {b : Bool}
    (hp : PossibleAll decode is { rest := content }) (h : run decode is { rest := content } = some (b, s)) (p : Pipe) :
    p ∈ polled s ↔ s.done p = false := by
  obtain ⟨_, hf, _⟩ := run_keeps hd hp (start_inv hd content) (start_fds content) h
  have hc := hf.count
  unfold polled
  cases h1 : s.done .out with
  | false =>
    have hs := hf.second h1
    rw [hf.first h1, hs.1, hc, h1]
    cases h2 : s.done .err <;> cases p <;> simp_all
  | true =>
    rw [(hf.swapped h1).1, hc, h1]
    cases h2 : s.done .err <;> cases p <;> simp_all

/-- An open pipe whose descriptor is ready is read in that turn, and one that reports its end is finished. -/
theorem ready_is_read {decode : List Byte → List Char} (hd : Decodes decode) (content : Pipe → List Byte) {is : List Input} {s s' : State}
    (hp : PossibleAll decode is { rest := content }) (h : run decode is { rest := content } = some (false, s)) {r0 r1 : Bool} {read : Pipe → Nat × Res}
    {p : Pipe} (hr : (p = s.fd0 ∧ 0 < s.nfds ∧ r0 = true) ∨ (p = s.fd1 ∧ 1 < s.nfds ∧ r1 = true))
    (ht : turn decode (.ready r0 r1 read) s = some s') :
    s'.rest p = (s.rest p).drop (read p).1 ∧ ((read p).2 = .eof → s'.done p = true) := by
  obtain ⟨_, hf, _⟩ := run_keeps hd hp (start_inv hd content) (start_fds content) h
  have hfeed : ∀ (p : Pipe) (eof : Bool) (s : State), (feed decode p eof s).rest = s.rest ∧ (feed decode p eof s).done = s.done ∧
      (feed decode p eof s).rev0 = s.rev0 := by
    intro p eof s; unfold feed; split <;> exact ⟨rfl, rfl, rfl⟩
  have hc := hf.count
  unfold turn at ht
  simp only [Option.bind_eq_some_iff] at ht
  obtain ⟨s1, h1, h2⟩ := ht
  have hopen : s.done p = false := (waits_for_open hd content hp h p).1 (by
    unfold polled
    rcases hr with ⟨rfl, hn, _⟩ | ⟨rfl, hn, _⟩
    · cases hnf : s.nfds with
      | zero => omega
      | succ k => simp
    · match hnf : s.nfds with
      | 0 | 1 => omega
      | k + 2 => simp)
  cases p with
  | err =>
    have hrev : (if s.errfd1 then (if 1 < s.nfds then r1 else s.rev1) else (if 0 < s.nfds then r0 else s.rev0)) = true := by
      cases ho : s.done .out with
      | false =>
        rw [(hf.second ho).2]
        rcases hr with ⟨hfd, hn, hr⟩ | ⟨hfd, hn, hr⟩
        · rw [hf.first ho] at hfd; cases hfd
        · simp [hn, hr]
      | true =>
        rw [(hf.swapped ho).2]
        rcases hr with ⟨hfd, hn, hr⟩ | ⟨hfd, hn, hr⟩
        · simp [hn, hr]
        · rw [ho, hopen] at hc; simp at hc; omega
    have hopen : (s.poll r0 r1).done .err = false := hopen
    have hrev : (s.poll r0 r1).errReady = true := hrev
    have g : s1.rest .err = ((s.poll r0 r1).rest .err).drop (read .err).1 ∧ ((read .err).2 = .eof → s1.done .err = true) := by
      unfold turnErr at h1
      simp only [hopen, hrev, Bool.not_false, Bool.and_self, if_true] at h1
      split at h1
      · cases h1
      · next hb => cases h1; exact ⟨by rw [(hfeed _ _ _).1]; simp [readPipe, put], fun h => by rw [hb] at h; cases h⟩
      · cases h1; exact ⟨by rw [(hfeed _ _ _).1]; simp [readPipe, put], fun _ => by rw [(hfeed _ _ _).2.1]; simp [put]⟩
    have g' : s'.rest .err = s1.rest .err ∧ (s1.done .err = true → s'.done .err = true) := by
      unfold turnOut at h2
      split at h2
      · split at h2
        · cases h2
        · cases h2; exact ⟨by rw [(hfeed _ _ _).1]; simp [readPipe, put], fun h => by rw [(hfeed _ _ _).2.1]; exact h⟩
        · cases h2; exact ⟨by rw [(hfeed _ _ _).1]; simp [readPipe, put], fun h => by rw [(hfeed _ _ _).2.1]; simpa [put, readPipe] using h⟩
      · cases h2; exact ⟨by rw [(hfeed _ _ _).1], fun h => by rw [(hfeed _ _ _).2.1]; exact h⟩
    exact ⟨by rw [g'.1, g.1]; rfl, fun h => g'.2 (g.2 h)⟩
  | out =>
    have hr0 : (if 0 < s.nfds then r0 else s.rev0) = true := by
      rcases hr with ⟨hfd, hn, hr⟩ | ⟨hfd, hn, hr⟩
      · simp [hn, hr]
      · rw [(hf.second hopen).1] at hfd; cases hfd
    have hr0 : (s.poll r0 r1).rev0 = true := hr0
    have g : s1.rest .out = (s.poll r0 r1).rest .out ∧ s1.done .out = (s.poll r0 r1).done .out ∧ s1.rev0 = true := by
      unfold turnErr at h1
      split at h1
      · split at h1
        · cases h1
        · cases h1; exact ⟨by rw [(hfeed _ _ _).1]; simp [readPipe, put], by rw [(hfeed _ _ _).2.1]; rfl, by rw [(hfeed _ _ _).2.2]; exact hr0⟩
        · cases h1; exact ⟨by rw [(hfeed _ _ _).1]; simp [readPipe, put], by rw [(hfeed _ _ _).2.1]; simp [put, readPipe], by
            rw [(hfeed _ _ _).2.2]; exact hr0⟩
      · cases h1; exact ⟨by rw [(hfeed _ _ _).1], by rw [(hfeed _ _ _).2.1], by rw [(hfeed _ _ _).2.2]; exact hr0⟩
    have hopen : (s.poll r0 r1).done .out = false := hopen
    unfold turnOut at h2
    simp only [g.2.1, hopen, g.2.2, Bool.not_false, Bool.and_self, if_true] at h2
    split at h2
    · cases h2
    · next hb => cases h2; exact ⟨by rw [(hfeed _ _ _).1]; simp [readPipe, put, g.1, State.poll], fun h => by rw [hb] at h; cases h⟩
    · cases h2; exact ⟨by rw [(hfeed _ _ _).1]; simp [readPipe, put, g.1, State.poll], fun _ => by rw [(hfeed _ _ _).2.1]; simp [put]⟩

/-- What `SpCompActor::run` sends is what the lines of both pipes are read as: nothing is lost and nothing is invented. -/
theorem sent_complete {D : Type} (parse : List Char → Option D) {decode : List Byte → List Char} (hd : Decodes decode) (content : Pipe → List Byte)
    {is : List Input} {s : State} (hp : PossibleAll decode is { rest := content }) (h : run decode is { rest := content } = some (true, s)) (d : D) :
    d ∈ sent parse s ↔ ∃ p ls, IsLines (decode (content p)) ls ∧ ∃ l ∈ ls, parse l = some d := by
  simp only [sent, List.mem_filterMap]
  constructor
  · rintro ⟨⟨p, l⟩, hm, hd'⟩
    refine ⟨p, _, (output_complete hd content hp h p).1, l, ?_, hd'⟩
    exact List.mem_map.2 ⟨(p, l), List.mem_filter.2 ⟨hm, by simp⟩, rfl⟩
  · rintro ⟨p, ls, hls, l, hl, hd'⟩
    rw [(lines_iff _ _).1 hls, ← (lines_iff _ _).1 (output_complete hd content hp h p).1] at hl
    obtain ⟨q, hq, rfl⟩ := List.mem_map.1 hl
    exact ⟨q, (List.mem_filter.1 hq).1, hd'⟩

/-! ## An example -/

/-- One character for each byte. -/
def ascii (l : List Byte) : List Char := l.map fun b => Char.ofNat b.toNat

theorem ascii_decodes : Decodes ascii := ⟨rfl, fun a b => by simp [ascii, newline]⟩

def demo : Pipe → List Byte
  | .out => "ab\r\ncd\n\nef".toList.map fun c => c.toNat.toUInt8
  | .err => "x".toList.map fun c => c.toNat.toUInt8

/-- `ab\r`, then `\nc` and the end of the other pipe, then the rest. -/
def demoInputs : List Input := [
  .ready true false fun p => match p with | .out => (3, .wouldBlock) | .err => (0, .wouldBlock),
  .interrupted,
  .ready true true fun p => match p with | .out => (2, .wouldBlock) | .err => (1, .eof),
  .ready true false fun p => match p with | .out => (5, .eof) | .err => (0, .wouldBlock)]

example : ∃ s, run ascii demoInputs { rest := demo } = some (true, s) ∧ PossibleAll ascii demoInputs { rest := demo } ∧
    got s .out = [['a', 'b'], ['c', 'd'], [], ['e', 'f']] ∧ s.handed.map (·.1) = [.err, .out, .out, .out, .out] := by
  refine ⟨_, rfl, ?_, by rfl, by rfl⟩
  refine ⟨fun p => ?_, fun s1 h1 => ⟨trivial, fun s2 h2 => ⟨fun p => ?_, fun s3 h3 => ⟨fun p => ?_, fun _ _ => trivial⟩⟩⟩⟩
  all_goals first | cases h1 | skip
  all_goals first | cases h2 | skip
  all_goals first | cases h3 | skip
  all_goals cases p <;> decide

end Verif.Props.Process
