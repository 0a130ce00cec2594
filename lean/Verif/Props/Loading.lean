import Verif.Lsp.Loading
/-! # C64 (loading and status), C65 (diagnostics are recomputed), C66 (the server follows the disk) -/

namespace Verif.Props.Loading
open Verif.Lsp.Loading Verif.Lsp.Loading.Spec
open Verif.Vfs (Bytes)
open Verif.Lsp.OpQueue (Queue)

variable {P : Type} [DecidableEq P]

/-! ### The end of a turn -/

/-- Agreement of the fields the end of a turn does not touch. -/
def Same (m m' : Main P) : Prop :=
  m'.running = m.running ∧ m'.configVersion = m.configVersion ∧ m'.progressVersion = m.progressVersion ∧
  m'.nTotal = m.nTotal ∧ m'.nDone = m.nDone ∧ m'.configErrors = m.configErrors ∧ m'.docs = m.docs

theorem Same.refl (m : Main P) : Same m m := ⟨rfl, rfl, rfl, rfl, rfl, rfl, rfl⟩

theorem Same.trans {a b c : Main P} (h : Same a b) (h' : Same b c) : Same a c :=
  ⟨h'.1.trans h.1, h'.2.1.trans h.2.1, h'.2.2.1.trans h.2.2.1, h'.2.2.2.1.trans h.2.2.2.1,
    h'.2.2.2.2.1.trans h.2.2.2.2.1, h'.2.2.2.2.2.1.trans h.2.2.2.2.2.1, h'.2.2.2.2.2.2.trans h.2.2.2.2.2.2⟩

theorem same_take (m : Main P) : Same m m.takeChanges := ⟨rfl, rfl, rfl, rfl, rfl, rfl, rfl⟩

theorem whenQuiescent_spec (m : Main P) (w c d : Bool) : Same m (m.whenQuiescent w c d) ∧
    (m.whenQuiescent w c d).lastStatus = m.lastStatus ∧ (m.whenQuiescent w c d).vfs = m.vfs ∧
    (m.whenQuiescent w c d).docsChanged = m.docsChanged ∧
    ∃ o, (m.whenQuiescent w c d).out = m.out ++ o ∧ o.filterMap tagOf = [] ∧ o.filterMap toldOf = [] ∧
      o.filterMap Main.observed.diagnosedOf = if !w || c || d then [.diagnosed m.docs] else [] := by
  cases w <;> cases c <;> cases d <;> cases hp : m.prefill <;> cases hr : m.refresh <;>
    simp [Main.whenQuiescent, hp, hr, Same, tagOf, toldOf, Main.observed.diagnosedOf] <;> rfl

theorem startPriming_spec (m : Main P) : Same m m.startPriming ∧ m.startPriming.lastStatus = m.lastStatus ∧
    m.startPriming.vfs = m.vfs ∧ m.startPriming.docsChanged = m.docsChanged ∧
    ∃ o, m.startPriming.out = m.out ++ o ∧ o.filterMap tagOf = [] ∧ o.filterMap toldOf = [] ∧
      o.filterMap Main.observed.diagnosedOf = [] := by
  unfold Main.startPriming
  split <;> simp [Same, tagOf, toldOf, Main.observed.diagnosedOf]

/-- The loading has got as far as the configuration. -/
def Main.ready (m : Main P) : Bool := !(decide (m.progressVersion < m.configVersion) || decide (m.nDone < m.nTotal))

theorem quiescent_eq (m : Main P) : m.isQuiescent = (m.lastStatus.isSome && Main.ready m) := by
  cases h : m.lastStatus <;> simp [Main.isQuiescent, Main.ready, h]

theorem ready_same {m m' : Main P} (h : Same m m') : Main.ready m' = Main.ready m := by
  obtain ⟨-, h1, h2, h3, h4, -⟩ := h
  simp [Main.ready, h1, h2, h3, h4]

theorem updateStatus_spec (m : Main P) : Same m m.updateStatus ∧ m.updateStatus.lastStatus = some m.currentStatus ∧
    m.updateStatus.vfs = m.vfs ∧ m.updateStatus.docsChanged = m.docsChanged ∧
    ∃ o, m.updateStatus.out = m.out ++ o ∧ o.filterMap tagOf = [] ∧
      (o.filterMap toldOf = [m.currentStatus] ∨ (o = [] ∧ m.lastStatus = some m.currentStatus)) ∧
      o.filterMap Main.observed.diagnosedOf = [] := by
  unfold Main.updateStatus
  split
  · simp [Same, tagOf, toldOf, Main.observed.diagnosedOf]
  · rename_i h
    simp only [ne_eq, Decidable.not_not] at h
    simp [Same, h]

/-- What was reported is the current state, as long as the first report does not change it. -/
theorem status_current {m m' : Main P} (hs : Same m m') (hl : m'.lastStatus = some m.currentStatus)
    (h0 : m.lastStatus = none → Main.ready m = false) : m'.lastStatus = some m'.currentStatus := by
  rw [hl]
  simp only [Main.currentStatus, quiescent_eq, hl, Option.isSome_some, Bool.true_and, ready_same hs]
  have he : m'.configErrors = m.configErrors := hs.2.2.2.2.2.1
  rw [he]
  cases h : m.lastStatus with
  | none => simp [h0 h]
  | some s => simp

/-- What the end of a turn does. -/
theorem endTurn_spec (m : Main P) (w : Bool) (h0 : m.lastStatus = none → Main.ready m = false) :
    Same m (m.endTurn w) ∧ (m.endTurn w).vfs = (m.vfs.step .take).1 ∧ (m.endTurn w).docsChanged = false ∧
    (m.endTurn w).lastStatus = some (m.endTurn w).currentStatus ∧
    (m.lastStatus = none → (m.endTurn w).isQuiescent = false) ∧
    (m.lastStatus ≠ none → (m.endTurn w).isQuiescent = m.isQuiescent) ∧
    (told (m.out) = m.lastStatus → told (m.endTurn w).out = (m.endTurn w).lastStatus) ∧
    (m.endTurn w).out.filterMap tagOf = m.out.filterMap tagOf ∧
    m.observed w = (if !m.vfs.pending.isEmpty || m.docsChanged then [.changed] else []) ++
      (if m.isQuiescent && (!w || !m.vfs.pending.isEmpty || m.docsChanged) then [.diagnosed m.docs] else []) := by
  have hq : m.takeChanges.isQuiescent = m.isQuiescent := rfl
  obtain ⟨k, hk, k1, k2, k3, k4, o, k5, k6, k7, k8⟩ : ∃ k, k = (if m.takeChanges.isQuiescent then
      m.takeChanges.whenQuiescent w (!m.vfs.pending.isEmpty) m.docsChanged else m.takeChanges) ∧ Same m k ∧
      k.lastStatus = m.lastStatus ∧ k.vfs = (m.vfs.step .take).1 ∧ k.docsChanged = false ∧
      ∃ o, k.out = m.out ++ o ∧ o.filterMap tagOf = [] ∧ o.filterMap toldOf = [] ∧
      o.filterMap Main.observed.diagnosedOf =
        (if m.isQuiescent && (!w || !m.vfs.pending.isEmpty || m.docsChanged) then [.diagnosed m.docs] else []) := by
    refine ⟨_, rfl, ?_⟩
    rw [hq]
    cases hb : m.isQuiescent with
    | true =>
      obtain ⟨h1, h2, h3, h4, o, h5, h6, h7, h8⟩ :=
        whenQuiescent_spec m.takeChanges w (!m.vfs.pending.isEmpty) m.docsChanged
      rw [if_pos rfl]
      exact ⟨(same_take m).trans h1, h2, h3, h4, o, h5, h6, h7, by rw [h8]; simp [Main.takeChanges]⟩
    | false => exact ⟨same_take m, rfl, rfl, rfl, [], by simp [Main.takeChanges]⟩
  obtain ⟨p1, p2, p3, p4, o', p5, p6, p7, p8⟩ := startPriming_spec k
  obtain ⟨u1, u2, u3, u4, o'', u5, u6, u7, u8⟩ := updateStatus_spec k.startPriming
  have he : m.endTurn w = k.startPriming.updateStatus := by simp only [Main.endTurn]; rw [hk]
  have hsame : Same m (m.endTurn w) := by rw [he]; exact (k1.trans p1).trans u1
  have hls : k.startPriming.lastStatus = m.lastStatus := p2.trans k2
  have hcur : (m.endTurn w).lastStatus = some (m.endTurn w).currentStatus := by
    rw [he]
    exact status_current u1 u2 (fun h => by rw [ready_same (k1.trans p1)]; exact h0 (hls ▸ h))
  have hout : (m.endTurn w).out = m.out ++ (o ++ o' ++ o'') := by rw [he, u5, p5, k5]; simp
  refine ⟨hsame, by rw [he, u3, p3, k3], by rw [he, u4, p4, k4], hcur, ?_, ?_, ?_, ?_, ?_⟩
  · intro hn
    rw [quiescent_eq, ready_same hsame, h0 hn]
    simp
  · intro hn
    rw [quiescent_eq, quiescent_eq, ready_same hsame, hcur]
    cases h : m.lastStatus with
    | none => exact absurd h hn
    | some s => simp
  · intro ht
    rw [hcur]
    rw [he] at hcur ⊢
    rw [u2] at hcur
    rw [← hcur]
    rcases u7 with u7 | ⟨u7, u9⟩
    · rw [u5]; simp [told, List.filterMap_append, u7]
    · rw [u5, p5, k5, u7]
      simp only [told, List.filterMap_append, k7, p7, List.filterMap_nil, List.append_nil]
      rw [← u9, hls]
      exact ht
  · rw [hout]; simp [List.filterMap_append, k6, p6, u6]
  · simp only [Main.observed, hout, List.drop_left]
    rw [List.filterMap_append, List.filterMap_append, k8, p8, u8]
    simp

/-! ### The way of the progress messages -/

/-- Version, number of entries and number of entries done. -/
structure T where
  v : Nat
  t : Nat
  d : Nat

/-- The next message: one more entry of the same configuration, or, when that is done, the start of the next one. -/
def Next (a b : T) : Prop :=
  (b.v = a.v ∧ b.t = a.t ∧ b.d = a.d + 1 ∧ b.d ≤ b.t) ∨ (a.d = a.t ∧ b.d = 0 ∧ b.v = a.v + 1 ∧ 1 ≤ b.t)

def Way : T → List T → T → Prop
  | a, [], z => a = z
  | a, b :: l, z => Next a b ∧ Way b l z

theorem way_snoc {a z b : T} {l : List T} (h : Way a l z) (hn : Next z b) : Way a (l ++ [b]) b := by
  induction l generalizing a with
  | nil => cases h; exact ⟨hn, rfl⟩
  | cons c l ih => exact ⟨h.1, ih h.2⟩

theorem way_mono {a z : T} {l : List T} (h : Way a l z) : a.v ≤ z.v := by
  induction l generalizing a with
  | nil => cases h; exact Nat.le_refl _
  | cons c l ih =>
    have := ih h.2
    rcases h.1 with h1 | h1 <;> omega

theorem way_ended {a z : T} {l : List T} (h : Way a l z) (hd : a.d = a.t) (hv : z.v ≤ a.v) : l = [] ∧ a = z := by
  cases l with
  | nil => exact ⟨rfl, h⟩
  | cons c l =>
    have := way_mono h.2
    rcases h.1 with h1 | h1 <;> omega

def progOf : Msg P → Option T
  | .progress t d v => some ⟨v, t, d⟩
  | .loaded _ => none

def triple (m : Main P) : T := ⟨m.progressVersion, m.nTotal, m.nDone⟩

def versionOf : Req P → Option Nat
  | .config v _ => some v
  | .invalidate _ => none

/-! ### Loaded files -/

/-- The contents after a list of writes. -/
def after (p : P) (fs : Files P) (c : Option Bytes) : Option Bytes :=
  fs.foldl (fun acc f => if f.1 = p then f.2 else acc) c

theorem after_append (p : P) (a b : Files P) (c : Option Bytes) : after p (a ++ b) c = after p b (after p a c) := by
  simp [after]

theorem content_set (s : Vfs.Spec.State P) (q : P) (c : Option Bytes) (p : P) :
    (s.step (.set q c)).1.content p = if q = p then c else s.content p := by
  simp only [Vfs.Spec.State.step]
  split
  · rename_i h
    split
    · rename_i h'; rw [← h', h]
    · rfl
  · by_cases h : p = q
    · subst h; simp
    · simp [h, Ne.symm h]

theorem loaded_spec (fs : Files P) : ∀ m : Main P, Same m (m.loaded fs) ∧ (m.loaded fs).lastStatus = m.lastStatus ∧
    (m.loaded fs).docsChanged = m.docsChanged ∧ (m.loaded fs).out = m.out ∧
    (m.loaded fs).primeQueue = m.primeQueue ∧
    ∀ p, (m.loaded fs).vfs.content p = if p ∈ m.docs then m.vfs.content p else after p fs (m.vfs.content p) := by
  induction fs with
  | nil => intro m; simp [Main.loaded, Same, after]
  | cons f fs ih =>
    intro m
    obtain ⟨q, c⟩ := f
    simp only [Main.loaded]
    split
    · rename_i hq
      obtain ⟨h1, h2, h3, h4, h5, h6⟩ := ih m
      refine ⟨h1, h2, h3, h4, h5, fun p => ?_⟩
      rw [h6]
      split
      · rfl
      · rename_i hp
        have : q ≠ p := fun e => hp (e ▸ hq)
        simp [after, this]
    · rename_i hq
      obtain ⟨h1, h2, h3, h4, h5, h6⟩ := ih { m with vfs := (m.vfs.step (.set q c)).1 }
      refine ⟨h1, h2, h3, h4, h5, fun p => ?_⟩
      rw [h6]
      simp only [content_set]
      split
      · rename_i hp
        have : q ≠ p := fun e => hq (e ▸ hp)
        simp [this]
      · simp [after]

/-! ### Messages of the loader -/

def filesOf : Msg P → Files P
  | .loaded fs => fs
  | .progress .. => []

/-- What handling messages leaves alone. -/
def Kept (m m' : Main P) : Prop :=
  m'.running = m.running ∧ m'.configVersion = m.configVersion ∧ m'.configErrors = m.configErrors ∧ m'.docs = m.docs ∧
  m'.lastStatus = m.lastStatus ∧ m'.docsChanged = m.docsChanged ∧ told m'.out = told m.out ∧ m'.primeQueue = m.primeQueue

def Shown (m : Main P) : Prop := Legal (decide (m.nDone < m.nTotal)) (m.out.filterMap tagOf)

theorem legal_cast {b b' : Bool} {l : List Tag} (h : Legal b l) (hb : b = b') : Legal b' l := hb ▸ h

theorem vfsMsg_spec (m : Main P) (x : Msg P) (l : List T) (z : T)
    (hw : Way (triple m) ((progOf x).toList ++ l) z) (hv : z.v ≤ m.configVersion) (hd : m.nDone ≤ m.nTotal) (hs : Shown m) :
    ∃ m', m.vfsMsg x = some m' ∧ Kept m m' ∧ Way (triple m') l z ∧ m'.nDone ≤ m'.nTotal ∧ Shown m' ∧
      ∀ p, m'.vfs.content p = if p ∈ m.docs then m.vfs.content p else after p (filesOf x) (m.vfs.content p) := by
  cases x with
  | loaded fs =>
    obtain ⟨h1, h2, h3, h4, h5, h6⟩ := loaded_spec fs m
    obtain ⟨g1, g2, g3, g4, g5, g6, g7⟩ := h1
    refine ⟨_, rfl, ⟨g1, g2, g6, g7, h2, h3, by rw [h4], h5⟩, ?_, by rw [g4, g5]; exact hd, ?_, h6⟩
    · simpa [triple, g3, g4, g5, progOf] using hw
    · simpa [Shown, g4, g5, h4] using hs
  | progress t d v =>
    simp only [progOf, Option.toList_some, List.singleton_append] at hw
    obtain ⟨hn, hw⟩ := hw
    have hvz := way_mono hw
    simp only [Next, triple] at hn
    have hdt : d ≤ t := by rcases hn with h | h <;> omega
    have hvv : v ≤ m.configVersion := Nat.le_trans hvz hv
    simp only [Main.vfsMsg, if_pos hvv]
    have hafter : ∀ p : P, m.vfs.content p = if p ∈ m.docs then m.vfs.content p else
        after p (filesOf (.progress t d v)) (m.vfs.content p) := by intro p; simp [filesOf, after]
    by_cases h0 : d = 0
    · have hnd : ¬ m.nDone < m.nTotal := by rcases hn with h | h <;> omega
      have ht : 0 < t := by rcases hn with h | h <;> omega
      subst h0
      simp only [if_true, if_pos hdt]
      refine ⟨_, rfl, ⟨rfl, rfl, rfl, rfl, rfl, rfl, by simp [told, toldOf], rfl⟩, hw, hdt, ?_, hafter⟩
      have hs' : Legal false (m.out.filterMap tagOf) := by simpa [Shown, hnd] using hs
      have := Legal.start hs'
      simpa [Shown, ht, tagOf] using this
    · have hlt : m.nDone < m.nTotal := by rcases hn with h | h <;> omega
      have hs' : Legal true (m.out.filterMap tagOf) := by simpa [Shown, hlt] using hs
      simp only [if_neg h0]
      by_cases h1 : d < t
      · simp only [if_pos h1]
        refine ⟨_, rfl, ⟨rfl, rfl, rfl, rfl, rfl, rfl, by simp [told, toldOf], rfl⟩, hw, hdt, ?_, hafter⟩
        have := Legal.tick hs'
        simpa [Shown, h1, tagOf] using this
      · have h2 : d = t := by omega
        simp only [if_neg h1, if_pos h2]
        refine ⟨_, rfl, ⟨rfl, rfl, rfl, rfl, rfl, rfl, by simp [told, toldOf], rfl⟩, hw, hdt, ?_, hafter⟩
        have := Legal.stop hs'
        simpa [Shown, h1, tagOf] using this

theorem vfsMsgs_spec (xs : List (Msg P)) : ∀ (m : Main P) (l : List T) (z : T),
    Way (triple m) (xs.filterMap progOf ++ l) z → z.v ≤ m.configVersion → m.nDone ≤ m.nTotal → Shown m →
    ∃ m', m.vfsMsgs xs = some m' ∧ Kept m m' ∧ Way (triple m') l z ∧ m'.nDone ≤ m'.nTotal ∧ Shown m' ∧
      ∀ p, m'.vfs.content p = if p ∈ m.docs then m.vfs.content p else after p (xs.flatMap filesOf) (m.vfs.content p) := by
  induction xs with
  | nil =>
    intro m l z hw hv hd hs
    exact ⟨m, rfl, ⟨rfl, rfl, rfl, rfl, rfl, rfl, rfl, rfl⟩, hw, hd, hs, fun p => by simp [after]⟩
  | cons x xs ih =>
    intro m l z hw hv hd hs
    have hw' : Way (triple m) ((progOf x).toList ++ (xs.filterMap progOf ++ l)) z := by
      cases hx : progOf x <;> simpa [List.filterMap_cons, hx] using hw
    obtain ⟨m1, h1, k1, w1, d1, s1, c1⟩ := vfsMsg_spec m x _ z hw' hv hd hs
    obtain ⟨m2, h2, k2, w2, d2, s2, c2⟩ := ih m1 l z w1 (by rw [k1.2.1]; exact hv) d1 s1
    refine ⟨m2, by simp [Main.vfsMsgs, h1, h2], ?_, w2, d2, s2, ?_⟩
    · obtain ⟨a1, a2, a3, a4, a5, a6, a7, a8⟩ := k1
      obtain ⟨b1, b2, b3, b4, b5, b6, b7, b8⟩ := k2
      exact ⟨b1.trans a1, b2.trans a2, b3.trans a3, b4.trans a4, b5.trans a5, b6.trans a6, b7.trans a7, b8.trans a8⟩
    · intro p
      rw [c2, c1, k1.2.2.2.1, List.flatMap_cons, after_append]
      split <;> rfl

/-! ### The first invariant: versions, status, freshness -/

def ActorOk : Actor P → T → Prop
  | .loading v n i _ _, z => z = ⟨v, n, i⟩ ∧ i < n
  | _, z => z.d = z.t

structure Inv (s : Sys P) (z : T) : Prop where
  way : Way (triple s.main) (s.chan.filterMap progOf) z
  dt : s.main.nDone ≤ s.main.nTotal
  zle : z.v ≤ s.main.configVersion
  actor : ActorOk s.actor z
  inbox : s.inbox.filterMap versionOf = List.range' (z.v + 1) (s.main.configVersion - z.v)
  pos : ∀ v n, .config v n ∈ s.inbox → 1 ≤ n
  cv : 1 ≤ s.main.configVersion
  idle : s.main.running = false → triple s.main = ⟨0, 0, 0⟩
  runs : s.main.running = true → s.main.lastStatus ≠ none
  shown : Shown s.main
  told : told s.main.out = s.main.lastStatus
  cur : s.main.lastStatus ≠ none → s.main.lastStatus = some s.main.currentStatus
  clean : s.main.vfs.pending = [] ∧ s.main.docsChanged = false
  fresh : s.main.isQuiescent = true → Fresh s.log s.main.docs

theorem not_ready {m : Main P} (h : triple m = ⟨0, 0, 0⟩) (hc : 1 ≤ m.configVersion) : Main.ready m = false := by
  simp only [triple, T.mk.injEq] at h
  simp [Main.ready, h.1]
  intro h'
  omega

theorem fresh_append {log l : List (Obs P)} {docs : List P} (h : Fresh log docs) (hl : .changed ∉ l) :
    Fresh (log ++ l) docs := by
  obtain ⟨a, b, rfl, hb⟩ := h
  exact ⟨a, b ++ l, by simp, by simp [hb, hl]⟩

theorem fresh_last (x y : List (Obs P)) (docs : List P) : Fresh (x ++ (y ++ [.diagnosed docs])) docs :=
  ⟨x ++ y, [], by simp, by simp⟩

/-- What every turn of the main loop has in common: `m` is the state after the event itself, `l` what was observed. -/
theorem turn {s : Sys P} {z : T} (h : Inv s z) (m : Main P) (l : List (Obs P)) (chan : List (Msg P)) (req : List (Req P))
    (hrun : m.running = s.main.running) (hls : m.lastStatus = s.main.lastStatus)
    (htold : Spec.told m.out = Spec.told s.main.out) (hway : Way (triple m) (chan.filterMap progOf) z) (hdt : m.nDone ≤ m.nTotal)
    (hcv : s.main.configVersion ≤ m.configVersion)
    (hreq : req.filterMap versionOf = List.range' (s.main.configVersion + 1) (m.configVersion - s.main.configVersion))
    (hpos : ∀ v n, .config v n ∈ req → 1 ≤ n) (hidle : s.main.running = false → triple m = triple s.main)
    (hshown : Shown m) (hdocs : m.docsChanged = false → m.docs = s.main.docs) (hl : .changed ∉ l) (lsp : List (ClientMsg P)) :
    Inv { s with lsp := lsp, chan := chan, inbox := s.inbox ++ req, main := m.endTurn s.main.isQuiescent,
                 log := s.log ++ l ++ m.observed s.main.isQuiescent } z := by
  have hcv1 : 1 ≤ m.configVersion := Nat.le_trans h.cv hcv
  have h0 : m.lastStatus = none → Main.ready m = false := by
    intro hn
    cases hr : s.main.running with
    | true => exact absurd (hls ▸ hn) (h.runs hr)
    | false => exact not_ready ((hidle hr).trans (h.idle hr)) hcv1
  obtain ⟨e1, e2, e3, e4, e5, e6, e7, e8, e9⟩ := endTurn_spec m s.main.isQuiescent h0
  obtain ⟨g1, g2, g3, g4, g5, g6, g7⟩ := e1
  constructor
  · simpa [triple, g3, g4, g5] using hway
  · simpa [g4, g5] using hdt
  · simp only [g2]; exact Nat.le_trans h.zle hcv
  · exact h.actor
  · simp only [g2, List.filterMap_append, h.inbox, hreq]
    have h1 := h.zle
    have : s.main.configVersion + 1 = z.v + 1 + (s.main.configVersion - z.v) := by omega
    rw [this, List.range'_append_1]
    congr 1
    omega
  · intro v n hv
    rcases List.mem_append.1 hv with hv | hv
    · exact h.pos v n hv
    · exact hpos v n hv
  · simp only [g2]; exact hcv1
  · intro hr
    simp only [g1, hrun] at hr
    simpa [triple, g3, g4, g5] using (hidle hr).trans (h.idle hr)
  · intro _; simp [e4]
  · simpa [Shown, g4, g5, e8] using hshown
  · exact e7 (by rw [htold, h.told, hls])
  · intro _; exact e4
  · exact ⟨by simp [e2, Vfs.Spec.State.step], e3⟩
  · intro hq
    simp only [g7]
    have hn : m.lastStatus ≠ none := by
      intro hn
      rw [e5 hn] at hq
      exact Bool.noConfusion hq
    rw [e6 hn] at hq
    rw [e9]
    simp only [hq, Bool.true_and]
    cases hw : s.main.isQuiescent with
    | false => simp only [Bool.not_true, Bool.not_false, Bool.false_or, Bool.true_or, Bool.or_true, if_true]; exact fresh_last _ _ _
    | true =>
      cases hp : m.vfs.pending.isEmpty with
      | false => simp only [Bool.not_true, Bool.not_false, Bool.false_or, Bool.true_or, Bool.or_true, if_true]; exact fresh_last _ _ _
      | true =>
        cases hd : m.docsChanged with
        | true => simp only [Bool.not_true, Bool.not_false, Bool.false_or, Bool.true_or, Bool.or_true, if_true]; exact fresh_last _ _ _
        | false =>
          simp only [Bool.not_true, Bool.or_self, Bool.false_eq_true, if_false, List.append_nil]
          rw [hdocs hd]
          exact fresh_append (h.fresh hw) hl

theorem inv_init (disk : P → Option Bytes) (n : Nat) (pf rf : Bool) : Inv (Sys.init disk n pf rf) ⟨0, 0, 0⟩ where
  way := rfl
  dt := Nat.le_refl _
  zle := Nat.zero_le _
  actor := rfl
  inbox := rfl
  pos := by intro v n h; simp [Sys.init] at h; omega
  cv := Nat.le_refl _
  idle := fun _ => rfl
  runs := fun h => Bool.noConfusion h
  shown := Legal.nothing
  told := rfl
  cur := fun h => absurd rfl h
  clean := ⟨rfl, rfl⟩
  fresh := fun h => Bool.noConfusion h

theorem clientMsg_spec (m : Main P) (c : ClientMsg P) : 
    (m.clientMsg c).1.running = m.running ∧ (m.clientMsg c).1.lastStatus = m.lastStatus ∧
    (m.clientMsg c).1.out = m.out ∧ triple (m.clientMsg c).1 = triple m ∧
    m.configVersion ≤ (m.clientMsg c).1.configVersion ∧
    (m.clientMsg c).2.1.filterMap versionOf =
      List.range' (m.configVersion + 1) ((m.clientMsg c).1.configVersion - m.configVersion) ∧
    (∀ v n, .config v n ∈ (m.clientMsg c).2.1 → 1 ≤ n) ∧
    (m.docsChanged = false → (m.clientMsg c).1.docsChanged = false → (m.clientMsg c).1.docs = m.docs) ∧
    .changed ∉ (m.clientMsg c).2.2 := by
  cases c with
  | didOpen p t => simp [Main.clientMsg, triple]
  | didChange p t => simp only [Main.clientMsg]; split <;> simp [triple]
  | didClose p => simp [Main.clientMsg, triple, versionOf]
  | watched ps =>
    simp [Main.clientMsg, triple]
    intro a _
    rfl
  | configuration ch n b pf => cases ch <;> simp [Main.clientMsg, triple, versionOf]
  | other => simp [Main.clientMsg, triple]

theorem shown_of {m m' : Main P} (h : triple m' = triple m) (ho : m'.out = m.out) (hs : Shown m) : Shown m' := by
  simp only [triple, T.mk.injEq] at h
  simpa [Shown, h.2.1, h.2.2, ho] using hs

theorem dt_of {m m' : Main P} (h : triple m' = triple m) (hs : m.nDone ≤ m.nTotal) : m'.nDone ≤ m'.nTotal := by
  simp only [triple, T.mk.injEq] at h
  rw [h.2.1, h.2.2]
  exact hs

/-! ### The second invariant: what was found is delivered -/

/-- Events that neither configure nor find. -/
def Neutral (l : List (Obs P)) : Prop := ∀ o ∈ l, (∀ v n, o ≠ .configured v n) ∧ ∀ v i fs, o ≠ .found v i fs

structure LogInv (cv : Nat) (inbox : List (Req P)) (actor : Actor P) (chan : List (Msg P)) (log : List (Obs P)) (z : T) :
    Prop where
  conf : ∀ v, 1 ≤ v → v ≤ cv → ∃ n, .configured v n ∈ log
  rng : ∀ v n, .configured v n ∈ log → v ≤ cv
  uniq : ∀ v n n', .configured v n ∈ log → .configured v n' ∈ log → n = n'
  inb : ∀ v n, .config v n ∈ inbox → .configured v n ∈ log
  zc : ∀ n, .configured z.v n ∈ log → n = z.t
  past : ∀ v n, .configured v n ∈ log → v < z.v → ∀ i < n, ∃ fs, .found v i fs ∈ log
  now : ∀ i < z.d, ∃ fs, .found z.v i fs ∈ log
  sent : ∀ v n i f, actor = .loading v n i f true → ∃ fs, .found v i fs ∈ log
  deliv : ∀ v i fs, .found v i fs ∈ log → Before log (.found v i fs) (.delivered fs) ∨
    ∃ c1 c2, chan = c1 ++ .loaded fs :: c2 ∧
      ((∃ t, ⟨v, t, i + 1⟩ ∈ c2.filterMap progOf) ∨ ∃ n f, actor = .loading v n i f true)

theorem before_append {α : Type} {l : List α} {a b : α} (h : Before l a b) (m : List α) : Before (l ++ m) a b := by
  obtain ⟨x, y, z, rfl⟩ := h
  exact ⟨x, y, z ++ m, by simp⟩

theorem before_of {α : Type} {l m : List α} {a b : α} (h : a ∈ l) (h' : b ∈ m) : Before (l ++ m) a b := by
  obtain ⟨x, y, rfl⟩ := List.append_of_mem h
  obtain ⟨x', y', rfl⟩ := List.append_of_mem h'
  exact ⟨x, y ++ x', y', by simp⟩

/-- Neutral events change nothing. -/
theorem LogInv.neutral {cv : Nat} {inbox : List (Req P)} {actor : Actor P} {chan : List (Msg P)} {log l : List (Obs P)} {z : T}
    (h : LogInv cv inbox actor chan log z) (hl : Neutral l) : LogInv cv inbox actor chan (log ++ l) z := by
  have hc : ∀ v n, .configured v n ∈ log ++ l → .configured v n ∈ log := by
    intro v n hm
    rcases List.mem_append.1 hm with hm | hm
    · exact hm
    · exact absurd rfl ((hl _ hm).1 v n)
  have hf : ∀ v i fs, .found v i fs ∈ log ++ l → .found v i fs ∈ log := by
    intro v i fs hm
    rcases List.mem_append.1 hm with hm | hm
    · exact hm
    · exact absurd rfl ((hl _ hm).2 v i fs)
  have hi : ∀ {o}, o ∈ log → o ∈ log ++ l := fun h => List.mem_append_left _ h
  constructor
  · intro v h1 h2; obtain ⟨n, hn⟩ := h.conf v h1 h2; exact ⟨n, hi hn⟩
  · intro v n hm; exact h.rng v n (hc v n hm)
  · intro v n n' h1 h2; exact h.uniq v n n' (hc _ _ h1) (hc _ _ h2)
  · intro v n hm; exact hi (h.inb v n hm)
  · intro n hm; exact h.zc n (hc _ _ hm)
  · intro v n hm hv i hin; obtain ⟨fs, hfs⟩ := h.past v n (hc _ _ hm) hv i hin; exact ⟨fs, hi hfs⟩
  · intro i hin; obtain ⟨fs, hfs⟩ := h.now i hin; exact ⟨fs, hi hfs⟩
  · intro v n i f ha; obtain ⟨fs, hfs⟩ := h.sent v n i f ha; exact ⟨fs, hi hfs⟩
  · intro v i fs hm
    rcases h.deliv v i fs (hf _ _ _ hm) with h1 | h1
    · exact Or.inl (before_append h1 l)
    · exact Or.inr h1

/-- The loader goes on without sending, from a state in which it has not just sent files. -/
theorem LogInv.actor {cv : Nat} {inbox inbox' : List (Req P)} {actor actor' : Actor P} {chan : List (Msg P)} {log : List (Obs P)}
    {z : T} (h : LogInv cv inbox actor chan log z) (ha : ∀ v n i f, actor ≠ .loading v n i f true)
    (ha' : ∀ v n i f, actor' ≠ .loading v n i f true) (hi : ∀ r ∈ inbox', r ∈ inbox) :
    LogInv cv inbox' actor' chan log z where
  conf := h.conf
  rng := h.rng
  uniq := h.uniq
  inb := fun v n hm => h.inb v n (hi _ hm)
  zc := h.zc
  past := h.past
  now := h.now
  sent := fun v n i f e => absurd e (ha' v n i f)
  deliv := by
    intro v i fs hm
    rcases h.deliv v i fs hm with h1 | ⟨c1, c2, h1, h2⟩
    · exact Or.inl h1
    · rcases h2 with h2 | ⟨n, f, h2⟩
      · exact Or.inr ⟨c1, c2, h1, Or.inl h2⟩
      · exact absurd h2 (ha v n i f)

/-- The loader starts a configuration. -/
theorem LogInv.take {cv : Nat} {inbox rest : List (Req P)} {actor actor' : Actor P} {chan : List (Msg P)} {log : List (Obs P)}
    {z : T} {v n : Nat} (h : LogInv cv inbox actor chan log z) (ha : ∀ v n i f, actor ≠ .loading v n i f true)
    (ha' : ∀ v n i f, actor' ≠ .loading v n i f true) (hi : inbox = .config v n :: rest) (hz : z.d = z.t) (hv : v = z.v + 1) :
    LogInv cv rest actor' (chan ++ [.progress n 0 v]) log ⟨v, n, 0⟩ where
  conf := h.conf
  rng := h.rng
  uniq := h.uniq
  inb := fun v' n' hm => h.inb v' n' (by rw [hi]; exact List.mem_cons_of_mem _ hm)
  zc := fun n' hm => h.uniq v n' n hm (h.inb v n (by rw [hi]; exact List.mem_cons_self))
  past := by
    intro v' n' hm hlt i hin
    simp only [hv] at hlt
    rcases Nat.lt_or_ge v' z.v with h1 | h1
    · exact h.past v' n' hm h1 i hin
    · obtain rfl : v' = z.v := by omega
      have := h.zc n' hm
      exact h.now i (by omega)
  now := fun i hin => absurd hin (Nat.not_lt_zero _)
  sent := fun v n i f e => absurd e (ha' v n i f)
  deliv := by
    intro v' i fs hm
    rcases h.deliv v' i fs hm with h1 | ⟨c1, c2, h1, h2⟩
    · exact Or.inl h1
    · rcases h2 with ⟨t, h2⟩ | ⟨n, f, h2⟩
      · exact Or.inr ⟨c1, c2 ++ [.progress n 0 v], by simp [h1], Or.inl ⟨t, by simp [List.filterMap_append, h2]⟩⟩
      · exact absurd h2 (ha v' n i f)

/-- The loader sends the files of an entry. -/
theorem LogInv.sendFiles {cv : Nat} {inbox : List (Req P)} {v n i : Nat} {f f' : Files P} {chan : List (Msg P)}
    {log : List (Obs P)} {z : T} (h : LogInv cv inbox (.loading v n i f false) chan log z) :
    LogInv cv inbox (.loading v n i f' true) (chan ++ [.loaded f]) (log ++ [.found v i f]) z := by
  have hi : ∀ {o}, o ∈ log → o ∈ log ++ [.found v i f] := fun h => List.mem_append_left _ h
  have hc : ∀ v' n', .configured v' n' ∈ log ++ [.found v i f] → .configured v' n' ∈ log := by
    intro v' n' hm; simpa using hm
  constructor
  · intro v h1 h2; obtain ⟨n, hn⟩ := h.conf v h1 h2; exact ⟨n, hi hn⟩
  · intro v n hm; exact h.rng v n (hc v n hm)
  · intro v n n' h1 h2; exact h.uniq v n n' (hc _ _ h1) (hc _ _ h2)
  · intro v n hm; exact hi (h.inb v n hm)
  · intro n hm; exact h.zc n (hc _ _ hm)
  · intro v n hm hv i hin; obtain ⟨fs, hfs⟩ := h.past v n (hc _ _ hm) hv i hin; exact ⟨fs, hi hfs⟩
  · intro i hin; obtain ⟨fs, hfs⟩ := h.now i hin; exact ⟨fs, hi hfs⟩
  · intro v' n' i' f'' e
    simp only [Actor.loading.injEq] at e
    obtain ⟨rfl, rfl, rfl, -⟩ := e
    exact ⟨f, by simp⟩
  · intro v' i' fs hm
    rcases List.mem_append.1 hm with hm | hm
    · rcases h.deliv v' i' fs hm with h1 | ⟨c1, c2, h1, h2⟩
      · exact Or.inl (before_append h1 _)
      · rcases h2 with ⟨t, h2⟩ | ⟨n, f, h2⟩
        · exact Or.inr ⟨c1, c2 ++ [.loaded f], by simp [h1], Or.inl ⟨t, by rw [List.filterMap_append]; exact List.mem_append_left _ h2⟩⟩
        · simp at h2
    · simp only [List.mem_singleton, Obs.found.injEq] at hm
      obtain ⟨rfl, rfl, rfl⟩ := hm
      exact Or.inr ⟨chan, [], rfl, Or.inr ⟨n, f', rfl⟩⟩

/-- The loader reports an entry as done. -/
theorem LogInv.sendProgress {cv : Nat} {inbox : List (Req P)} {v n i : Nat} {f : Files P} {actor' : Actor P}
    {chan : List (Msg P)} {log : List (Obs P)} (h : LogInv cv inbox (.loading v n i f true) chan log ⟨v, n, i⟩)
    (ha' : ∀ v n i f, actor' ≠ .loading v n i f true) :
    LogInv cv inbox actor' (chan ++ [.progress n (i + 1) v]) log ⟨v, n, i + 1⟩ where
  conf := h.conf
  rng := h.rng
  uniq := h.uniq
  inb := h.inb
  zc := h.zc
  past := h.past
  now := by
    intro j hj
    simp only at hj
    rcases Nat.lt_or_ge j i with h1 | h1
    · exact h.now j h1
    · obtain rfl : j = i := by omega
      exact h.sent v n j f rfl
  sent := fun v n i f e => absurd e (ha' v n i f)
  deliv := by
    intro v' i' fs hm
    rcases h.deliv v' i' fs hm with h1 | ⟨c1, c2, h1, h2⟩
    · exact Or.inl h1
    · refine Or.inr ⟨c1, c2 ++ [.progress n (i + 1) v], by simp [h1], Or.inl ?_⟩
      rw [List.filterMap_append]
      rcases h2 with ⟨t, h2⟩ | ⟨n', f', h2⟩
      · exact ⟨t, List.mem_append_left _ h2⟩
      · simp only [Actor.loading.injEq] at h2
        obtain ⟨rfl, rfl, rfl, -⟩ := h2
        exact ⟨n, List.mem_append_right _ (List.mem_singleton.2 rfl)⟩

/-- The loader sends other files. -/
theorem LogInv.sendOther {cv : Nat} {inbox : List (Req P)} {actor actor' : Actor P} {f : Files P}
    {chan : List (Msg P)} {log : List (Obs P)} {z : T} (h : LogInv cv inbox actor chan log z)
    (ha : ∀ v n i f, actor ≠ .loading v n i f true) (ha' : ∀ v n i f, actor' ≠ .loading v n i f true) :
    LogInv cv inbox actor' (chan ++ [.loaded f]) log z where
  conf := h.conf
  rng := h.rng
  uniq := h.uniq
  inb := h.inb
  zc := h.zc
  past := h.past
  now := h.now
  sent := fun v n i f e => absurd e (ha' v n i f)
  deliv := by
    intro v' i' fs hm
    rcases h.deliv v' i' fs hm with h1 | ⟨c1, c2, h1, h2⟩
    · exact Or.inl h1
    · rcases h2 with ⟨t, h2⟩ | ⟨n', f', h2⟩
      · exact Or.inr ⟨c1, c2 ++ [.loaded f], by simp [h1], Or.inl ⟨t, by rw [List.filterMap_append]; exact List.mem_append_left _ h2⟩⟩
      · exact absurd h2 (ha _ _ _ _)

/-- The main loop handles messages of the loader. -/
theorem LogInv.handle {cv : Nat} {inbox : List (Req P)} {actor : Actor P} {a b : List (Msg P)} {log : List (Obs P)} {z : T}
    (h : LogInv cv inbox actor (a ++ b) log z) :
    LogInv cv inbox actor b (log ++ a.filterMap Sys.step.deliveredOf) z := by
  have hn : Neutral (a.filterMap Sys.step.deliveredOf) := by
    intro o ho
    obtain ⟨x, -, hx⟩ := List.mem_filterMap.1 ho
    cases x with
    | loaded fs =>
      simp only [Sys.step.deliveredOf, Option.some.injEq] at hx
      subst hx
      exact ⟨fun _ _ e => (nomatch e), fun _ _ _ e => (nomatch e)⟩
    | progress t d v => simp [Sys.step.deliveredOf] at hx
  have h' := h.neutral hn
  refine { h' with deliv := ?_ }
  intro v i fs hm
  have hm' : .found v i fs ∈ log := by
    rcases List.mem_append.1 hm with hm | hm
    · exact hm
    · exact absurd rfl ((hn _ hm).2 v i fs)
  rcases h.deliv v i fs hm' with h1 | ⟨c1, c2, h1, h2⟩
  · exact Or.inl (before_append h1 _)
  · rcases List.append_eq_append_iff.1 h1 with ⟨l, e1, e2⟩ | ⟨l, e1, e2⟩
    · exact Or.inr ⟨l, c2, e2, h2⟩
    · cases l with
      | nil =>
        simp only [List.nil_append] at e2
        exact Or.inr ⟨[], c2, e2.symm, h2⟩
      | cons x l =>
        simp only [List.cons_append, List.cons.injEq] at e2
        obtain ⟨rfl, -⟩ := e2
        refine Or.inl (before_of hm' ?_)
        rw [e1]
        exact List.mem_filterMap.2 ⟨.loaded fs, by simp, rfl⟩

/-- The main loop sends requests to the loader. -/
theorem LogInv.request {cv : Nat} {inbox : List (Req P)} {actor : Actor P} {chan : List (Msg P)} {log : List (Obs P)} {z : T}
    (h : LogInv cv inbox actor chan log z) (hz : z.v ≤ cv) (n : Nat) :
    LogInv (cv + 1) (inbox ++ [.config (cv + 1) n]) actor chan (log ++ [.configured (cv + 1) n]) z := by
  have hi : ∀ {o}, o ∈ log → o ∈ log ++ [.configured (cv + 1) n] := fun h => List.mem_append_left _ h
  have hc : ∀ v' n', .configured v' n' ∈ log ++ [.configured (cv + 1) n] → v' ≤ cv → .configured v' n' ∈ log := by
    intro v' n' hm hv
    simp only [List.mem_append, List.mem_singleton, Obs.configured.injEq] at hm
    rcases hm with hm | hm
    · exact hm
    · omega
  have hf : ∀ v i fs, .found v i fs ∈ log ++ [.configured (cv + 1) n] → .found v i fs ∈ log := by
    intro v i fs hm; simpa using hm
  constructor
  · intro v h1 h2
    rcases Nat.lt_or_ge cv v with h3 | h3
    · obtain rfl : v = cv + 1 := by omega
      exact ⟨n, by simp⟩
    · obtain ⟨n, hn⟩ := h.conf v h1 h3; exact ⟨n, hi hn⟩
  · intro v n' hm
    simp only [List.mem_append, List.mem_singleton, Obs.configured.injEq] at hm
    rcases hm with hm | hm
    · have := h.rng v n' hm; omega
    · omega
  · intro v n1 n2 h1 h2
    simp only [List.mem_append, List.mem_singleton, Obs.configured.injEq] at h1 h2
    rcases h1 with h1 | h1 <;> rcases h2 with h2 | h2
    · exact h.uniq v n1 n2 h1 h2
    · have := h.rng v n1 h1; omega
    · have := h.rng v n2 h2; omega
    · omega
  · intro v n' hm
    simp only [List.mem_append, List.mem_singleton, Req.config.injEq] at hm
    rcases hm with hm | ⟨rfl, rfl⟩
    · exact hi (h.inb v n' hm)
    · simp
  · intro n' hm; exact h.zc n' (hc _ _ hm hz)
  · intro v n' hm hv i hin
    obtain ⟨fs, hfs⟩ := h.past v n' (hc _ _ hm (by omega)) hv i hin; exact ⟨fs, hi hfs⟩
  · intro i hin; obtain ⟨fs, hfs⟩ := h.now i hin; exact ⟨fs, hi hfs⟩
  · intro v n i f ha; obtain ⟨fs, hfs⟩ := h.sent v n i f ha; exact ⟨fs, hi hfs⟩
  · intro v i fs hm
    rcases h.deliv v i fs (hf _ _ _ hm) with h1 | h1
    · exact Or.inl (before_append h1 _)
    · exact Or.inr h1

/-- Requests that are not configurations. -/
theorem LogInv.more {cv : Nat} {inbox req : List (Req P)} {actor : Actor P} {chan : List (Msg P)} {log : List (Obs P)} {z : T}
    (h : LogInv cv inbox actor chan log z) (hr : ∀ v n, .config v n ∉ req) :
    LogInv cv (inbox ++ req) actor chan log z := by
  refine { h with inb := ?_ }
  intro v n hm
  rcases List.mem_append.1 hm with hm | hm
  · exact h.inb v n hm
  · exact absurd hm (hr v n)

theorem neutral_observed (m : Main P) (w : Bool) : Neutral (m.observed w) := by
  intro o ho
  simp only [Main.observed, List.mem_append] at ho
  rcases ho with ho | ho
  · split at ho
    · simp only [List.mem_singleton] at ho
      subst ho
      exact ⟨fun _ _ e => (nomatch e), fun _ _ _ e => (nomatch e)⟩
    · simp at ho
  · obtain ⟨x, -, hx⟩ := List.mem_filterMap.1 ho
    cases x <;> simp [Main.observed.diagnosedOf] at hx
    subst hx
    exact ⟨fun _ _ e => (nomatch e), fun _ _ _ e => (nomatch e)⟩

def SysLog (s : Sys P) (z : T) : Prop := LogInv s.main.configVersion s.inbox s.actor s.chan s.log z

theorem clientMsg_log {m : Main P} {inbox : List (Req P)} {actor : Actor P} {chan : List (Msg P)} {log : List (Obs P)} {z : T}
    (h : LogInv m.configVersion inbox actor chan log z) (hz : z.v ≤ m.configVersion) (c : ClientMsg P) :
    LogInv (m.clientMsg c).1.configVersion (inbox ++ (m.clientMsg c).2.1) actor chan (log ++ (m.clientMsg c).2.2) z := by
  cases c with
  | didOpen p t => simpa [Main.clientMsg] using h
  | didChange p t => simp only [Main.clientMsg]; split <;> simpa using h
  | didClose p => simpa [Main.clientMsg] using h.more (req := [.invalidate p]) (by simp)
  | watched ps =>
    refine (h.more (req := ps.map .invalidate) (by simp)).neutral ?_
    intro o ho
    obtain ⟨p, -, rfl⟩ := List.mem_map.1 ho
    exact ⟨fun _ _ e => (nomatch e), fun _ _ _ e => (nomatch e)⟩
  | configuration ch n b pf =>
    cases ch with
    | true => exact h.request hz (n + 1)
    | false => simpa [Main.clientMsg] using h
  | other => simpa [Main.clientMsg] using h

theorem endTurn_version (m : Main P) (w : Bool) : (m.endTurn w).configVersion = m.configVersion := by
  simp only [Main.endTurn]
  obtain ⟨u1, -⟩ := updateStatus_spec (Main.startPriming (if m.takeChanges.isQuiescent then
      m.takeChanges.whenQuiescent w (!m.vfs.pending.isEmpty) m.docsChanged else m.takeChanges))
  obtain ⟨p1, -⟩ := startPriming_spec (if m.takeChanges.isQuiescent then
      m.takeChanges.whenQuiescent w (!m.vfs.pending.isEmpty) m.docsChanged else m.takeChanges)
  rw [u1.2.1, p1.2.1]
  split
  · exact (whenQuiescent_spec m.takeChanges w (!m.vfs.pending.isEmpty) m.docsChanged).1.2.1
  · rfl

theorem endTurn_running (m : Main P) (w : Bool) : (m.endTurn w).running = m.running := by
  simp only [Main.endTurn]
  obtain ⟨u1, -⟩ := updateStatus_spec (Main.startPriming (if m.takeChanges.isQuiescent then
      m.takeChanges.whenQuiescent w (!m.vfs.pending.isEmpty) m.docsChanged else m.takeChanges))
  obtain ⟨p1, -⟩ := startPriming_spec (if m.takeChanges.isQuiescent then
      m.takeChanges.whenQuiescent w (!m.vfs.pending.isEmpty) m.docsChanged else m.takeChanges)
  rw [u1.1, p1.1]
  split
  · exact (whenQuiescent_spec m.takeChanges w (!m.vfs.pending.isEmpty) m.docsChanged).1.1
  · rfl

theorem neutral_seen (p : P) : Neutral [.seen p] := by
  intro o ho
  simp only [List.mem_singleton] at ho
  subst ho
  exact ⟨fun _ _ e => (nomatch e), fun _ _ _ e => (nomatch e)⟩

theorem inv_step {s : Sys P} {z : T} (h : Inv s z) (a : Act P) :
    ∃ s' z', s.step a = some s' ∧ Inv s' z' ∧ (SysLog s z → SysLog s' z') := by
  cases a with
  | write p c => exact ⟨_, z, rfl, { h with }, id⟩
  | report p => exact ⟨_, z, rfl, { h with }, id⟩
  | send m => exact ⟨_, z, rfl, { h with }, id⟩
  | actorWatch =>
    simp only [Sys.step]
    split
    · rename_i ha
      refine ⟨_, z, rfl, { h with actor := ?_ }, (fun hl => by unfold SysLog at hl ⊢; rw [ha] at hl; exact hl.actor (by rintro _ _ _ _ ⟨⟩) (by rintro _ _ _ _ ⟨⟩) (fun _ h => h))⟩
      have := h.actor
      rw [ha] at this
      exact this
    · exact ⟨_, z, rfl, h, id⟩
  | actorTake =>
    simp only [Sys.step]
    split
    · rename_i v n rest ha hi
      have hpos : 1 ≤ n := h.pos v n (by rw [hi]; exact List.mem_cons_self)
      have hact := h.actor
      rw [ha] at hact
      have hin := h.inbox
      have hz := h.zle
      rw [hi] at hin
      simp only [List.filterMap_cons, versionOf] at hin
      obtain ⟨k, hk⟩ : ∃ k, s.main.configVersion - z.v = k + 1 := by
        cases hk : s.main.configVersion - z.v with
        | zero => rw [hk] at hin; simp at hin
        | succ k => exact ⟨k, rfl⟩
      rw [hk, List.range'_succ] at hin
      simp only [List.cons.injEq] at hin
      have hnext : Next z ⟨v, n, 0⟩ := Or.inr ⟨hact, rfl, hin.1, hpos⟩
      refine ⟨_, ⟨v, n, 0⟩, rfl, { h with way := ?_, zle := ?_, actor := ?_, inbox := ?_, pos := ?_ },
        (fun hl => by unfold SysLog at hl ⊢; rw [ha] at hl; exact hl.take (by rintro _ _ _ _ ⟨⟩) (by intro _ _ _ _ e; split at e <;> cases e) hi hact hin.1)⟩
      · simp only [List.filterMap_append, List.filterMap_cons, progOf, List.filterMap_nil]
        exact way_snoc h.way hnext
      · show v ≤ s.main.configVersion
        omega
      · have hn : n ≠ 0 := by omega
        simp only [if_neg hn]
        exact ⟨rfl, hpos⟩
      · simp only [hin.2]
        have : s.main.configVersion - v = k := by omega
        rw [this, hin.1]
      · intro v' n' hv
        exact h.pos v' n' (by rw [hi]; exact List.mem_cons_of_mem _ hv)
    · rename_i p rest ha hi
      have hact := h.actor
      rw [ha] at hact
      have hin := h.inbox
      rw [hi] at hin
      refine ⟨_, z, rfl, { h with actor := hact, inbox := hin, pos := ?_ },
        (fun hl => by unfold SysLog at hl ⊢; rw [ha] at hl; exact hl.actor (by rintro _ _ _ _ ⟨⟩) (by rintro _ _ _ _ ⟨⟩) (fun _ h => by rw [hi]; exact List.mem_cons_of_mem _ h))⟩
      intro v' n' hv
      exact h.pos v' n' (by rw [hi]; exact List.mem_cons_of_mem _ hv)
    · exact ⟨_, z, rfl, h, id⟩
  | actorRead p =>
    simp only [Sys.step]
    have hf : s.main.isQuiescent = true → ∀ q, Fresh (s.log ++ [.seen q]) s.main.docs :=
      fun hq q => fresh_append (h.fresh hq) (by simp)
    split
    · rename_i v n i found ha
      have hact := h.actor
      rw [ha] at hact
      exact ⟨_, z, rfl, { h with actor := hact, fresh := fun hq => hf hq p },
        (fun hl => by unfold SysLog at hl ⊢; rw [ha] at hl; exact (hl.actor (by rintro _ _ _ _ ⟨⟩) (by rintro _ _ _ _ ⟨⟩) (fun _ h => h)).neutral (neutral_seen p))⟩
    · rename_i q ha
      have hact := h.actor
      rw [ha] at hact
      exact ⟨_, z, rfl, { h with actor := hact, fresh := fun hq => hf hq q },
        (fun hl => by unfold SysLog at hl ⊢; rw [ha] at hl; exact (hl.actor (by rintro _ _ _ _ ⟨⟩) (by rintro _ _ _ _ ⟨⟩) (fun _ h => h)).neutral (neutral_seen q))⟩
    · rename_i found ha
      have hact := h.actor
      rw [ha] at hact
      exact ⟨_, z, rfl, { h with actor := hact, fresh := fun hq => hf hq p },
        (fun hl => by unfold SysLog at hl ⊢; rw [ha] at hl; exact (hl.actor (by rintro _ _ _ _ ⟨⟩) (by rintro _ _ _ _ ⟨⟩) (fun _ h => h)).neutral (neutral_seen p))⟩
    · exact ⟨_, z, rfl, h, id⟩
  | actorSend =>
    simp only [Sys.step]
    split
    · rename_i v n i found ha
      have hact := h.actor
      rw [ha] at hact
      refine ⟨_, z, rfl, { h with actor := hact, way := ?_, fresh := fun hq => fresh_append (h.fresh hq) (by simp) },
        (fun hl => by unfold SysLog at hl ⊢; rw [ha] at hl; exact hl.sendFiles)⟩
      rw [List.filterMap_append]
      show Way _ (_ ++ []) _
      rw [List.append_nil]
      exact h.way
    · rename_i v n i found ha
      have hact := h.actor
      rw [ha] at hact
      obtain ⟨rfl, hin⟩ := hact
      have hnext : Next ⟨v, n, i⟩ ⟨v, n, i + 1⟩ := Or.inl ⟨rfl, rfl, rfl, hin⟩
      refine ⟨_, ⟨v, n, i + 1⟩, rfl, { h with actor := ?_, way := ?_, zle := h.zle, inbox := h.inbox },
        (fun hl => by unfold SysLog at hl ⊢; rw [ha] at hl; exact hl.sendProgress (by intro _ _ _ _ e; split at e <;> cases e))⟩
      · simp only [List.filterMap_append, List.filterMap_cons, progOf, List.filterMap_nil]
        exact way_snoc h.way hnext
      · by_cases he : i + 1 = n
        · simp only [if_pos he]; exact he
        · simp only [if_neg he]
          exact ⟨rfl, by omega⟩
    · rename_i found ha
      have hact := h.actor
      rw [ha] at hact
      refine ⟨_, z, rfl, { h with actor := hact, way := ?_ }, (fun hl => by unfold SysLog at hl ⊢; rw [ha] at hl; exact hl.sendOther (by rintro _ _ _ _ ⟨⟩) (by rintro _ _ _ _ ⟨⟩))⟩
      rw [List.filterMap_append]
      show Way _ (_ ++ []) _
      rw [List.append_nil]
      exact h.way
    · exact ⟨_, z, rfl, h, id⟩
  | start =>
    simp only [Sys.step]
    split
    · exact ⟨_, z, rfl, h, id⟩
    · rename_i hr
      simp only [Bool.not_eq_true] at hr
      obtain ⟨g, u2, u3, u4, o, u5, u6, u7, u8⟩ := updateStatus_spec s.main
      have g' := g
      obtain ⟨g1, g2, g3, g4, g5, g6, g7⟩ := g'
      have hnr := not_ready (h.idle hr) h.cv
      have hcur := status_current g u2 (fun _ => hnr)
      refine ⟨_, z, rfl, ?_, fun hl => by unfold SysLog at hl ⊢; simpa [g2] using hl⟩
      constructor
      · simpa [triple, g3, g4, g5] using h.way
      · simpa [g4, g5] using h.dt
      · simpa [g2] using h.zle
      · exact h.actor
      · simpa [g2] using h.inbox
      · exact h.pos
      · simpa [g2] using h.cv
      · intro h'; exact Bool.noConfusion h'
      · intro _; simp [u2]
      · simpa [Shown, g4, g5, u5, u6, List.filterMap_append] using h.shown
      · show Spec.told s.main.updateStatus.out = s.main.updateStatus.lastStatus
        rw [u2, u5]
        rcases u7 with u7 | ⟨u7, u9⟩
        · simp [Spec.told, List.filterMap_append, u7]
        · rw [u7, List.append_nil, h.told, u9]
      · intro _; exact hcur
      · simpa [u3, u4] using h.clean
      · intro hq
        rw [quiescent_eq] at hq
        have : Main.ready ({ s.main.updateStatus with running := true } : Main P) = Main.ready s.main :=
          (show Main.ready s.main.updateStatus = _ from ready_same g)
        rw [this, hnr] at hq
        simp at hq
  | turnClient =>
    simp only [Sys.step]
    split
    · exact ⟨_, z, rfl, h, id⟩
    · rename_i c rest hl
      obtain ⟨c1, c2, c3, c4, c5, c6, c7, c8, c9⟩ := clientMsg_spec s.main c
      exact ⟨_, z, rfl, turn h (s.main.clientMsg c).1 (s.main.clientMsg c).2.2 s.chan (s.main.clientMsg c).2.1 c1 c2
        (by rw [c3]) (by rw [c4]; exact h.way) (dt_of c4 h.dt) c5 c6 c7 (fun _ => c4) (shown_of c4 c3 h.shown)
        (c8 h.clean.2) c9 rest, fun hl => by
          unfold SysLog at hl ⊢
          rw [endTurn_version]
          exact (clientMsg_log hl h.zle c).neutral (neutral_observed _ _)⟩
  | turnLoader k =>
    simp only [Sys.step]
    split
    · rename_i hr
      have hway := h.way
      rw [← List.take_append_drop (k + 1) s.chan, List.filterMap_append] at hway
      obtain ⟨m', e1, ⟨k1, k2, k3, k4, k5, k6, k7, k8⟩, e3, e4, e5, e6⟩ :=
        vfsMsgs_spec (s.chan.take (k + 1)) s.main _ z hway h.zle h.dt h.shown
      rw [e1]
      refine ⟨_, z, rfl, ?_, fun hl => by
        unfold SysLog at hl ⊢
        rw [endTurn_version, k2]
        rw [← List.take_append_drop (k + 1) s.chan] at hl
        exact hl.handle.neutral (neutral_observed _ _)⟩
      have := turn h m' ((s.chan.take (k + 1)).filterMap Sys.step.deliveredOf) (s.chan.drop (k + 1)) [] k1 k5 k7 e3 e4
        (by rw [k2]; exact Nat.le_refl _) (by simp [k2]) (by simp) (fun hf => by simp [hf] at hr) e5 (fun _ => k4)
        (by
          intro hm
          obtain ⟨x, -, hx⟩ := List.mem_filterMap.1 hm
          cases x <;> simp [Sys.step.deliveredOf] at hx) s.lsp
      simpa using this
    · exact ⟨_, z, rfl, h, id⟩
  | turnPrimed c =>
    simp only [Sys.step]
    split
    · rename_i hr
      simp only [Queue.opCompleted, hr.2, if_true, Option.map_some]
      refine ⟨_, z, rfl, ?_, fun hl => by
        unfold SysLog at hl ⊢
        rw [endTurn_version]
        exact hl.neutral (neutral_observed _ _)⟩
      have := turn h { s.main with primeQueue := if c then (Queue.requestOp { s.main.primeQueue with inProgress := false } ()) else { s.main.primeQueue with inProgress := false } }
        [] s.chan [] rfl rfl rfl h.way h.dt (Nat.le_refl _) (by simp) (by simp) (fun _ => rfl) h.shown (fun _ => rfl) (by simp) s.lsp
      simpa using this
    · exact ⟨_, z, rfl, h, id⟩
  | turnOther =>
    simp only [Sys.step]
    split
    · refine ⟨_, z, rfl, ?_, fun hl => by
        unfold SysLog at hl ⊢
        rw [endTurn_version]
        exact hl.neutral (neutral_observed _ _)⟩
      have := turn h s.main [] s.chan [] rfl rfl rfl h.way h.dt (Nat.le_refl _) (by simp) (by simp) (fun _ => rfl) h.shown
        (fun _ => rfl) (by simp) s.lsp
      simpa using this
    · exact ⟨_, z, rfl, h, id⟩

theorem log_init (disk : P → Option Bytes) (n : Nat) (pf rf : Bool) : SysLog (Sys.init disk n pf rf) ⟨0, 0, 0⟩ where
  conf := by
    intro v h1 h2
    obtain rfl : v = 1 := by simp only [Sys.init] at h2; omega
    exact ⟨n + 1, by simp [Sys.init]⟩
  rng := by intro v n hm; simp [Sys.init] at hm ⊢; omega
  uniq := by intro v n n' h1 h2; simp [Sys.init] at h1 h2; omega
  inb := by intro v n hm; simpa [Sys.init] using hm
  zc := by intro n hm; simp [Sys.init] at hm
  past := by intro v n _ hv; exact absurd hv (Nat.not_lt_zero _)
  now := by intro i hi; exact absurd hi (Nat.not_lt_zero _)
  sent := by rintro v n i f ⟨⟩
  deliv := by intro v i fs hm; simp [Sys.init] at hm

theorem inv_run {s : Sys P} {z : T} (h : Inv s z) (hl : SysLog s z) (as : List (Act P)) :
    ∃ s' z', s.run as = some s' ∧ Inv s' z' ∧ SysLog s' z' := by
  induction as generalizing s z with
  | nil => exact ⟨s, z, rfl, h, hl⟩
  | cons a as ih =>
    obtain ⟨s1, z1, h1, i1, l1⟩ := inv_step h a
    obtain ⟨s2, z2, h2, i2⟩ := ih i1 (l1 hl)
    exact ⟨s2, z2, by simp [Sys.run, h1, h2], i2⟩

theorem reach (disk : P → Option Bytes) (n : Nat) (pf rf : Bool) (as : List (Act P)) :
    ∃ s z, (Sys.init disk n pf rf).run as = some s ∧ Inv s z ∧ SysLog s z :=
  inv_run (inv_init disk n pf rf) (log_init disk n pf rf) as

theorem reached {disk : P → Option Bytes} {n : Nat} {pf rf : Bool} {as : List (Act P)} {s : Sys P}
    (h : (Sys.init disk n pf rf).run as = some s) : ∃ z, Inv s z ∧ SysLog s z := by
  obtain ⟨s', z, h', hi⟩ := reach disk n pf rf as
  rw [h] at h'
  cases h'
  exact ⟨z, hi⟩

theorem quiescent_end {s : Sys P} {z : T} (h : Inv s z) (hq : s.main.isQuiescent = true) :
    s.chan.filterMap progOf = [] ∧ triple s.main = z ∧ z.v = s.main.configVersion ∧ z.d = z.t := by
  rw [quiescent_eq, Bool.and_eq_true] at hq
  simp only [Main.ready, Bool.not_eq_true', Bool.or_eq_false_iff, decide_eq_false_iff_not] at hq
  have hdt := h.dt
  have hz := h.zle
  obtain ⟨h1, h2⟩ := way_ended h.way (by simp only [triple]; omega) (by simp only [triple]; omega)
  refine ⟨h1, h2, ?_, ?_⟩ <;> · rw [← h2] at hz ⊢; simp only [triple] at hz ⊢; omega

/-- **C64, no panic.** Whatever the client, the disk, the loader and the main loop do in whatever order, no assertion about
the progress of loading fails. -/
theorem loading_no_panic (disk : P → Option Bytes) (n : Nat) (pf rf : Bool) (as : List (Act P)) :
    ∃ s, (Sys.init disk n pf rf).run as = some s := by
  obtain ⟨s, z, h, -⟩ := reach disk n pf rf as
  exact ⟨s, h⟩

/-- **C64, what the client is told.** From its first turn on the server has told the client whether it is quiescent, and it
never tells it so before every file found under the latest configuration has been handed to the main loop. -/
theorem quiescent_means_loaded (disk : P → Option Bytes) (n : Nat) (pf rf : Bool) (as : List (Act P)) (s : Sys P)
    (h : (Sys.init disk n pf rf).run as = some s) (st : Status) (ht : told s.main.out = some st) (hq : st.quiescent = true) :
    AllDelivered s.log s.main.configVersion ∧ (∀ v k, .configured v k ∈ s.log → v ≤ s.main.configVersion) := by
  obtain ⟨z, hi, hl⟩ := reached h
  have hls : s.main.lastStatus = some st := by rw [← hi.told]; exact ht
  have hc := hi.cur (by simp [hls])
  rw [hls, Option.some.injEq] at hc
  have hqs : s.main.isQuiescent = true := by rw [hc] at hq; exact hq
  obtain ⟨h1, h2, h3, h4⟩ := quiescent_end hi hqs
  refine ⟨?_, hl.rng⟩
  obtain ⟨k, hk⟩ := hl.conf s.main.configVersion hi.cv (Nat.le_refl _)
  refine ⟨k, hk, fun i hik => ?_⟩
  rw [← h3] at hk ⊢
  have hkt := hl.zc k hk
  obtain ⟨fs, hf⟩ := hl.now i (by omega)
  refine ⟨fs, ?_⟩
  rcases hl.deliv _ _ _ hf with h5 | ⟨c1, c2, h5, h6⟩
  · exact h5
  · rcases h6 with ⟨t, h6⟩ | ⟨k', f, h6⟩
    · rw [h5, List.filterMap_append, List.append_eq_nil_iff] at h1
      have : c2.filterMap progOf = [] := h1.2
      rw [this] at h6
      simp at h6
    · have := hi.actor
      rw [h6] at this
      obtain ⟨e, hlt⟩ := this
      rw [e] at h4
      simp only at h4
      omega

/-- **C64, what the client is told (2).** When the loader is done and all its messages are handled, the server has told the
client that it is quiescent. -/
theorem loaded_means_quiescent (disk : P → Option Bytes) (n : Nat) (pf rf : Bool) (as : List (Act P)) (s : Sys P)
    (h : (Sys.init disk n pf rf).run as = some s) (hd : LoaderDone s) (hr : s.main.running = true) :
    ∃ st, told s.main.out = some st ∧ st.quiescent = true := by
  obtain ⟨z, hi, -⟩ := reached h
  obtain ⟨d1, d2, d3⟩ := hd
  have hls := hi.runs hr
  have hc := hi.cur hls
  refine ⟨s.main.currentStatus, by rw [hi.told]; exact hc, ?_⟩
  have hw := hi.way
  rw [d3] at hw
  have hz : triple s.main = z := hw
  have ha := hi.actor
  rw [d2] at ha
  have hin := hi.inbox
  rw [d1] at hin
  have hlen := congrArg List.length hin
  simp only [List.filterMap_nil, List.length_nil, List.length_range'] at hlen
  have hle := hi.zle
  show s.main.isQuiescent = true
  rw [quiescent_eq]
  rw [← hz] at ha hlen hle
  simp only [triple, ActorOk] at ha hlen hle
  cases hs : s.main.lastStatus with
  | none => exact absurd hs hls
  | some x => simp [Main.ready]; omega

/-- **C64, progress.** The progress "Roots Scanned" the client sees is always started, reported and stopped in turn, and it
has been stopped when the server is quiescent. -/
theorem progress_legal (disk : P → Option Bytes) (n : Nat) (pf rf : Bool) (as : List (Act P)) (s : Sys P)
    (h : (Sys.init disk n pf rf).run as = some s) :
    ∃ shown, Legal shown (s.main.out.filterMap tagOf) ∧ (s.main.isQuiescent = true → shown = false) := by
  obtain ⟨z, hi, -⟩ := reached h
  refine ⟨_, hi.shown, fun hq => ?_⟩
  obtain ⟨-, h2, -, h4⟩ := quiescent_end hi hq
  rw [← h2] at h4
  simp only [triple] at h4
  simp [h4]

/-- **C65.** Whenever the server is quiescent, diagnostics jobs for exactly the documents now open were started after the
last change to the contents of any file and after the last opening or closing of a document. -/
theorem diagnostics_fresh (disk : P → Option Bytes) (n : Nat) (pf rf : Bool) (as : List (Act P)) (s : Sys P)
    (h : (Sys.init disk n pf rf).run as = some s) (hq : s.main.isQuiescent = true) : Fresh s.log s.main.docs := by
  obtain ⟨z, hi, -⟩ := reached h
  exact hi.fresh hq

/-! ### The third invariant: the server follows the disk -/

/-- Files the loader has read and not sent yet. -/
def actorFiles : Actor P → Files P
  | .loading _ _ _ f false => f
  | .loading _ _ _ _ true => []
  | .batch f => f
  | .idle => []
  | .todo _ => []

/-- What the virtual file system will hold for a file that is not open once all that was read has been handled. -/
def eff (s : Sys P) (p : P) : Option Bytes :=
  after p (s.chan.flatMap filesOf ++ actorFiles s.actor) (s.main.vfs.content p)

/-- The file is going to be read. -/
def Pending (s : Sys P) (p : P) : Prop :=
  p ∈ s.unreported ∨ (∃ ps, .watched ps ∈ s.lsp ∧ p ∈ ps) ∨ .invalidate p ∈ s.inbox ∨ s.actor = .todo p

def DiskInv (s : Sys P) : Prop :=
  ∀ p, p ∉ s.main.docs → Pending s p ∨ eff s p = s.disk p ∨ (.seen p ∉ s.log ∧ eff s p = none)

theorem after_read (p q : P) (fs : Files P) (b : Option Bytes) (c : Option Bytes) :
    after p (fs ++ [(q, b)]) c = if q = p then b else after p fs c := by simp [after]

theorem endTurn_vfs (m : Main P) (w : Bool) : (m.endTurn w).vfs.content = m.vfs.content ∧ (m.endTurn w).docs = m.docs := by
  simp only [Main.endTurn]
  obtain ⟨u1, u2⟩ := updateStatus_spec (Main.startPriming (if m.takeChanges.isQuiescent then
      m.takeChanges.whenQuiescent w (!m.vfs.pending.isEmpty) m.docsChanged else m.takeChanges))
  obtain ⟨p1, p2⟩ := startPriming_spec (if m.takeChanges.isQuiescent then
      m.takeChanges.whenQuiescent w (!m.vfs.pending.isEmpty) m.docsChanged else m.takeChanges)
  refine ⟨?_, ?_⟩
  · rw [u2.2.1, p2.2.1]
    split
    · rw [(whenQuiescent_spec m.takeChanges w (!m.vfs.pending.isEmpty) m.docsChanged).2.2.1]; rfl
    · rfl
  · rw [u1.2.2.2.2.2.2, p1.2.2.2.2.2.2]
    split
    · exact (whenQuiescent_spec m.takeChanges w (!m.vfs.pending.isEmpty) m.docsChanged).1.2.2.2.2.2.2
    · rfl

theorem seen_observed (m : Main P) (w : Bool) (p : P) : .seen p ∉ m.observed w := by
  simp only [Main.observed, List.mem_append, not_or]
  constructor
  · split <;> simp
  · intro h
    obtain ⟨x, -, hx⟩ := List.mem_filterMap.1 h
    cases x <;> simp [Main.observed.diagnosedOf] at hx

/-- A read of one file. -/
theorem disk_read {s : Sys P} (h : DiskInv s) (a : Actor P) (q : P) (ha : actorFiles a = actorFiles s.actor ++ [(q, s.disk q)])
    (ht : ∀ p, s.actor = .todo p → p = q) : DiskInv { s with actor := a, log := s.log ++ [.seen q] } := by
  intro p hp
  by_cases hpq : q = p
  · subst hpq
    refine Or.inr (Or.inl ?_)
    simp only [eff, ha]
    rw [← List.append_assoc, after_read, if_pos rfl]
  · have he : eff { s with actor := a, log := s.log ++ [.seen q] } p = eff s p := by
      simp only [eff, ha]
      rw [← List.append_assoc, after_read, if_neg hpq]
    rw [he]
    rcases h p hp with h1 | h1 | ⟨h1, h2⟩
    · rcases h1 with h1 | h1 | h1 | h1
      · exact Or.inl (Or.inl h1)
      · exact Or.inl (Or.inr (Or.inl h1))
      · exact Or.inl (Or.inr (Or.inr (Or.inl h1)))
      · exact absurd (ht p h1).symm hpq
    · exact Or.inr (Or.inl h1)
    · refine Or.inr (Or.inr ⟨?_, h2⟩)
      simp only [List.mem_append, List.mem_singleton, Obs.seen.injEq, not_or]
      exact ⟨h1, fun e => hpq e.symm⟩

/-- Whatever leaves the files on their way alone. -/
theorem disk_mono {s s' : Sys P} (h : DiskInv s) (hd : s'.disk = s.disk) (hp : ∀ p, p ∉ s'.main.docs → p ∉ s.main.docs ∨ Pending s' p)
    (hpe : ∀ p, Pending s p → Pending s' p)
    (he : ∀ p, p ∉ s'.main.docs → p ∉ s.main.docs → eff s' p = eff s p)
    (hl : ∀ p, .seen p ∈ s'.log → .seen p ∈ s.log ∨ Pending s' p) : DiskInv s' := by
  intro p hp'
  rcases hp p hp' with h0 | h0
  · rw [he p hp' h0, hd]
    rcases h p h0 with h1 | h1 | ⟨h1, h2⟩
    · exact Or.inl (hpe p h1)
    · exact Or.inr (Or.inl h1)
    · by_cases h3 : .seen p ∈ s'.log
      · rcases hl p h3 with h4 | h4
        · exact absurd h4 h1
        · exact Or.inl h4
      · exact Or.inr (Or.inr ⟨h3, h2⟩)
  · exact Or.inl h0

theorem disk_step {s s' : Sys P} {z : T} (hi : Inv s z) (h : DiskInv s) (a : Act P) (hs : s.step a = some s') : DiskInv s' := by
  cases a with
  | write p c =>
    simp only [Sys.step, Option.some.injEq] at hs
    subst hs
    intro q hq
    by_cases hqp : q = p
    · subst hqp; exact Or.inl (Or.inl (by simp))
    · have he : eff { s with disk := fun q => if q = p then c else s.disk q, unreported := p :: s.unreported } q = eff s q := rfl
      rw [he]
      rcases h q hq with h1 | h1 | h1
      · rcases h1 with h1 | h1
        · exact Or.inl (Or.inl (List.mem_cons_of_mem _ h1))
        · exact Or.inl (Or.inr h1)
      · exact Or.inr (Or.inl (by simp only [if_neg hqp]; exact h1))
      · exact Or.inr (Or.inr h1)
  | report p =>
    simp only [Sys.step, Option.some.injEq] at hs
    subst hs
    refine disk_mono h rfl (fun _ => Or.inl) (fun q hq => ?_) (fun _ _ _ => rfl) (fun _ => Or.inl)
    rcases hq with h1 | ⟨ps, h1, h2⟩ | h1
    · by_cases hqp : q = p
      · exact Or.inr (Or.inl ⟨[p], by simp, by simp [hqp]⟩)
      · exact Or.inl (by simp [h1, hqp])
    · exact Or.inr (Or.inl ⟨ps, by simp [h1], h2⟩)
    · exact Or.inr (Or.inr h1)
  | send m =>
    simp only [Sys.step, Option.some.injEq] at hs
    subst hs
    refine disk_mono h rfl (fun _ => Or.inl) (fun q hq => ?_) (fun _ _ _ => rfl) (fun _ => Or.inl)
    rcases hq with h1 | ⟨ps, h1, h2⟩ | h1
    · exact Or.inl h1
    · exact Or.inr (Or.inl ⟨ps, by simp [h1], h2⟩)
    · exact Or.inr (Or.inr h1)
  | actorTake =>
    simp only [Sys.step] at hs
    split at hs
    · rename_i v n rest ha hin
      cases hs
      refine disk_mono h rfl (fun _ => Or.inl) (fun q hq => ?_) (fun q _ _ => ?_) (fun _ => Or.inl)
      · rcases hq with h1 | h1 | h1 | h1
        · exact Or.inl h1
        · exact Or.inr (Or.inl h1)
        · rw [hin] at h1
          simp only [List.mem_cons, reduceCtorEq, false_or] at h1
          exact Or.inr (Or.inr (Or.inl h1))
        · rw [ha] at h1; cases h1
      · simp only [eff, ha]
        split <;> simp [filesOf, actorFiles]
    · rename_i p rest ha hin
      cases hs
      refine disk_mono h rfl (fun _ => Or.inl) (fun q hq => ?_) (fun q _ _ => ?_) (fun _ => Or.inl)
      · rcases hq with h1 | h1 | h1 | h1
        · exact Or.inl h1
        · exact Or.inr (Or.inl h1)
        · rw [hin] at h1
          simp only [List.mem_cons, Req.invalidate.injEq] at h1
          rcases h1 with rfl | h1
          · exact Or.inr (Or.inr (Or.inr rfl))
          · exact Or.inr (Or.inr (Or.inl h1))
        · rw [ha] at h1; cases h1
      · simp only [eff, ha]; rfl
    · cases hs; exact h
  | actorWatch =>
    simp only [Sys.step] at hs
    split at hs
    · rename_i ha
      cases hs
      refine disk_mono h rfl (fun _ => Or.inl) (fun q hq => ?_) (fun q _ _ => ?_) (fun _ => Or.inl)
      · rcases hq with h1 | h1 | h1 | h1
        · exact Or.inl h1
        · exact Or.inr (Or.inl h1)
        · exact Or.inr (Or.inr (Or.inl h1))
        · rw [ha] at h1; cases h1
      · simp only [eff, ha]; rfl
    · cases hs; exact h
  | actorRead p =>
    simp only [Sys.step] at hs
    split at hs <;> cases hs
    · rename_i ha
      exact disk_read h _ p (by rw [ha]; rfl) (by rw [ha]; rintro _ ⟨⟩)
    · rename_i q ha
      exact disk_read h _ q (by rw [ha]; rfl) (by rw [ha]; rintro _ ⟨⟩; rfl)
    · rename_i ha
      exact disk_read h _ p (by rw [ha]; rfl) (by rw [ha]; rintro _ ⟨⟩)
    · exact h
  | actorSend =>
    simp only [Sys.step] at hs
    split at hs <;> cases hs
    · rename_i ha
      refine disk_mono h rfl (fun _ => Or.inl) (fun q hq => ?_) (fun q _ _ => ?_) (fun _ hm => Or.inl (by simpa using hm))
      · rcases hq with h1 | h1 | h1 | h1
        · exact Or.inl h1
        · exact Or.inr (Or.inl h1)
        · exact Or.inr (Or.inr (Or.inl h1))
        · rw [ha] at h1; cases h1
      · simp [eff, ha, filesOf, actorFiles]
    · rename_i ha
      refine disk_mono h rfl (fun _ => Or.inl) (fun q hq => ?_) (fun q _ _ => ?_) (fun _ hm => Or.inl hm)
      · rcases hq with h1 | h1 | h1 | h1
        · exact Or.inl h1
        · exact Or.inr (Or.inl h1)
        · exact Or.inr (Or.inr (Or.inl h1))
        · rw [ha] at h1; cases h1
      · simp only [eff, ha]
        split <;> simp [filesOf, actorFiles]
    · rename_i ha
      refine disk_mono h rfl (fun _ => Or.inl) (fun q hq => ?_) (fun q _ _ => ?_) (fun _ hm => Or.inl hm)
      · rcases hq with h1 | h1 | h1 | h1
        · exact Or.inl h1
        · exact Or.inr (Or.inl h1)
        · exact Or.inr (Or.inr (Or.inl h1))
        · rw [ha] at h1; cases h1
      · simp [eff, ha, filesOf, actorFiles]
    · exact h
  | start =>
    simp only [Sys.step] at hs
    split at hs <;> cases hs
    · exact h
    · have hv : s.main.updateStatus.vfs = s.main.vfs ∧ s.main.updateStatus.docs = s.main.docs := by
        simp only [Main.updateStatus]; split <;> simp
      refine disk_mono h rfl (fun p hp => Or.inl (by simpa [hv.2] using hp)) (fun q hq => hq) (fun q _ _ => ?_) (fun _ hm => Or.inl hm)
      simp [eff, hv.1]
  | turnClient =>
    simp only [Sys.step] at hs
    split at hs
    · cases hs; exact h
    · rename_i c rest hlsp
      cases hs
      have key : ∀ (m' : Main P) (req : List (Req P)) (l : List (Obs P)),
          (∀ p, p ∉ m'.docs → p ∉ s.main.docs ∨ .invalidate p ∈ req) →
          (∀ p, p ∉ m'.docs → p ∉ s.main.docs → m'.vfs.content p = s.main.vfs.content p) →
          (∀ p ps, c = .watched ps → p ∈ ps → .invalidate p ∈ req) → (∀ p, .seen p ∈ l → .invalidate p ∈ req) →
          DiskInv { s with lsp := rest, main := m'.endTurn s.main.isQuiescent, inbox := s.inbox ++ req,
                           log := s.log ++ l ++ m'.observed s.main.isQuiescent } := by
        intro m' req l h1 h2 h3 h4
        obtain ⟨ev, ed⟩ := endTurn_vfs m' s.main.isQuiescent
        refine disk_mono h rfl (fun p hp => ?_) (fun p hp => ?_) (fun p hp hp' => ?_) (fun p hp => ?_)
        · rcases h1 p (by simpa [ed] using hp) with h5 | h5
          · exact Or.inl h5
          · exact Or.inr (Or.inr (Or.inr (Or.inl (by simp [h5]))))
        · rcases hp with h5 | ⟨ps, h5, h6⟩ | h5 | h5
          · exact Or.inl h5
          · rw [hlsp, List.mem_cons] at h5
            rcases h5 with h5 | h5
            · exact Or.inr (Or.inr (Or.inl (by simp [h3 p ps h5.symm h6])))
            · exact Or.inr (Or.inl ⟨ps, h5, h6⟩)
          · exact Or.inr (Or.inr (Or.inl (by simp [h5])))
          · exact Or.inr (Or.inr (Or.inr h5))
        · simp only [eff, ev]
          rw [h2 p (by simpa [ed] using hp) hp']
        · simp only [List.mem_append, seen_observed, or_false] at hp
          rcases hp with h5 | h5
          · exact Or.inl h5
          · exact Or.inr (Or.inr (Or.inr (Or.inl (by simp [h4 p h5]))))
      cases c with
      | didOpen p t =>
        apply key
        · intro q hq
          simp only [Main.clientMsg, List.mem_cons, List.mem_filter, decide_eq_true_eq, not_or] at hq
          exact Or.inl (fun hm => hq.2 ⟨hm, hq.1⟩)
        · intro q hq _
          simp only [Main.clientMsg, List.mem_cons, not_or] at hq
          simp only [Main.clientMsg, content_set]
          rw [if_neg (fun e => hq.1 e.symm)]
        · rintro _ _ ⟨⟩
        · rintro _ ⟨⟩
      | didChange p t =>
        simp only [Main.clientMsg]
        split
        · rename_i hm
          apply key
          · intro q hq; exact Or.inl hq
          · intro q hq _
            simp only [content_set]
            rw [if_neg (by rintro rfl; exact hq hm)]
          · rintro _ _ ⟨⟩
          · rintro _ ⟨⟩
        · apply key
          · intro q hq; exact Or.inl hq
          · intro q hq _; rfl
          · rintro _ _ ⟨⟩
          · rintro _ ⟨⟩
      | didClose p =>
        apply key
        · intro q hq
          simp only [Main.clientMsg, List.mem_filter, decide_eq_true_eq] at hq
          by_cases hqp : q = p
          · exact Or.inr (by simp [Main.clientMsg, hqp])
          · exact Or.inl (fun hm => hq ⟨hm, hqp⟩)
        · intro q hq _; rfl
        · rintro _ _ ⟨⟩
        · rintro _ ⟨⟩
      | watched ps =>
        apply key
        · intro q hq; exact Or.inl hq
        · intro q hq _; rfl
        · rintro q _ ⟨⟩ hq; simpa [Main.clientMsg] using hq
        · intro q hq; simpa [Main.clientMsg] using hq
      | configuration ch n b pf =>
        cases ch
        · apply key
          · intro q hq; exact Or.inl hq
          · intro q hq _; rfl
          · rintro q _ ⟨⟩
          · intro q hq; simp [Main.clientMsg] at hq
        · apply key
          · intro q hq; exact Or.inl hq
          · intro q hq _; rfl
          · rintro q _ ⟨⟩
          · intro q hq; simp [Main.clientMsg] at hq
      | other =>
        apply key
        · intro q hq; exact Or.inl hq
        · intro q hq _; rfl
        · rintro q _ ⟨⟩
        · intro q hq; simp [Main.clientMsg] at hq
  | turnLoader k =>
    simp only [Sys.step] at hs
    split at hs
    · have hway := hi.way
      rw [← List.take_append_drop (k + 1) s.chan, List.filterMap_append] at hway
      obtain ⟨m', e1, ⟨k1, k2, k3, k4, k5, k6, k7, k8⟩, e3, e4, e5, e6⟩ :=
        vfsMsgs_spec (s.chan.take (k + 1)) s.main _ z hway hi.zle hi.dt hi.shown
      rw [e1, Option.map_some, Option.some.injEq] at hs
      subst hs
      obtain ⟨ev, ed⟩ := endTurn_vfs m' s.main.isQuiescent
      refine disk_mono h rfl (fun p hp => Or.inl (by simpa [ed, k4] using hp)) (fun p hp => hp) (fun p hp hp' => ?_) (fun p hp => ?_)
      · simp only [eff, ev]
        rw [e6 p, if_neg hp', ← after_append, ← List.append_assoc, ← List.flatMap_append, List.take_append_drop]
      · simp only [List.mem_append, seen_observed, or_false] at hp
        rcases hp with hp | hp
        · exact Or.inl hp
        · obtain ⟨x, -, hx⟩ := List.mem_filterMap.1 hp
          cases x <;> simp [Sys.step.deliveredOf] at hx
    · cases hs; exact h
  | turnPrimed c =>
    simp only [Sys.step] at hs
    split at hs
    · rename_i hr
      simp only [Queue.opCompleted, hr.2, if_true, Option.map_some, Option.some.injEq] at hs
      subst hs
      refine disk_mono h rfl (fun p hp => Or.inl (by simpa [endTurn_vfs] using hp)) (fun p hp => hp) (fun p hp hp' => ?_) (fun p hp => ?_)
      · simp [eff, endTurn_vfs]
      · exact Or.inl (by simpa [seen_observed] using hp)
    · cases hs; exact h
  | turnOther =>
    simp only [Sys.step] at hs
    split at hs <;> cases hs
    · refine disk_mono h rfl (fun p hp => Or.inl (by simpa [endTurn_vfs] using hp)) (fun p hp => hp) (fun p hp hp' => ?_) (fun p hp => ?_)
      · simp [eff, endTurn_vfs]
      · exact Or.inl (by simpa [seen_observed] using hp)
    · exact h

theorem disk_run {s s' : Sys P} {z : T} (hi : Inv s z) (hl : SysLog s z) (h : DiskInv s) (as : List (Act P))
    (hs : s.run as = some s') : DiskInv s' := by
  induction as generalizing s z with
  | nil => cases hs; exact h
  | cons a as ih =>
    obtain ⟨s1, z1, h1, i1, l1⟩ := inv_step hi a
    simp only [Sys.run, h1, Option.bind_some] at hs
    exact ih i1 (l1 hl) (disk_step hi h a h1) hs

/-- **C66.** When every change to the disk was reported by the client, and everything sent has been handled, the server has
for every file that is not open what is on the disk, if the file was ever read by the loader or reported as changed; and
it never believes in a file that is not there or in contents that are not the ones on the disk. -/
theorem follows_disk (disk : P → Option Bytes) (n : Nat) (pf rf : Bool) (as : List (Act P)) (s : Sys P)
    (h : (Sys.init disk n pf rf).run as = some s) (hd : Settled s) (p : P) (hp : p ∉ s.main.docs) :
    (.seen p ∈ s.log → s.main.vfs.content p = s.disk p) ∧
    (∀ b, s.main.vfs.content p = some b → s.disk p = some b) := by
  have hD := disk_run (inv_init disk n pf rf) (log_init disk n pf rf)
    (fun q _ => Or.inr (Or.inr ⟨by simp [Sys.init], rfl⟩)) as h p hp
  obtain ⟨⟨d1, d2, d3⟩, d4, d5⟩ := hd
  have he : eff s p = s.main.vfs.content p := by simp [eff, d2, d3, actorFiles, after]
  rw [he] at hD
  rcases hD with h1 | h1 | ⟨h1, h2⟩
  · simp [Pending, d1, d2, d4, d5] at h1
  · exact ⟨fun _ => h1, fun b hb => h1 ▸ hb⟩
  · exact ⟨fun h3 => absurd h3 h1, fun b hb => by rw [h2] at hb; cases hb⟩

/-! ### The server is never stuck -/

theorem run_append (s : Sys P) (a b : List (Act P)) : s.run (a ++ b) = (s.run a).bind (fun s => s.run b) := by
  induction a generalizing s with
  | nil => rfl
  | cons x xs ih =>
    simp only [List.cons_append, Sys.run]
    cases s.step x with
    | none => rfl
    | some s' => exact ih s'

/-- `s` can get to a state with a property by actions of the server alone. -/
def Can (s : Sys P) (Q : Sys P → Prop) : Prop := ∃ as s', (∀ a ∈ as, ofServer a = true) ∧ s.run as = some s' ∧ Q s'

theorem Can.here {s : Sys P} {Q : Sys P → Prop} (h : Q s) : Can s Q := ⟨[], s, by simp, rfl, h⟩

theorem Can.step {s s' : Sys P} {Q : Sys P → Prop} (a : Act P) (ha : ofServer a = true) (h : s.step a = some s') (hc : Can s' Q) :
    Can s Q := by
  obtain ⟨as, t, h1, h2, h3⟩ := hc
  refine ⟨a :: as, t, ?_, by simp [Sys.run, h, h2], h3⟩
  intro b hb
  rcases List.mem_cons.1 hb with rfl | hb
  · exact ha
  · exact h1 b hb

theorem Can.bind {s : Sys P} {Q R : Sys P → Prop} (h : Can s Q) (hq : ∀ t, Q t → Can t R) : Can s R := by
  obtain ⟨as, t, h1, h2, h3⟩ := h
  obtain ⟨bs, u, k1, k2, k3⟩ := hq t h3
  refine ⟨as ++ bs, u, ?_, by rw [run_append, h2]; exact k2, k3⟩
  intro b hb
  rcases List.mem_append.1 hb with hb | hb
  · exact h1 b hb
  · exact k1 b hb

theorem can_finish_loading (k : Nat) : ∀ (s : Sys P) (v n i : Nat) (f : Files P) (b : Bool), n = i + 1 + k →
    s.actor = .loading v n i f b →
    Can s (fun t => t.actor = .idle ∧ t.inbox = s.inbox ∧ t.lsp = s.lsp ∧ t.main = s.main) := by
  have send : ∀ (s : Sys P) (v n i : Nat) (f : Files P) (Q : Sys P → Prop), s.actor = .loading v n i f false →
      (∀ t, t.actor = .loading v n i [] true → t.inbox = s.inbox → t.lsp = s.lsp → t.main = s.main → Can t Q) → Can s Q := by
    intro s v n i f Q ha h
    refine Can.step .actorSend rfl (by simp only [Sys.step, ha]; rfl) ?_
    exact h _ rfl rfl rfl rfl
  induction k with
  | zero =>
    intro s v n i f b hn ha
    have done : ∀ (t : Sys P) (g : Files P), t.actor = .loading v n i g true → t.inbox = s.inbox → t.lsp = s.lsp →
        t.main = s.main → Can t (fun t => t.actor = .idle ∧ t.inbox = s.inbox ∧ t.lsp = s.lsp ∧ t.main = s.main) := by
      intro t g h1 h2 h3 h4
      refine Can.step .actorSend rfl (by simp only [Sys.step, h1]; rfl) ?_
      exact Can.here ⟨by simp [hn], h2, h3, h4⟩
    cases b with
    | true => exact done s f ha rfl rfl rfl
    | false => exact send s v n i f _ ha (fun t h1 h2 h3 h4 => done t _ h1 h2 h3 h4)
  | succ k ih =>
    intro s v n i f b hn ha
    have done : ∀ (t : Sys P) (g : Files P), t.actor = .loading v n i g true → t.inbox = s.inbox → t.lsp = s.lsp →
        t.main = s.main → Can t (fun t => t.actor = .idle ∧ t.inbox = s.inbox ∧ t.lsp = s.lsp ∧ t.main = s.main) := by
      intro t g h1 h2 h3 h4
      refine Can.step .actorSend rfl (by simp only [Sys.step, h1]; rfl) ?_
      have := ih { t with chan := t.chan ++ [.progress n (i + 1) v], actor := .loading v n (i + 1) [] false } v n (i + 1) [] false
        (by omega) rfl
      rw [if_neg (by omega)]
      exact this.bind (fun u hu => Can.here ⟨hu.1, hu.2.1.trans h2, hu.2.2.1.trans h3, hu.2.2.2.trans h4⟩)
    cases b with
    | true => exact done s f ha rfl rfl rfl
    | false => exact send s v n i f _ ha (fun t h1 h2 h3 h4 => done t _ h1 h2 h3 h4)

theorem can_finish_actor (s : Sys P) (h : ∀ v n i f b, s.actor = .loading v n i f b → i < n) :
    Can s (fun t => t.actor = .idle ∧ t.inbox = s.inbox ∧ t.lsp = s.lsp ∧ t.main = s.main) := by
  have batch : ∀ (t : Sys P) (f : Files P), t.actor = .batch f → t.inbox = s.inbox → t.lsp = s.lsp → t.main = s.main →
      Can t (fun t => t.actor = .idle ∧ t.inbox = s.inbox ∧ t.lsp = s.lsp ∧ t.main = s.main) := by
    intro t f h1 h2 h3 h4
    refine Can.step .actorSend rfl (by simp only [Sys.step, h1]; rfl) ?_
    exact Can.here ⟨rfl, h2, h3, h4⟩
  cases ha : s.actor with
  | idle => exact Can.here ⟨ha, rfl, rfl, rfl⟩
  | loading v n i f b =>
    have := h v n i f b ha
    exact can_finish_loading (n - i - 1) s v n i f b (by omega) ha
  | todo q =>
    refine Can.step (.actorRead q) rfl (by simp only [Sys.step, ha]; rfl) ?_
    exact batch _ _ rfl rfl rfl rfl
  | batch f => exact batch s f ha rfl rfl rfl

theorem can_empty_inbox (l : List (Req P)) : ∀ (s : Sys P), s.inbox = l → s.actor = .idle →
    Can s (fun t => t.actor = .idle ∧ t.inbox = [] ∧ t.lsp = s.lsp ∧ t.main = s.main) := by
  induction l with
  | nil => intro s h1 h2; exact Can.here ⟨h2, h1, rfl, rfl⟩
  | cons r l ih =>
    intro s h1 h2
    have next : ∀ t : Sys P, t.inbox = l → t.lsp = s.lsp → t.main = s.main →
        (∀ v n i f b, t.actor = .loading v n i f b → i < n) →
        Can t (fun t => t.actor = .idle ∧ t.inbox = [] ∧ t.lsp = s.lsp ∧ t.main = s.main) := by
      intro t k1 k2 k3 k4
      refine (can_finish_actor t k4).bind (fun u hu => ?_)
      exact (ih u (hu.2.1.trans k1) hu.1).bind
        (fun w hw => Can.here ⟨hw.1, hw.2.1, (hw.2.2.1.trans hu.2.2.1).trans k2, (hw.2.2.2.trans hu.2.2.2).trans k3⟩)
    cases r with
    | config v n =>
      refine Can.step .actorTake rfl (by simp only [Sys.step, h1, h2]; rfl) ?_
      refine next _ rfl rfl rfl ?_
      intro v' n' i f b e
      simp only at e
      split at e
      · cases e
      · cases e; omega
    | invalidate p =>
      refine Can.step .actorTake rfl (by simp only [Sys.step, h1, h2]; rfl) ?_
      exact next _ rfl rfl rfl (by rintro _ _ _ _ _ ⟨⟩)

theorem can_empty_lsp (l : List (ClientMsg P)) : ∀ (s : Sys P), s.lsp = l → Can s (fun t => t.lsp = [] ∧ t.actor = s.actor) := by
  induction l with
  | nil => intro s h; exact Can.here ⟨h, rfl⟩
  | cons c l ih =>
    intro s h
    refine Can.step .turnClient rfl (by simp only [Sys.step, h]; rfl) ?_
    exact (ih _ rfl).bind (fun u hu => Can.here hu)

/-- **C64, never stuck.** From whatever state the server is in, its threads can, without the client or the disk doing
anything, get everything handled, and then the client has been told that the server is quiescent. -/
theorem never_stuck (disk : P → Option Bytes) (n : Nat) (pf rf : Bool) (as : List (Act P)) (s : Sys P)
    (h : (Sys.init disk n pf rf).run as = some s) :
    ∃ more s', (∀ a ∈ more, ofServer a = true) ∧ s.run more = some s' ∧ LoaderDone s' ∧ s'.lsp = [] ∧
      ∃ st, told s'.main.out = some st ∧ st.quiescent = true := by
  obtain ⟨z, hi, -⟩ := reached h
  have c1 : Can s (fun t => t.lsp = [] ∧ t.actor = .idle ∧ t.inbox = []) := by
    refine (can_empty_lsp s.lsp s rfl).bind (fun t ht => ?_)
    have hl : ∀ v n i f b, t.actor = .loading v n i f b → i < n := by
      intro v n i f b e
      rw [ht.2] at e
      have := hi.actor
      rw [e] at this
      exact this.2
    refine (can_finish_actor t hl).bind (fun u hu => ?_)
    exact (can_empty_inbox u.inbox u rfl hu.1).bind
      (fun w hw => Can.here ⟨(hw.2.2.1.trans hu.2.2.1).trans ht.1, hw.1, hw.2.1⟩)
  obtain ⟨bs, t, k1, k2, k3, k4, k5⟩ := c1
  have ht : (Sys.init disk n pf rf).run (as ++ bs) = some t := by rw [run_append, h]; exact k2
  have c2 : Can t (fun u => u.lsp = [] ∧ u.actor = .idle ∧ u.inbox = [] ∧ u.main.running = true) := by
    cases hr : t.main.running with
    | true => exact Can.here ⟨k3, k4, k5, hr⟩
    | false =>
      refine Can.step .start rfl (by simp only [Sys.step, hr]; rfl) ?_
      exact Can.here ⟨k3, k4, k5, rfl⟩
  obtain ⟨cs, u, m1, m2, m3, m4, m5, m6⟩ := c2
  have hu : (Sys.init disk n pf rf).run (as ++ bs ++ cs) = some u := by rw [run_append, ht]; exact m2
  obtain ⟨zu, hiu, -⟩ := reached hu
  have c3 : Can u (fun w => w.lsp = [] ∧ w.actor = .idle ∧ w.inbox = [] ∧ w.main.running = true ∧ w.chan = []) := by
    by_cases hc : u.chan = []
    · exact Can.here ⟨m3, m4, m5, m6, hc⟩
    · obtain ⟨w, zw, hw, hiw, -⟩ := inv_step hiu (.turnLoader u.chan.length)
      refine Can.step (.turnLoader u.chan.length) rfl hw (Can.here ?_)
      simp only [Sys.step, m6, hc, ne_eq, not_false_eq_true, and_self, if_true, Option.map_eq_some_iff] at hw
      obtain ⟨m', hm', rfl⟩ := hw
      refine ⟨m3, m4, m5, ?_, by simp⟩
      have hway := hiu.way
      rw [← List.take_append_drop (u.chan.length + 1) u.chan, List.filterMap_append] at hway
      obtain ⟨m'', e1, ⟨g1, -⟩, -⟩ := vfsMsgs_spec (u.chan.take (u.chan.length + 1)) u.main _ zu hway hiu.zle hiu.dt hiu.shown
      rw [hm'] at e1
      cases e1
      show (m'.endTurn u.main.isQuiescent).running = true
      rw [endTurn_running, g1, m6]
  obtain ⟨ds, w, n1, n2, n3, n4, n5, n6, n7⟩ := c3
  have hw : (Sys.init disk n pf rf).run (as ++ bs ++ cs ++ ds) = some w := by rw [run_append, hu]; exact n2
  refine ⟨bs ++ cs ++ ds, w, ?_, ?_, ⟨n5, n4, n7⟩, n3, loaded_means_quiescent disk n pf rf _ w hw ⟨n5, n4, n7⟩ n6⟩
  · intro a ha
    simp only [List.mem_append] at ha
    rcases ha with (ha | ha) | ha
    · exact k1 a ha
    · exact m1 a ha
    · exact n1 a ha
  · rw [run_append, run_append, k2]
    show ((t.run cs).bind _) = _
    rw [m2]
    exact n2

/-! ### Non-vacuity: a workspace is loaded while a file changes and a document is opened and closed -/

namespace Demo

/-- Two files, 1 and 2. -/
def disk : Nat → Option Bytes := fun p => if p = 1 then some [10] else if p = 2 then some [20] else none

/-- File 1 is found in the include directory, file 2 under the root; the main loop handles the messages in two batches. -/
def load : List (Act Nat) :=
  [.start, .actorTake, .actorRead 1, .actorSend, .actorSend, .turnLoader 2, .actorRead 2, .actorSend, .actorSend, .turnLoader 1]

/-- Then file 2 is deleted and file 1 is opened, edited, and closed without saving. -/
def edit : List (Act Nat) :=
  [.write 2 none, .send (.didOpen 1 [10]), .turnClient, .send (.didChange 1 [11]), .report 2, .turnClient, .turnClient,
   .actorTake, .actorRead 0, .actorSend, .turnLoader 0, .send (.didClose 1), .turnClient, .actorTake, .actorRead 0, .actorSend,
   .turnLoader 0]

/-- The loading is complete, with status and progress as expected. -/
example : ∃ s, (Sys.init disk 1 true true).run load = some s ∧ LoaderDone s ∧ s.main.running = true ∧
    told s.main.out = some ⟨false, true⟩ ∧ s.main.isQuiescent = true ∧
    s.main.out.filterMap tagOf = [.start, .tick, .stop] ∧ s.main.vfs.content 1 = some [10] ∧ s.main.vfs.content 2 = some [20] :=
  ⟨_, rfl, ⟨rfl, rfl, rfl⟩, rfl, rfl, rfl, rfl, rfl, rfl⟩

/-- Half way it is not. -/
example : ∃ s, (Sys.init disk 1 true true).run (load.take 6) = some s ∧ told s.main.out = some ⟨false, false⟩ ∧
    s.main.isQuiescent = false ∧ s.main.out.filterMap tagOf = [.start, .tick] := ⟨_, rfl, rfl, rfl, rfl⟩

/-- After the edits everything is settled again and the server has what is on the disk. -/
example : ∃ s, (Sys.init disk 1 true true).run (load ++ edit) = some s ∧ Settled s ∧ s.main.docs = [] ∧
    .seen 1 ∈ s.log ∧ .seen 2 ∈ s.log ∧ s.main.vfs.content 1 = some [10] ∧ s.main.vfs.content 2 = none ∧
    s.main.isQuiescent = true :=
  ⟨_, rfl, ⟨⟨rfl, rfl, rfl⟩, rfl, rfl⟩, rfl, by simp [load, edit, Sys.run, Sys.step], by simp [load, edit, Sys.run, Sys.step], rfl, rfl, rfl⟩

end Demo

end Verif.Props.Loading
