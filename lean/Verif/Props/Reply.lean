import Mathlib.Data.List.Forall2
import Verif.Lsp.Reply
import Verif.Props.Url
/-!
# C108: the answer to a request for a definition names the files that were meant
-/

namespace Verif.Props.Reply
open Verif.Lsp.Reply Verif.Lsp.Url Verif.Lsp.Url.Spec
open Verif.Vfs (FileId Vfs Op)
open Verif.Pre (Rng Pos)

/-- The file system after a history. -/
def After (ops : List (Op Path)) (v : Vfs Path) : Prop := ∃ d, Vfs.empty.run ops = some (v, d)

theorem after_unique {ops : List (Op Path)} {v w : Vfs Path} (h : After ops v) (h' : After ops w) : v = w := by
  obtain ⟨d, h⟩ := h
  obtain ⟨d', h'⟩ := h'
  rw [h] at h'
  cases h'; rfl

theorem path_later {ops more : List (Op Path)} {v w : Vfs Path} (h : After ops v) (h' : After (ops ++ more) w) {f : FileId} {p : Path} (hp : v.filePath f = some p) :
    w.filePath f = some p := by
  obtain ⟨v1, d1, v2, d2, h1, h2, h3⟩ := Verif.Props.Vfs.file_path_stable ops more f p
  rw [after_unique h ⟨d1, h1⟩] at hp
  rw [after_unique h' ⟨d2, h2⟩]
  exact h3 hp

/-- A URL of a file is taken for it at any later time as long as the file exists, and for no other file. -/
theorem understood {ops more : List (Op Path)} {v w : Vfs Path} (h : After ops v) (h' : After (ops ++ more) w) {f : FileId} {p : Path} (hp : v.filePath f = some p)
    (hn : ∀ s ∈ p, Name s) {u : Url} (hu : Names u p) (g : FileId) :
    urlToFileId w u = some (some g) ↔ g = f ∧ ∃ c, Vfs.Spec.lastContents p (ops ++ more) = some c := by
  obtain ⟨w', d, hw, ha⟩ := Verif.Props.Url.answered (ops ++ more)
  obtain rfl := after_unique h' ⟨d, hw⟩
  obtain ⟨r, hr, hg⟩ := ha u
  have hpf := path_later h h' hp
  rw [hr, Option.some.injEq, hg g, Verif.Props.Url.spelling hn hu]
  constructor
  · rintro ⟨q, hq, h1, h2⟩
    cases hq
    refine ⟨?_, h2⟩
    obtain ⟨v3, d3, h3, w3, -⟩ := Verif.Vfs.run_spec (ops ++ more) (Verif.Vfs.WF.empty (P := Path))
    obtain rfl := after_unique h' ⟨d3, h3⟩
    have a := Verif.Vfs.internGet_of_getElem? w3.nodup h1
    have b := Verif.Vfs.internGet_of_getElem? w3.nodup hpf
    rw [a] at b
    exact Option.some.inj b
  · rintro ⟨rfl, h2⟩
    exact ⟨p, rfl, hpf, h2⟩

/-- What a link has to say about a target: where the request was made (`r`), the place and the name of the file; `p` is the path the file had when the request was
put to the analysis. The name is understood as this file at any later time, as long as the file exists. -/
def Says (ops : List (Op Path)) (r : Rng) (nav : Nav) (p : Path) (l : Link) : Prop :=
  l.origin = some r ∧ l.target = nav.full ∧ (∀ x, nav.focus = some x → l.selection = x) ∧ (nav.focus = none → l.selection = nav.full) ∧ Names l.uri p ∧
    ∀ later w, After (ops ++ later) w → ∀ g, urlToFileId w l.uri = some (some g) ↔ g = nav.file ∧ ∃ c, Vfs.Spec.lastContents p (ops ++ later) = some c

theorem link_says {ops more : List (Op Path)} {v0 v : Vfs Path} (h0 : After ops v0) (h : After (ops ++ more) v) (r : Rng) (nav : Nav) {p : Path}
    (hp : v0.filePath nav.file = some p) (hn : ∀ s ∈ p, Name s) : ∃ l, locationLink v (some r) nav = some l ∧ Says ops r nav p l := by
  obtain ⟨u, hu, hnames⟩ := Verif.Props.Url.sent_names v nav.file p (path_later h0 h hp) hn
  refine ⟨⟨some r, u, nav.full, nav.focus.getD nav.full⟩, by rw [locationLink, hu]; rfl, rfl, rfl, fun x hx => by simp [hx], fun hx => by simp [hx], hnames, ?_⟩
  intro later w hw g
  exact understood h0 hw hp hn hnames g

theorem links_say {ops : List (Op Path)} {v0 : Vfs Path} (h0 : After ops v0) {vs : Nat → Vfs Path} (hvs : ∀ i, ∃ more, After (ops ++ more) (vs i)) (r : Rng) :
    ∀ (navs : List Nav) (i : Nat), (∀ nav ∈ navs, ∃ p, v0.filePath nav.file = some p ∧ ∀ s ∈ p, Name s) →
      ∃ ls, links vs (some r) i navs = some ls ∧ List.Forall₂ (fun nav l => ∃ p, v0.filePath nav.file = some p ∧ Says ops r nav p l) navs ls
  | [], _, _ => ⟨[], rfl, .nil⟩
  | nav :: navs, i, h => by
    obtain ⟨p, hp, hn⟩ := h nav (by simp)
    obtain ⟨more, hm⟩ := hvs i
    obtain ⟨l, h1, h2⟩ := link_says h0 hm r nav hp hn
    obtain ⟨ls, h3, h4⟩ := links_say h0 hvs r navs (i + 1) fun n hn => h n (by simp [hn])
    exact ⟨l :: ls, by simp only [links, h1, h3], .cons ⟨p, hp, h2⟩ h4⟩

/-- **C108.** The history of the files is `ops` when the snapshot for a request is made. The document is looked up, and later each link is written, at times
when more may have happened to the files. Suppose the document is a file `f` when it is looked up and the analysis finds targets in files that it knows
(they had a path in the snapshot). Then the answer has exactly one link for every target, in order, and each says the place and the file that were meant. -/
theorem goto_reply {ops asked : List (Op Path)} {v0 v : Vfs Path} (h0 : After ops v0) (h : After (ops ++ asked) v)
    {vs : Nat → Vfs Path} (hvs : ∀ i, ∃ more, After (ops ++ more) (vs i))
    {u : Url} {doc : Path} (hd : ∀ s ∈ doc, Name s) (hu : Names u doc) {f : FileId} (hf : v.fileId doc = some (some f))
    {analysis : FileId → Pos → Outcome (Option (Rng × List Nav))} {pos : Pos} {r : Rng} {navs : List Nav} (ha : analysis f pos = .ok (some (r, navs)))
    (hk : ∀ nav ∈ navs, ∃ p, v0.filePath nav.file = some p ∧ ∀ s ∈ p, Name s) :
    ∃ ls, handleGoto v vs analysis u pos = .ok (some ls) ∧ List.Forall₂ (fun nav l => ∃ p, v0.filePath nav.file = some p ∧ Says ops r nav p l) navs ls := by
  obtain ⟨v', d', hv', hrt⟩ := Verif.Props.Url.round_trip (ops ++ asked)
  obtain rfl := after_unique h ⟨d', hv'⟩
  obtain ⟨ls, h1, h2⟩ := links_say h0 hvs r navs 0 hk
  refine ⟨ls, ?_, h2⟩
  simp only [handleGoto, ask, (hrt doc f hd hf).2 u hu, ha, h1]

/-- **C108.** A request for a document that is no file when it is looked up is answered by an error, whatever the analysis would find; if the document is a file
and nothing is found, the answer is empty. -/
theorem goto_none {ops : List (Op Path)} {v : Vfs Path} (h : After ops v) (vs : Nat → Vfs Path) (analysis : FileId → Pos → Outcome (Option (Rng × List Nav)))
    {u : Url} {doc : Path} (hd : ∀ s ∈ doc, Name s) (hu : Names u doc) (pos : Pos) :
    (Vfs.Spec.lastContents doc ops = none → handleGoto v vs analysis u pos = .error) ∧
    (∀ f, v.fileId doc = some (some f) → analysis f pos = .ok none → handleGoto v vs analysis u pos = .ok none) := by
  constructor
  · intro hl
    obtain ⟨v', d', hv', ha⟩ := Verif.Props.Url.answered ops
    obtain rfl := after_unique h ⟨d', hv'⟩
    obtain ⟨r, hr, hg⟩ := ha u
    have : r = none := by
      cases r with
      | none => rfl
      | some g =>
        obtain ⟨p, h1, -, c, h2⟩ := (hg g).1 rfl
        rw [Verif.Props.Url.spelling hd hu] at h1
        cases h1
        rw [hl] at h2
        cases h2
    simp only [handleGoto, ask, hr, this]
  · intro f hf ha
    obtain ⟨v', d', hv', hrt⟩ := Verif.Props.Url.round_trip ops
    obtain rfl := after_unique h ⟨d', hv'⟩
    simp only [handleGoto, ask, (hrt doc f hd hf).2 u hu, ha]

/-- `/a` is asked about, its name is declared in `/b`, which is deleted while the answer is computed; then `/c` is created and `/b` again. The link is `file:///b`. -/
example : ∃ ls, handleGoto ⟨[[[97]], [[98]]], [some [1], some [2]], []⟩ (fun _ => ⟨[[[97]], [[98]], [[99]]], [some [1], none, some []], []⟩)
      (fun f p => if f = 0 ∧ p = ⟨3, 4⟩ then .ok (some (⟨⟨3, 2⟩, ⟨3, 6⟩⟩, [⟨1, ⟨⟨0, 0⟩, ⟨2, 1⟩⟩, some ⟨⟨0, 4⟩, ⟨0, 8⟩⟩⟩])) else .panic)
      ⟨Verif.Props.Url.bytes "file", none, Verif.Props.Url.bytes "/a"⟩ ⟨3, 4⟩ = .ok (some ls) ∧
    ls.map (fun l => (l.uri, l.selection)) = [(⟨Verif.Props.Url.bytes "file", none, Verif.Props.Url.bytes "/b"⟩, ⟨⟨0, 4⟩, ⟨0, 8⟩⟩)] := by
  refine ⟨[⟨some ⟨⟨3, 2⟩, ⟨3, 6⟩⟩, fromFilePath [[98]], ⟨⟨0, 0⟩, ⟨2, 1⟩⟩, ⟨⟨0, 4⟩, ⟨0, 8⟩⟩⟩], by decide +kernel, by decide +kernel⟩

/-- The hypotheses are met by this history. -/
example : ∃ (v0 v : Vfs Path) (ops asked : List (Op Path)) (vs : Nat → Vfs Path) (u : Url) (nav : Nav), After ops v0 ∧ After (ops ++ asked) v ∧
    (∀ i, ∃ more, After (ops ++ more) (vs i)) ∧ Names u [[97]] ∧ v.fileId [[97]] = some (some 0) ∧ v0.filePath nav.file = some [[98]] ∧ (vs 0).fileId [[98]] = some none := by
  refine ⟨_, _, [.set [[97]] (some [1]), .set [[98]] (some [2])], [.set [[98]] none], fun _ => _, fromFilePath [[97]], ⟨1, ⟨⟨0, 0⟩, ⟨2, 1⟩⟩, none⟩,
    ⟨_, rfl⟩, ⟨_, rfl⟩, fun _ => ⟨[.set [[98]] none, .set [[99]] (some [])], _, rfl⟩, ?_, by decide +kernel, by decide +kernel, by decide +kernel⟩
  refine ⟨rfl, rfl, ?_⟩
  exact Verif.Props.Url.from_spells [[97]] (by simp) (by intro s hs; simp at hs; subst hs; exact ⟨by simp, by simp, by simp, by simp, by simp⟩)

end Verif.Props.Reply
