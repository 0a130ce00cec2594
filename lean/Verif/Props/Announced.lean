import Verif.Lsp.Announced
import Verif.Props.Startup
/-!
# C109: the server keeps to what the client can do
-/

namespace Verif.Props.Announced
open Verif.Lsp.Announced Verif.Lsp.Announced.Spec
open Verif.Lsp.Startup (EncKind PosEnc negotiatedEncoding)
open Verif.Lsp.Reply (Link)

theorem joined {x : Option (Option Bool)} : x.join = some true ↔ Said x := by
  rcases x with _ | _ | _ | _ <;> simp [Said]

theorem joined₂ {x : Option (Option (Option Bool))} : x.join.join = some true ↔ ∃ y, x = some y ∧ Said y := by
  rcases x with _ | y
  · simp
  · simp only [Option.join_some, joined, Option.some.injEq]
    exact ⟨fun h => ⟨y, rfl, h⟩, fun ⟨z, h, h'⟩ => h ▸ h'⟩

theorem pull_iff (c : Caps) : c.pull = true ↔ Said c.configuration := by simp [Caps.pull, joined]

theorem refresh_iff (c : Caps) : c.canRefresh = true ↔ ∃ x, c.refresh = some x ∧ Said x := by
  rw [← joined₂, Caps.canRefresh]
  cases c.refresh.join.join with
  | none => simp
  | some b => simp

theorem format_iff (c : Caps) : c.format = .markdown ↔ ∃ l, c.hover = some (some (some l)) ∧ Markup.markdown ∈ l := by
  rw [Caps.format]
  rcases c.hover with _ | _ | _ | l <;> simp

theorem encoding_offered (c : Caps) : Understands c (.encoding (negotiatedEncoding c.encodings)) := by
  obtain ⟨-, h8, h32⟩ := Verif.Props.Startup.negotiation_correct c.encodings _ rfl
  cases he : negotiatedEncoding c.encodings with
  | wide16 => trivial
  | utf8 =>
    obtain ⟨a, b, h, -, -⟩ := h8.1 he
    rcases hc : c.encodings with _ | _ | l <;> simp [hc] at h
    exact ⟨l, hc, by simp [h]⟩
  | wide32 =>
    obtain ⟨a, b, h, -, -⟩ := h32.1 he
    rcases hc : c.encodings with _ | _ | l <;> simp [hc] at h
    exact ⟨l, hc, by simp [h]⟩

/-- **C109, exactly.** For all capabilities: everything the server sends on an occasion can be dealt with by the client, except progress and definitions; these
can exactly if the client announced progress, or links. -/
theorem understood_iff (c : Caps) (o : Occasion) :
    (∀ m ∈ send c o, Understands c m) ↔ ((∃ b, o = .report b) → Said c.progress) ∧ ((∃ ls, o = .definition ls) → ∃ x, c.links = some x ∧ Said x) := by
  cases o with
  | asked => simpa [send] using encoding_offered c
  | started =>
    simp only [send]
    split
    · rename_i h; simpa [Understands] using (pull_iff c).1 h
    · simp
  | settingsChanged =>
    simp only [send]
    split
    · rename_i h; simpa [Understands] using (pull_iff c).1 h
    · simp
  | tokensOutdated =>
    simp only [send]
    split
    · rename_i h; simpa [Understands] using (refresh_iff c).1 h
    · simp
  | report b => cases b <;> simp [send, Understands]
  | hover t =>
    simp only [send, List.mem_singleton, forall_eq]
    cases hf : c.format with
    | plaintext => simp [Understands]
    | markdown => simpa [Understands] using (format_iff c).1 hf
  | definition ls => simp [send, Understands]

/-- **C109.** A client that announced progress and links can deal with everything it is sent, whatever else it announced. -/
theorem understood_partial (c : Caps) (hp : Said c.progress) (hl : ∃ x, c.links = some x ∧ Said x) (o : Occasion) : ∀ m ∈ send c o, Understands c m :=
  (understood_iff c o).2 ⟨fun _ => hp, fun _ => hl⟩

/-- **C109.** What a client announced is made use of: it is asked for its settings, at the start and when they changed, it is told to ask for fresh tokens, and hovers are
Markdown. -/
theorem used (c : Caps) : (Said c.configuration → send c .started = [.askSettings] ∧ send c .settingsChanged = [.askSettings]) ∧
    ((∃ x, c.refresh = some x ∧ Said x) → send c .tokensOutdated = [.refreshTokens]) ∧
    ∀ l, c.hover = some (some (some l)) → .markdown ∈ l → ∀ t, send c (.hover t) = [.hover .markdown t] := by
  refine ⟨fun h => ?_, fun h => ?_, fun l h1 h2 t => ?_⟩
  · simp [send, (pull_iff c).2 h]
  · simp [send, (refresh_iff c).2 h]
  · simp [send, (format_iff c).2 ⟨l, h1, h2⟩]

/-- A client that announces nothing. -/
def silent : Caps := ⟨none, none, none, none, none, none⟩

/-- **C109 is false in general.** A client that announced nothing is asked to show progress and gets links. -/
theorem understood_refuted : (¬ ∀ m ∈ send silent (.report true), Understands silent m) ∧ ∀ ls, ¬ ∀ m ∈ send silent (.definition ls), Understands silent m := by
  refine ⟨fun h => ?_, fun ls h => ?_⟩
  · obtain h := (understood_iff _ _).1 h
    have := h.1 ⟨true, rfl⟩
    simp [Said, silent] at this
  · obtain ⟨x, hx, -⟩ := ((understood_iff _ _).1 h).2 ⟨ls, rfl⟩
    simp [silent] at hx

theorem fenced (source : Verif.Pre.Str) : "```sourcepawn\n".toList <+: Verif.Ide.Markdown.fencedBlock source := by
  unfold Verif.Ide.Markdown.fencedBlock
  generalize "```sourcepawn\n".toList = a
  rw [List.append_assoc]
  exact List.prefix_append ..

theorem plain_send {c : Caps} (h : c.format = .plaintext) (t : Verif.Pre.Str) : send c (.hover t) = [.hover .plaintext t] := by rw [send, h]

/-- **C109 is false in general.** A client that can only show plain text is sent Markdown under the name of plain text: the marks of a block of code. -/
theorem plain_refuted (c : Caps) (h : ∀ l, c.hover = some (some (some l)) → Markup.markdown ∉ l) (source : Verif.Pre.Str) :
    ∃ t, send c (.hover (Verif.Ide.Markdown.fencedBlock source)) = [.hover .plaintext t] ∧ "```sourcepawn\n".toList <+: t := by
  have : c.format = .plaintext := by
    cases hf : c.format with
    | plaintext => rfl
    | markdown =>
      obtain ⟨l, h1, h2⟩ := (format_iff c).1 hf
      exact absurd h2 (h l h1)
  exact Exists.intro _ (And.intro (plain_send this _) (fenced source))

/-- What an editor like VS Code announces. -/
def editor : Caps := ⟨some (some true), some (some (some true)), some (some true), some (some (some [.markdown, .plaintext])), some (some (some true)), some (some [.utf16])⟩

example : Said editor.progress ∧ (∃ x, editor.links = some x ∧ Said x) ∧ send editor .started = [.askSettings] ∧ send silent .started = [] ∧
    send editor (.hover []) = [.hover .markdown []] ∧ send { silent with encodings := some (some [.utf16, .utf8]) } .asked = [.encoding .utf8] :=
  ⟨rfl, ⟨_, rfl, rfl⟩, rfl, rfl, rfl, rfl⟩

end Verif.Props.Announced
