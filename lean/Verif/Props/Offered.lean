import Verif.Lsp.Offered
import Verif.Props.Dispatch
import Verif.Props.Lifecycle
import Verif.Props.SemTokens
import Mathlib.Data.List.Forall2
/-! # C111: what the server says it can do, it does -/

namespace Verif.Props.Offered
open Verif.Lsp Verif.Lsp.Offered Verif.Lsp.Offered.Spec Verif.Lsp.Startup

theorem request_iff (g : Option (Option (List EncKind))) (m : String) : Request (serverCapabilities g) m ↔ m ∈ Dispatch.asyncMethods.take 5 := by
  constructor
  · intro h
    cases h <;> decide
  · intro h
    simp only [Dispatch.asyncMethods, List.take_succ_cons, List.take_zero, List.mem_cons, List.not_mem_nil, or_false] at h
    rcases h with rfl | rfl | rfl | rfl | rfl
    · exact .full (o := _) (b := true) rfl rfl
    · exact .delta (o := _) rfl rfl
    · exact .range (o := _) rfl rfl
    · exact .definition rfl
    · exact .hover rfl

theorem own_rest : ∀ m ∈ Dispatch.asyncMethods.drop 5, Own m := by
  unfold Own; decide +kernel

/-- **C111 (requests)**. Whatever the client announced and whatever happened before: a well-formed request for something the server announced is given to its
handler, and not answered with an error in its place. -/
theorem offered_handled (g : Option (Option (List EncKind))) (s : Dispatch.St) (req : Dispatch.Req) (hs : s.shutdown = false) (hp : req.paramsOk = true)
    (hm : Request (serverCapabilities g) req.method) :
    (Dispatch.onNewRequest s req).started = s.started ++ [req] ∧ (Dispatch.onNewRequest s req).jobs = s.jobs ++ [req] ∧
      (Dispatch.onNewRequest s req).sent = s.sent := by
  have hin : req.method ∈ Dispatch.asyncMethods := List.mem_of_mem_take ((request_iff g _).1 hm)
  have hne : req.method ≠ "shutdown" := fun e => absurd (e ▸ hin) (by decide)
  have hsd : (s.register req.id).shutdown = false := hs
  simp only [Dispatch.onNewRequest, Verif.Props.Dispatch.onRequest_eq, hne, if_false, hsd, hin, hp, if_true]
  exact ⟨rfl, rfl, rfl⟩

/-- **C111 (other requests)**. A request that the server did not announce, and that is not one of its own, is answered at once: there is no such method.
Nothing is started for it. -/
theorem not_offered (g : Option (Option (List EncKind))) (s : Dispatch.St) (req : Dispatch.Req) (hs : s.shutdown = false)
    (hm : ¬ Request (serverCapabilities g) req.method) (ho : ¬ Own req.method) (hne : req.method ≠ "shutdown") :
    (Dispatch.onNewRequest s req).started = s.started ∧ (Dispatch.onNewRequest s req).jobs = s.jobs ∧
      (Dispatch.onNewRequest s req).sent = s.sent ++ [⟨req.id, .methodNotFound⟩] := by
  have hin : req.method ∉ Dispatch.asyncMethods := fun h => by
    rw [← List.take_append_drop 5 Dispatch.asyncMethods] at h
    rcases List.mem_append.1 h with h | h
    · exact hm ((request_iff g _).2 h)
    · exact ho (own_rest _ h)
  have hsd : (s.register req.id).shutdown = false := hs
  simp only [Dispatch.onNewRequest, Verif.Props.Dispatch.onRequest_eq, hne, if_false, hsd, hin]
  simp [Dispatch.St.respond, Dispatch.St.register]

/-- **C111 (documents)**. The notifications by which a client keeps a server informed about its documents, as announced, reach their handlers. -/
theorem documents_followed {J H : Type} (g : Option (Option (List EncKind))) (hs : Lifecycle.Handlers J H) (h : H) (m : String) (p : J)
    (hm : Spec.Notification (serverCapabilities g) m) (hp : hs.accepts m p = true) : Lifecycle.onNotification hs h m p = hs.act m p h := by
  have hin : m ∈ Lifecycle.methods := by cases hm <;> decide
  rw [Verif.Props.Lifecycle.notification_eq, if_pos hin, if_pos hp]

/-- Changes are announced as incremental, which is how they are read (C01). -/
theorem sync_announced (g : Option (Option (List EncKind))) : (serverCapabilities g).sync = .incremental ∧
    ∀ m, m = "textDocument/didOpen" ∨ m = "textDocument/didChange" ∨ m = "textDocument/didClose" → Spec.Notification (serverCapabilities g) m := by
  refine ⟨rfl, fun m hm => ?_⟩
  rcases hm with rfl | rfl | rfl
  · exact .opened (by simp [serverCapabilities])
  · exact .changed (by simp [serverCapabilities])
  · exact .closed (by simp [serverCapabilities])

/-- The encoding that is meant by a name of the protocol. -/
def Names : EncKind → PosEnc → Prop
  | .utf8, e => e = .utf8
  | .utf16, e => e = .wide16
  | .utf32, e => e = .wide32
  | .other _, _ => False

/-- **C111 (columns)**. The server always announces an encoding of columns, it is the one it reads changes with, and it is one of those
the client listed, or else the one that every client has. -/
theorem encoding_announced (g : Option (Option (List EncKind))) : ∃ k, (serverCapabilities g).encoding = some k ∧ Names k (negotiatedEncoding g) ∧
    (k = .utf16 ∨ ∃ l, g = some (some l) ∧ k ∈ l) := by
  have key : ∀ l : List EncKind, (negotiateLoop l = .utf8 → .utf8 ∈ l) ∧ (negotiateLoop l = .wide32 → .utf32 ∈ l) := by
    intro l
    induction l with
    | nil => simp [negotiateLoop]
    | cons e es ih =>
      simp only [negotiateLoop]
      split
      · next h => simp [h]
      · split
        · next h => simp [h]
        · exact ⟨fun h => List.mem_cons_of_mem _ (ih.1 h), fun h => List.mem_cons_of_mem _ (ih.2 h)⟩
  cases he : negotiatedEncoding g with
  | wide16 => exact ⟨.utf16, by simp [serverCapabilities, he, announcedEncoding], rfl, .inl rfl⟩
  | utf8 =>
    refine ⟨.utf8, by simp [serverCapabilities, he, announcedEncoding], rfl, .inr ?_⟩
    rcases g with _ | _ | l
    · simp [negotiatedEncoding, negotiateLoop] at he
    · simp [negotiatedEncoding, negotiateLoop] at he
    · exact ⟨l, rfl, (key l).1 he⟩
  | wide32 =>
    refine ⟨.utf32, by simp [serverCapabilities, he, announcedEncoding], rfl, .inr ?_⟩
    rcases g with _ | _ | l
    · simp [negotiatedEncoding, negotiateLoop] at he
    · simp [negotiatedEncoding, negotiateLoop] at he
    · exact ⟨l, rfl, (key l).2 he⟩

/-! ### Tokens -/

/-- The token `t`, read with the announced names, shows what was highlighted. -/
def Shows (o : TokenOptions) (h : Highlight) (t : SemTokens.Abs) : Prop :=
  t.line = h.range.s.line ∧ t.start = h.range.s.char ∧ t.stop = h.range.e.char ∧
  typeName o t = some (match h.tag with | .macro => "macro" | .nothing => "generic") ∧
  ∀ m, HasModifier o t m ↔ m = "macro" ∧ h.mods.testBit 0 = true

theorem iter_eq (mods : Nat) : iter mods = if mods.testBit 0 then [Mod.macro] else [] := by
  have h : (mods &&& (Mod.macro).mask == (Mod.macro).mask) = mods.testBit 0 := by
    simp only [Mod.mask, Mod.number, Nat.shiftLeft_zero, Nat.and_one_is_mod, Nat.testBit_zero]
    rcases Nat.mod_two_eq_zero_or_one mods with h | h <;> simp [h]
  simp only [iter, Mod.all, List.filter_cons, List.filter_nil, h]

theorem modifiers_get (i : Nat) (m : String) (h : supportedModifiers[i]? = some m) : i < 20 := by
  have := (List.getElem?_eq_some_iff.1 h).1
  simpa [supportedModifiers] using this

theorem pushed_spec (h : Highlight) : (h.tag = .nothing ∧ h.mods = 0 ∧ pushed h = some none) ∨
    (¬ (h.tag = .nothing ∧ h.mods = 0) ∧ ∃ t, pushed h = some (some t) ∧
      Shows ⟨supportedTypes, supportedModifiers, some true, true⟩ h t) := by
  by_cases he : h.tag = .nothing ∧ h.mods = 0
  · exact .inl ⟨he.1, he.2, by simp [pushed, he]⟩
  refine .inr ⟨he, ?_⟩
  have hb : bitorAssign 0 "macro" = some 16384 := by decide +kernel
  have h1 : typeIndex "macro" = some 7 := by decide +kernel
  have h2 : typeIndex "generic" = some 39 := by decide +kernel
  have g1 : supportedTypes[7]? = some "macro" := by decide +kernel
  have g2 : supportedTypes[39]? = some "generic" := by decide +kernel
  have hm : ∀ (i : Nat) (m : String), supportedModifiers[i]? = some m → Nat.testBit 16384 i = true → m = "macro" := by
    intro i m hi hbit
    have hlt := modifiers_get i m hi
    have : i = 14 := by
      revert hbit; revert hlt; clear hi; revert i; decide +kernel
    subst this
    have : supportedModifiers[14]? = some "macro" := by decide +kernel
    rw [this] at hi
    exact (Option.some.inj hi).symm
  have hg : supportedModifiers[14]? = some "macro" := by decide +kernel
  have hbits : ∃ bits, typeAndModifiers h.tag h.mods = some (h.tag.type, bits) ∧
      ∀ m, (∃ i, supportedModifiers[i]? = some m ∧ bits.testBit i = true) ↔ m = "macro" ∧ h.mods.testBit 0 = true := by
    simp only [typeAndModifiers, iter_eq]
    cases hz : h.mods.testBit 0 with
    | false => exact ⟨0, by simp, by simp⟩
    | true =>
      refine ⟨16384, by simp [Mod.modifier, hb], fun m => ⟨fun ⟨i, hi, hbit⟩ => ⟨hm i m hi hbit, rfl⟩, ?_⟩⟩
      rintro ⟨rfl, -⟩
      exact ⟨14, hg, by decide⟩
  obtain ⟨bits, hb1, hb2⟩ := hbits
  simp only [pushed, if_neg he, hb1, Option.bind_some]
  cases ht : h.tag with
  | «macro» => exact ⟨⟨h.range.s.line, h.range.s.char, h.range.e.char, 7, bits⟩, by simp only [Tag.type, h1, Option.map_some], rfl, rfl, rfl, by simp [typeName, g1, ht], hb2⟩
  | nothing => exact ⟨⟨h.range.s.line, h.range.s.char, h.range.e.char, 39, bits⟩, by simp only [Tag.type, h2, Option.map_some], rfl, rfl, rfl, by simp [typeName, g2, ht], hb2⟩

/-- What is worth showing. -/
def Empty (h : Highlight) : Prop := h.tag = .nothing ∧ h.mods = 0

instance (h : Highlight) : Decidable (Empty h) := inferInstanceAs (Decidable (_ ∧ _))

theorem pushed_all : ∀ hs : List Highlight, ∃ l, hs.mapM pushed = some l ∧
    List.Forall₂ (Shows ⟨supportedTypes, supportedModifiers, some true, true⟩) (hs.filter (¬ Empty ·)) (l.filterMap id)
  | [] => ⟨[], rfl, .nil⟩
  | h :: hs => by
    obtain ⟨l, e, f⟩ := pushed_all hs
    rcases pushed_spec h with ⟨h1, h2, h3⟩ | ⟨h1, t, h2, h3⟩
    · refine ⟨none :: l, by simp [List.mapM_cons, h3, e], ?_⟩
      have : Empty h := ⟨h1, h2⟩
      simpa [List.filter_cons, this] using f
    · refine ⟨some t :: l, by simp [List.mapM_cons, h2, e], ?_⟩
      have : ¬ Empty h := h1
      simpa [List.filter_cons, this] using List.Forall₂.cons h3 f

/-- **C111 (tokens)**. Whatever is highlighted, the answer a client gets, read with the names of types and modifiers that were announced to it, shows for each
highlight that is not empty, in order, its place, its type and its modifiers, and nothing else. -/
theorem tokens_named (g : Option (Option (List EncKind))) (hs : List Highlight) (answer : List SemTokens.Tok) (ha : semanticTokens hs = some answer) :
    ∃ o, (serverCapabilities g).tokens = some o ∧ List.Forall₂ (Shows o) (hs.filter (¬ Empty ·)) (SemTokens.Spec.decode answer) := by
  obtain ⟨l, e, f⟩ := pushed_all hs
  simp only [semanticTokens, e, Option.bind_some] at ha
  rw [(Verif.Props.SemTokens.encode_lossless _).2 _ ha]
  exact ⟨_, rfl, f⟩

/-- No token that the answer to a request for macros contains goes beyond the names that were announced, and the answers are those of `Ide/Highlight`. -/
theorem macros_named (hl : List Verif.Pre.Rng) : Verif.Ide.Highlight.semanticTokens hl = semanticTokens (hl.map fun r => ⟨r, .macro, 0⟩) := by
  have hp : ∀ r : Verif.Pre.Rng, pushed ⟨r, .macro, 0⟩ = some (some ⟨r.s.line, r.s.char, r.e.char, Verif.Ide.Highlight.typeIndex "macro", 0⟩) := by
    intro r
    have h1 : typeIndex "macro" = some (Verif.Ide.Highlight.typeIndex "macro") := by decide +kernel
    simp [pushed, typeAndModifiers, iter_eq, Tag.type, h1]
  have : ∀ hl : List Verif.Pre.Rng, (hl.map fun r => (⟨r, .macro, 0⟩ : Highlight)).mapM pushed =
      some (hl.map fun r => some ⟨r.s.line, r.s.char, r.e.char, Verif.Ide.Highlight.typeIndex "macro", 0⟩) := by
    intro hl
    induction hl with
    | nil => rfl
    | cons r rs ih => simp only [List.map_cons, List.mapM_cons, hp, ih]; rfl
  simp only [semanticTokens, this, Option.bind_some, Verif.Ide.Highlight.semanticTokens, List.filterMap_map, Function.comp_def, id, List.filterMap_eq_map']

/-- A macro use and a modified symbol without a type, and an empty highlight that is left out. -/
example : (semanticTokens [⟨⟨⟨0, 4⟩, ⟨0, 7⟩⟩, .macro, 0⟩, ⟨⟨⟨1, 0⟩, ⟨1, 2⟩⟩, .nothing, 0⟩, ⟨⟨⟨2, 0⟩, ⟨2, 2⟩⟩, .nothing, 5⟩]).map SemTokens.Spec.decode =
    some [⟨0, 4, 7, 7, 0⟩, ⟨2, 0, 2, 39, 16384⟩] := by decide +kernel

example : Request (serverCapabilities none) "textDocument/hover" := .hover rfl
example : ¬ Request (serverCapabilities none) "textDocument/rename" ∧ ¬ Own "textDocument/rename" := by
  rw [request_iff]; unfold Own; decide +kernel
example : (serverCapabilities (some (some [.utf16, .utf32]))).encoding = some .utf32 := by decide

end Verif.Props.Offered
