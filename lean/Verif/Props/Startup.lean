import Verif.Lsp.Startup
/-! # C38 (messages during the configuration pull), C50 (encoding negotiation) -/

namespace Verif.Props.Startup
open Verif.Lsp.Startup Verif.Lsp.Startup.Spec
variable {C : Type}

theorem pullLoop_spec (pre : List (Msg C)) (h : ∀ m ∈ pre, isUsable m = false) (cfg : List C) (rest : List (Msg C)) : ∀ ign,
    pullLoop ign (pre ++ .pullResponse (some cfg) :: rest) = some (cfg, ign ++ pre.filter (fun m => !isPull m), rest) := by
  induction pre with
  | nil => intro ign; simp [pullLoop]
  | cons m pre ih =>
    intro ign
    have ih := ih (fun x hx => h x (List.mem_cons_of_mem _ hx))
    cases m with
    | pullResponse r =>
      cases r with
      | some c => have := h _ List.mem_cons_self; simp [isUsable] at this
      | none => simp only [List.cons_append, pullLoop, ih]; simp [isPull]
    | exit => simp only [List.cons_append, pullLoop, ih]; simp [isPull]
    | other n => simp only [List.cons_append, pullLoop, ih]; simp [isPull]

theorem mainLoop_eq [DecidableEq C] (ms : List (Msg C)) : mainLoop ms = untilExit ms := by
  induction ms with
  | nil => rfl
  | cons m ms ih => cases m <;> simp [mainLoop, untilExit] at ih ⊢ <;> exact ih

theorem drain_reverse [DecidableEq C] (ms : List (Msg C)) :
    drain ms.reverse = (untilExit ms, ms.contains .exit) := by
  induction ms with
  | nil => unfold drain; simp [untilExit]
  | cons m ms ih =>
    unfold drain
    split
    · next h => simp at h
    · next h =>
      simp at h
      subst h; simp [untilExit]
    · next x hx h =>
      simp at h
      subst h
      simp only [List.reverse_cons, List.dropLast_concat, ih]
      have : m ≠ .exit := fun e => hx e
      simp [untilExit, this, Ne.symm this]

/-- **C38**. If the client eventually answers the configuration request with a non-empty array, then that configuration is
used, and every message that arrived while the server was waiting is handled, in the order of arrival, followed by the
messages that come later; handling stops at the first `exit`. -/
theorem no_message_lost_partial [DecidableEq C] (pre rest : List (Msg C)) (c : C) (cs : List C) (h : ∀ m ∈ pre, isUsable m = false) :
    run (pre ++ .pullResponse (some (c :: cs)) :: rest) =
      some (c, untilExit (pre.filter (fun m => !isPull m) ++ rest)) := by
  simp only [run, pullConfigSync, pullLoop_spec pre h, List.nil_append, List.head?_cons, Option.map_some, drain_reverse]
  congr 2
  rw [mainLoop_eq]
  simp only [untilExit]
  generalize pre.filter (fun m => !isPull m) = l
  by_cases hc : Msg.exit ∈ l
  · simp only [List.contains_iff_mem, hc, if_true, decide_true]
    induction l with
    | nil => simp at hc
    | cons m l ih =>
      by_cases hm : m = .exit
      · subst hm; simp
      · have := ih (by simpa [Ne.symm hm] using hc)
        simp [hm] at this ⊢; exact this
  · have : l.contains (Msg.exit : Msg C) = false := by simpa using hc
    simp only [this, Bool.false_eq_true, if_false]
    have h1 : l.takeWhile (fun m => decide (m ≠ .exit)) = l := by
      have := List.takeWhile_append_of_pos (p := fun m : Msg C => decide (m ≠ .exit)) (l₁ := l) (l₂ := []) (by
        intro x hx
        simp only [decide_eq_true_eq]
        rintro rfl; exact hc hx)
      simpa using this
    rw [h1, List.takeWhile_append_of_pos]
    intro x hx
    simp only [decide_eq_true_eq]
    rintro rfl; exact hc hx

/-- **C38, no usable answer**. If the client never sends a usable answer - it answers with an error or a result that is no
array - the server never gets past start-up: no message is ever handled. -/
theorem stuck_without_configuration (ms : List (Msg C)) (h : ∀ m ∈ ms, isUsable m = false) : run ms = none := by
  have : ∀ ign, pullLoop ign ms = none := by
    induction ms with
    | nil => intro ign; rfl
    | cons m ms ih =>
      have ih := ih (fun x hx => h x (List.mem_cons_of_mem _ hx))
      intro ign
      cases m with
      | pullResponse r =>
        cases r with
        | some c => have := h _ List.mem_cons_self; simp [isUsable] at this
        | none => exact ih ign
      | exit => exact ih _
      | other n => exact ih _
  simp [run, pullConfigSync, this]

/-- **C38, refuted for empty arrays**: a client that answers the configuration request with an empty array makes the
server panic, losing the messages that were already queued. -/
theorem empty_configuration_refuted (pre rest : List (Msg C)) (h : ∀ m ∈ pre, isUsable m = false) :
    run (pre ++ .pullResponse (some []) :: rest) = none := by
  simp [run, pullConfigSync, pullLoop_spec pre h]

example : run [.other 1, .pullResponse none, .other 2, .pullResponse (some [7]), .other 3, .exit, .other 4]
    = some (7, [Msg.other 1, .other 2, .other 3]) := by
  rw [show [Msg.other 1, .pullResponse none, .other 2, .pullResponse (some [7]), .other 3, .exit, .other 4] =
    [Msg.other 1, .pullResponse none, .other 2] ++ .pullResponse (some [7]) :: [.other 3, .exit, .other 4] from rfl,
    no_message_lost_partial _ _ _ _ (by decide)]
  decide

/-- **C50**. UTF-8 or UTF-32, whichever comes first in the client's list; UTF-16 iff neither is offered. -/
theorem negotiation_correct (g : Option (Option (List EncKind))) (l : List EncKind) (hl : (g.join).getD [] = l) :
    (negotiatedEncoding g = .wide16 ↔ .utf8 ∉ l ∧ .utf32 ∉ l) ∧
    (negotiatedEncoding g = .utf8 ↔ ∃ a b, l = a ++ .utf8 :: b ∧ .utf8 ∉ a ∧ .utf32 ∉ a) ∧
    (negotiatedEncoding g = .wide32 ↔ ∃ a b, l = a ++ .utf32 :: b ∧ .utf8 ∉ a ∧ .utf32 ∉ a) := by
  have hg : negotiatedEncoding g = negotiateLoop l := by
    subst hl; cases g with
    | none => rfl
    | some o => rfl
  rw [hg]; clear hg hl
  induction l with
  | nil => simp [negotiateLoop]
  | cons e l ih =>
    simp only [negotiateLoop]
    by_cases h8 : e = .utf8
    · subst h8
      simp only [if_true]
      refine ⟨by simp, ⟨fun _ => ⟨[], l, rfl, by simp, by simp⟩, fun _ => trivial⟩, by simp, ?_⟩
      rintro ⟨a, b, he, ha, _⟩
      cases a with
      | nil => simp at he
      | cons x a => simp at he; exact absurd (by rw [← he.1]; simp) ha
    · by_cases h32 : e = .utf32
      · subst h32
        simp only [h8, if_false, if_true]
        refine ⟨by simp, ⟨by simp, ?_⟩, fun _ => ⟨[], l, rfl, by simp, by simp⟩, fun _ => trivial⟩
        rintro ⟨a, b, he, _, ha⟩
        cases a with
        | nil => simp at he
        | cons x a => simp at he; exact absurd (by rw [← he.1]; simp) ha
      · simp only [h8, h32, if_false]
        have key : ∀ k : EncKind, e ≠ k → ((∃ a b, e :: l = a ++ k :: b ∧ EncKind.utf8 ∉ a ∧ EncKind.utf32 ∉ a) ↔
            ∃ a b, l = a ++ k :: b ∧ EncKind.utf8 ∉ a ∧ EncKind.utf32 ∉ a) := by
          intro k hk
          constructor
          · rintro ⟨a, b, he, h1, h2⟩
            cases a with
            | nil => simp at he; exact absurd he.1 hk
            | cons x a => simp at he h1 h2; exact ⟨a, b, he.2, h1.2, h2.2⟩
          · rintro ⟨a, b, he, h1, h2⟩
            exact ⟨e :: a, b, by simp [he], by simp [h1, Ne.symm h8], by simp [h2, Ne.symm h32]⟩
        rw [key _ h8, key _ h32]
        simp only [List.mem_cons, Ne.symm h8, Ne.symm h32, false_or]
        exact ih

example : negotiatedEncoding (some (some [.utf16, .other 3, .utf32, .utf8])) = .wide32 := by decide

end Verif.Props.Startup
