import Verif.Props.OffsetsExpand
import Verif.Props.Macros
/-!
# C27 with the expansion of what a call becomes
-/

namespace Verif.Props.MacroCall
open Verif.Pre Verif.Pre.Spec Verif.Props.Macros Verif.Props.MacroArgs

/-- **C27, from the call to the full expansion**: a call of a macro is replaced by the body of the macro with the arguments in the places of the parameters,
where all macros are expanded in turn (at most three deep, C24). What follows the call is left as it is. -/
theorem call_partial {ms : Macros} {s : Sym} {args : List Sym} {m : Macro} {params : List Int} {as : List (List Tok)} {pieces : List Piece}
    (h : Call ms s args m params as pieces) (hline : ∀ x ∈ args, x.range.s.line = s.range.e.line) (rest : List Sym) {d : Nat} {r : List KT} (hd : d ≤ 3)
    (hf : Full ms d (pieces.flatMap (Piece.result (given params as))) r) :
    ∃ out n, out.map ofTok = r ∧ ExpandsTo ms true s.tok (args ++ rest) [] [] ⟨rest, out, [], .ok n⟩ := by
  obtain ⟨l, mid, e, rfl, hl, -, he, hsep, -⟩ := h.tokens
  obtain ⟨fin, hbody, hfin⟩ := h.body
  obtain ⟨cargs, hcoll, hcargs⟩ := arguments_partial s.range.e.line m.nbParams l e as mid rest hl (hline l (by simp)) he hsep h.enough h.arguments
  have hgiven : (fun n => cargs (position params n)) = given params as := by
    funext n; rw [hcargs]; rfl
  obtain ⟨q, hq1, hq2⟩ := substitution cargs m params h.isParams s s.delta 0 pieces fin h.wf hbody hfin
  rw [hgiven] at hq1
  let k := e.range.e.char - l.range.s.char
  let st1 : XSt := ⟨[q, []], [], rest, [], [], k⟩
  have hstep : xStep ms true s.tok [⟨s.tok, s.tok.sym.delta⟩] [] ⟨[[⟨s.tok, s.tok.sym.delta⟩]], [], l :: (mid ++ [e]) ++ rest, [], [], 0⟩ = .continue_ st1 := by
    have hk : s.tok.kind = .ident := h.kind
    have hmac : ms s.tok.text = some m := h.isMacro
    have hcoll' : collectArguments ⟨[], [], l :: (mid ++ [e]) ++ rest⟩ s.tok.sym.range.e.line m.nbParams = (⟨[], [], rest⟩, some (cargs, k)) := by
      rw [← hcoll]; simp [Sym.tok]
    have hq' : expandMacro cargs m s.tok.sym s.tok.sym.delta 0 = some q := hq2
    simp only [xStep, hk, hmac, h.isParams, hcoll', List.length_nil, hq', if_true, Nat.zero_add, st1]
  obtain ⟨n, out, g1, g2⟩ := full_run ms true s.tok hf (.inl rfl) q [[]] st1 (.inl hq1) (by simp only [List.length_singleton]; omega) rfl
  refine ⟨out, k, g1, n + 3, fun j => ?_⟩
  unfold expandIdentifier
  rw [show n + 3 + j = n + (j + 1 + 1) + 1 by omega]
  have hunfold : ∀ f, xLoop ms true s.tok (f + 1) ⟨[[⟨s.tok, s.tok.sym.delta⟩]], [], l :: (mid ++ [e]) ++ rest, [], [], 0⟩ = xLoop ms true s.tok f st1 := by
    intro f
    conv => lhs; unfold xLoop
    simp only [List.length_nil, hstep]
    rfl
  rw [hunfold, g2]
  simp [xLoop, xStep, st1]

end Verif.Props.MacroCall
