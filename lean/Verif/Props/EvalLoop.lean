import Verif.Props.EvalTerm
/-!
# C21: conditions of names whose evaluation does not end
-/

namespace Verif.Props.EvalLoop

open Verif.Pre
open Verif.Props.Evaluator (tk num)

/-- `#define G(%1) 1`. -/
def macroG : Macro := ⟨0, 0, some [-1, 0, -1, -1, -1, -1, -1, -1, -1, -1], 1, [⟨.intLit, "1".toList, ⟨0, 1⟩, some 1⟩, ⟨.newline, "\n".toList, ⟨0, 0⟩, none⟩]⟩

/-- `#define A G A`. -/
def macroA : Macro :=
  ⟨0, 1, none, 0, [⟨.ident, "G".toList, ⟨0, 1⟩, none⟩, ⟨.ident, "A".toList, ⟨0, 1⟩, none⟩, ⟨.newline, "\n".toList, ⟨0, 0⟩, none⟩]⟩

/-- The state is back where it was: `G` then `A` on the stack, `G` not to be expanded. -/
private structure Stuck (st : ESt) : Prop where
  disabled : st.disabled = [macroG]
  lfd : st.lfd = false
  stack : ∃ x y, st.stack = [x, y] ∧ x.kind = .ident ∧ x.text = "G".toList ∧ y.kind = .ident ∧ y.text = "A".toList

private theorem xLoop_step (ms : Macros) (t : Tok) (f : Nat) (st st' : XSt) (top : List QTok) (rest : List (List QTok)) (h1 : st.ctxs = top :: rest)
    (h2 : rest.length + 1 < 6) (h3 : xStep ms false t top rest st = .continue_ st') : xLoop ms false t (f + 1) st = xLoop ms false t f st' := by
  simp only [xLoop, h1, h2, if_true, h3]

private def gTok (r : Rng) : Tok := ⟨⟨.ident, "G".toList, ⟨r.e, ⟨(Int.ofNat r.e.line + 0).toNat, (Int.ofNat r.e.char + 1).toNat⟩⟩, ⟨0, 1⟩, none, false⟩, none⟩
private def aTok (r : Rng) : Tok :=
  ⟨⟨.ident, "A".toList, ⟨(gTok r).sym.range.e, ⟨(Int.ofNat (gTok r).sym.range.e.line + 0).toNat, (Int.ofNat (gTok r).sym.range.e.char + 1).toNat⟩⟩, ⟨0, 1⟩, none, false⟩, none⟩

private theorem expand_a (ms : Macros) (hg : ms "G".toList = some macroG) (ha : ms "A".toList = some macroA) (y : Tok) (hk : y.kind = .ident)
    (ht : y.text = "A".toList) (lexer : List Sym) (f : Nat) :
    expandIdentifier ms false (f + 5) y lexer [] [] = some ⟨lexer, [gTok y.sym.range, aTok y.sym.range], [macroG], .ok 0⟩ := by
  have h1 : xStep ms false y [⟨y, y.sym.delta⟩] [] ⟨[[⟨y, y.sym.delta⟩]], [], lexer, [], [], 0⟩ =
      .continue_ ⟨[[⟨gTok y.sym.range, y.sym.delta⟩, ⟨aTok y.sym.range, ⟨0, 1⟩⟩], []], [], lexer, [], [], 0⟩ := by
    unfold xStep
    simp only [hk, ht, ha]
    rfl
  have h2 : xStep ms false y [⟨gTok y.sym.range, y.sym.delta⟩, ⟨aTok y.sym.range, ⟨0, 1⟩⟩] [[]]
      ⟨[[⟨gTok y.sym.range, y.sym.delta⟩, ⟨aTok y.sym.range, ⟨0, 1⟩⟩], []], [], lexer, [], [], 0⟩ =
      .continue_ ⟨[[], []], [aTok y.sym.range], lexer, [gTok y.sym.range], [macroG], 0⟩ := by
    unfold xStep
    have e1 : (gTok y.sym.range).kind = .ident := rfl
    have e2 : ms (gTok y.sym.range).text = some macroG := hg
    simp only [e1, e2]
    rfl
  unfold expandIdentifier
  rw [xLoop_step ms y (f + 4) _ _ _ _ rfl (by decide) h1, xLoop_step ms y (f + 3) _ _ _ _ rfl (by decide) h2,
    xLoop_step ms y (f + 2) _ ⟨[[]], [aTok y.sym.range], lexer, [gTok y.sym.range], [macroG], 0⟩ _ _ rfl (by decide) rfl,
    xLoop_step ms y (f + 1) _ ⟨[], [aTok y.sym.range], lexer, [gTok y.sym.range], [macroG], 0⟩ _ _ rfl (by decide) rfl]
  rfl

private theorem expand_a' (ms : Macros) (hg : ms "G".toList = some macroG) (ha : ms "A".toList = some macroA) (y : Tok) (hk : y.kind = .ident)
    (ht : y.text = "A".toList) (lexer : List Sym) (f : Nat) :
    expandIdentifier ms false f y lexer [] [] = none ∨
    expandIdentifier ms false f y lexer [] [] = some ⟨lexer, [gTok y.sym.range, aTok y.sym.range], [macroG], .ok 0⟩ := by
  rcases he : expandIdentifier ms false f y lexer [] [] with _ | o
  · exact .inl rfl
  · right
    have := MacroTerm.expand_mono ms false y lexer [] [] f 5 o he
    rw [expand_a ms hg ha y hk ht lexer f] at this
    exact this.symm

/-- Expanding `A` with nothing disabled: back to `G A`. -/
private theorem turn_a (p : Profile) (ms : Macros) (hg : ms "G".toList = some macroG) (ha : ms "A".toList = some macroA) (f : Nat) (y : Sym) (st : ESt)
    (hd : st.disabled = []) (hl : st.lfd = false) (hst : st.stack = []) (hk : y.kind = .ident) (ht : y.text = "A".toList) :
    eStep p ms f y st = none ∨ ∃ st', eStep p ms f y st = some (.ok st') ∧ Stuck st' := by
  unfold eStep
  simp only [hk, hl, Bool.false_eq_true, if_false, ht, ha, hd, List.not_mem_nil]
  unfold eStep.expandHere
  rw [hst, hd]
  rcases expand_a' ms hg ha y.tok hk ht st.iter f with h | h
  · rw [h]; exact .inl rfl
  · rw [h]
    exact .inr ⟨_, rfl, ⟨rfl, hl, _, _, rfl, rfl, rfl, rfl, rfl⟩⟩

private theorem stuck_none (p : Profile) (ms : Macros) (hg : ms "G".toList = some macroG) (ha : ms "A".toList = some macroA) (f : Nat) :
    ∀ st, Stuck st → eLoop p ms f st = none := by
  induction f using Nat.strongRecOn with
  | _ f ih =>
    intro st hs
    obtain ⟨hd, hl, x, y, hst, hx1, hx2, hy1, hy2⟩ := hs
    have hn : eNext st = some (x.sym, { st with stack := [y] }) := by unfold eNext; rw [hst]
    have hp : ∀ f, eStep p ms f x.sym { st with stack := [y] } = some (.ok { st with stack := [y], disabled := [] }) := by
      intro f
      unfold eStep
      have hx1 : x.sym.kind = .ident := hx1
      have hx2 : x.sym.text = "G".toList := hx2
      simp only [hx1, hl, Bool.false_eq_true, if_false, hx2, hg, hd, List.mem_singleton, if_true]
      simp
    rcases f with _ | _ | f
    · rfl
    · simp only [eLoop, hn, hp]
    · simp only [eLoop, hn, hp]
      simp only [eNext]
      rcases turn_a p ms hg ha f y.sym ⟨st.iter, [], st.out, st.ops, st.mbu, st.lfd, []⟩ rfl hl rfl hy1 hy2 with h | ⟨s'', h, hs''⟩
      · rw [h]
      · rw [h]; exact ih f (by omega) s'' hs''

/-- **C21 is violated** without any stray punctuation: with `#define G(%1) 1` and `#define A G A`, the evaluation of `#if A` never
ends, whatever follows `A` on the line. -/
theorem names_only_refuted (p : Profile) (ms : Macros) (hg : ms "G".toList = some macroG) (ha : ms "A".toList = some macroA) (rest : List Sym) (fuel : Nat) :
    evaluate p ms [] (tk .ident "A" :: rest) fuel = none := by
  unfold evaluate evaluateValue
  have : eLoop p ms fuel ⟨tk .ident "A" :: rest, [], [], [], true, false, []⟩ = none := by
    rcases fuel with _ | f
    · rfl
    · simp only [eLoop, eNext]
      rcases turn_a p ms hg ha f (tk .ident "A") ⟨rest, [], [], [], true, false, []⟩ rfl rfl rfl rfl rfl with h | ⟨s'', h, hs''⟩
      · rw [h]
      · rw [h]; exact stuck_none p ms hg ha f s'' hs''
  rw [this]
  rfl

/-- Non-vacuity: the table after the two directives, and the line `#if A > 0`. -/
example : ∃ ms : Macros, ∀ fuel, evaluate .release ms [] [tk .ident "A", tk (.op .gt), num 0, tk .newline "\n"] fuel = none :=
  ⟨fun x => if x = "G".toList then some macroG else if x = "A".toList then some macroA else none, fun fuel => names_only_refuted _ _ (by simp) (by simp) _ fuel⟩

end Verif.Props.EvalLoop
