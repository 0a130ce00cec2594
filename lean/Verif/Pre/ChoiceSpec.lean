import Verif.Pre.MainSpec
import Verif.Pre.CondSpec
/-!
# Conditional compilation by the meaning of the conditions

As `Sel` and `Choose`, with conditions that are given by the expression they stand for and its value, not by running the evaluator.
-/

namespace Verif.Pre.Spec
open Verif.Pre

/-- In state `s` the condition `cond` stands for an expression whose value is not zero (`b`), or zero. `ts` are the tokens of its line, `rs` those with the
definitions replaced. Literals are read with `read`. None of the macros it uses is barred from being replaced. -/
def Truth (s : PSt) (cond : List Sym) (b : Bool) : Prop :=
  ∃ (ts nl rs : List Sym) (read : Kind → Str → Option Int) (line : Nat) (e : Expr) (v : Int), cond = ts ++ nl ∧ (∀ x ∈ nl, x.kind = .newline) ∧
    Replaced s.macros (ts.map ofSym) (rs.map ofSym) ∧ Denotes (fun x => (s.macros x).isSome) rs e ∧ value e = some v ∧ b = decide (v ≠ 0) ∧
    (∀ x ∈ ts, x.range.s.line = line ∧ x.range.e.line = line ∧ 0 ≤ x.delta.col) ∧ (∀ x ∈ ts ++ nl ++ rs, x.val = read x.kind x.text) ∧
    (∀ x, read .strLit x = none) ∧ (∀ x m, s.macros x = some m → ∀ r ∈ m.body, r.val = read r.kind r.text) ∧
    ∀ x ∈ ts, ∀ m, s.macros x.text = some m → m ∉ s.disabled

mutual
/-- `Picked env s f sel grey s'`: `sel` is the text of `f` that is compiled when preprocessing starts in state `s`, it leads to `s'`, and `grey` are the lines
that are not compiled. -/
inductive Picked (env : Env) : PSt → Items → List Sym → List Nat → PSt → Prop where
  | nil {s : PSt} : Picked env s .nil [] [] s
  | text {s s₁ s' : PSt} {ts sel : List Sym} {r : Items} {g : List Nat} :
      Segment env ts s s₁ → Picked env s₁ r sel g s' → Picked env s (.text ts r) (ts ++ sel) g s'
  | chain {s s₁ s' : PSt} {c : Branches} {r : Items} {sel₁ sel₂ : List Sym} {g₁ g₂ : List Nat} :
      Branch env s c sel₁ g₁ s₁ → Picked env s₁ r sel₂ g₂ s' → Picked env s (.chain c r) (sel₁ ++ sel₂) (g₁ ++ g₂) s'
/-- The first branch whose condition is not zero, else the `#else` branch, else nothing. -/
inductive Branch (env : Env) : PSt → Branches → List Sym → List Nat → PSt → Prop where
  | none {s : PSt} {e : Sym} : Branch env s (.done e) [] [] s
  | skip {s s' : PSt} {d : Sym} {cond : List Sym} {body : Items} {more : Branches} {sel : List Sym} {g : List Nat} :
      Truth s cond false → Branch env s more sel g s' → Branch env s (.branch d (some cond) body more) sel (body.lines ++ g) s'
  | take {s s' : PSt} {d : Sym} {cond : List Sym} {body : Items} {more : Branches} {sel : List Sym} {g : List Nat} :
      Truth s cond true → Picked env s body sel g s' → Branch env s (.branch d (some cond) body more) sel (g ++ more.lines false) s'
  | otherwise {s s' : PSt} {d : Sym} {body : Items} {more : Branches} {sel : List Sym} {g : List Nat} :
      Picked env s body sel g s' → Branch env s (.branch d none body more) sel (g ++ more.lines false) s'
end

end Verif.Pre.Spec
