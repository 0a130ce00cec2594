import Verif.Pre.Token
/-!
# Specification of `#if` expressions

Grammar and value of a condition, independent of the evaluator: the precedence table of the SourcePawn compiler, values as 32-bit
two's complement integers.
-/

namespace Verif.Pre.Spec

inductive UnOp where
  | lnot | bnot | neg | pos
  deriving DecidableEq

inductive BinOp where
  | mul | div | mod | sub | add | shl | shr | ushr | band | bxor | bor | lt | le | gt | ge | eq | ne | land | lor
  deriving DecidableEq

inductive Expr where
  | lit (v : Int)
  | un (u : UnOp) (e : Expr)
  | bin (b : BinOp) (l r : Expr)

/-- Reduction to the range of a 32-bit signed integer. -/
def wrap (x : Int) : Int := Int.bmod x (2 ^ 32)

def truth (p : Prop) [Decidable p] : Int := if p then 1 else 0

/-- Bitwise operations act on the two's complement representations. -/
def bits (f : BitVec 32 → BitVec 32 → BitVec 32) (a b : Int) : Int := (f (BitVec.ofInt 32 a) (BitVec.ofInt 32 b)).toInt

def unVal : UnOp → Int → Int
  | .lnot, a => truth (a = 0)
  | .bnot, a => -a - 1
  | .neg, a => wrap (-a)
  | .pos, a => a

/-- Value of a binary operation; division by zero and the one overflowing quotient have none. Shift counts are modulo 32. -/
def binVal : BinOp → Int → Int → Option Int
  | .mul, a, b => some (wrap (a * b))
  | .div, a, b => if b = 0 ∨ (a = -2 ^ 31 ∧ b = -1) then none else some (a.tdiv b)
  | .mod, a, b => if b = 0 ∨ (a = -2 ^ 31 ∧ b = -1) then none else some (a.tmod b)
  | .sub, a, b => some (wrap (a - b))
  | .add, a, b => some (wrap (a + b))
  | .shl, a, b => some (wrap (a * 2 ^ (b % 32).toNat))
  | .shr, a, b => some (a / 2 ^ (b % 32).toNat)
  | .ushr, a, b => some (wrap (a % 2 ^ 32 / 2 ^ (b % 32).toNat))
  | .band, a, b => some (bits (· &&& ·) a b)
  | .bxor, a, b => some (bits (· ^^^ ·) a b)
  | .bor, a, b => some (bits (· ||| ·) a b)
  | .lt, a, b => some (truth (a < b))
  | .le, a, b => some (truth (a ≤ b))
  | .gt, a, b => some (truth (a > b))
  | .ge, a, b => some (truth (a ≥ b))
  | .eq, a, b => some (truth (a = b))
  | .ne, a, b => some (truth (a ≠ b))
  | .land, a, b => some (truth (a ≠ 0 ∧ b ≠ 0))
  | .lor, a, b => some (truth (a ≠ 0 ∨ b ≠ 0))

/-- Value of an expression. -/
def value : Expr → Option Int
  | .lit v => some (wrap v)
  | .un u e => (value e).map (unVal u)
  | .bin b l r => (value l).bind fun x => (value r).bind fun y => binVal b x y

/-- Prefix operators. -/
def prefixOp : Op → Option UnOp
  | .not => some .lnot | .tilde => some .bnot | .minus => some .neg | .plus => some .pos
  | _ => none

/-- Infix operators with their level; a smaller level binds tighter. -/
def infixOp : Op → Option (Nat × BinOp)
  | .star => some (3, .mul) | .slash => some (3, .div) | .percent => some (3, .mod)
  | .minus => some (4, .sub) | .plus => some (4, .add)
  | .shl => some (5, .shl) | .shr => some (5, .shr) | .ushr => some (5, .ushr)
  | .ampersand => some (6, .band)
  | .bitxor => some (7, .bxor)
  | .bitor => some (8, .bor)
  | .lt => some (9, .lt) | .le => some (9, .le) | .gt => some (9, .gt) | .ge => some (9, .ge)
  | .equals => some (10, .eq) | .notEquals => some (10, .ne)
  | .and => some (11, .land)
  | .or => some (12, .lor)
  | _ => none

/-- Comments and line ends carry no meaning. -/
def Noise (s : Sym) : Prop := s.kind = .blockComment ∨ s.kind = .lineComment ∨ s.kind = .newline ∨ s.kind = .eof

instance (s : Sym) : Decidable (Noise s) := by unfold Noise; infer_instance

/-- `Parses defs n ts e`: the tokens `ts` are an expression of level at most `n` and denote `e`. `defs` tells which names are
defined. -/
inductive Parses (defs : Str → Bool) : Nat → List Sym → Expr → Prop where
  | num {s : Sym} {v : Int} : s.kind = .intLit ∨ s.kind = .numLit ∨ s.kind = .charLit → s.val = some v → Parses defs 0 [s] (.lit v)
  | tt {s : Sym} : s.kind = .true_ → Parses defs 0 [s] (.lit 1)
  | ff {s : Sym} : s.kind = .false_ → Parses defs 0 [s] (.lit 0)
  | defined {d x : Sym} : d.kind = .defined → x.kind = .ident → Parses defs 0 [d, x] (.lit (if defs x.text then 1 else 0))
  | definedParen {d l x r : Sym} : d.kind = .defined → l.kind = .lparen → x.kind = .ident → r.kind = .rparen →
      Parses defs 0 [d, l, x, r] (.lit (if defs x.text then 1 else 0))
  | paren {l r : Sym} {ts : List Sym} {e : Expr} : l.kind = .lparen → r.kind = .rparen → Parses defs 12 ts e →
      Parses defs 0 (l :: ts ++ [r]) e
  | un {s : Sym} {o : Op} {u : UnOp} {ts : List Sym} {e : Expr} : s.kind = .op o → prefixOp o = some u → Parses defs 2 ts e →
      Parses defs 2 (s :: ts) (.un u e)
  /-- left associative: the right operand binds strictly tighter -/
  | bin {s : Sym} {o : Op} {b : BinOp} {n m : Nat} {l r : List Sym} {e₁ e₂ : Expr} : s.kind = .op o → infixOp o = some (n, b) →
      Parses defs n l e₁ → Parses defs m r e₂ → m < n → Parses defs n (l ++ s :: r) (.bin b e₁ e₂)
  | weaken {n m : Nat} {ts : List Sym} {e : Expr} : Parses defs n ts e → n ≤ m → Parses defs m ts e

/-- A condition: an expression, ignoring comments and line ends. -/
def Denotes (defs : Str → Bool) (ts : List Sym) (e : Expr) : Prop := Parses defs 12 (ts.filter (fun s => ! decide (Noise s))) e

end Verif.Pre.Spec
