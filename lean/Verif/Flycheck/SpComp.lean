/-!
# Model of the compiler's command line and output

`crates/flycheck/src/spcomp.rs` and `check_command` (`crates/flycheck/src/lib.rs:296-316`).
-/

namespace Verif.Flycheck

abbrev Str := List Char

/-- `build_args` (spcomp.rs:88-114). Parameters: `parent` is `AbsPath::parent` of the root file, `join` is `parent.join("include")`,
`exists_` tells which paths exist on disk. -/
def buildArgs (parent : Str → Option Str) (join : Str → Str) (exists_ : Str → Bool) (root out : Str) (incs extra : List Str) : List Str :=
  [root] ++ incs.map (fun i => "-i".toList ++ i) ++
  (match parent root with
    | some p => ("-i".toList ++ p) :: (if exists_ (join p) then ["-i".toList ++ join p] else [])
    | none => []) ++
  ["-o".toList ++ out] ++ ["--syntax-only".toList] ++ extra

/-- `check_command` (lib.rs:296-316): the program and its arguments. `macArm` is the compile-time condition. -/
def checkCommand (macArm : Bool) (command : Str) (args : List Str) : Str × List Str :=
  (if macArm then "arch".toList else command, if macArm then ["-x86_64".toList, command] ++ args else ["-x86_64".toList, command] ++ args)

/-- `SpCompSeverity` (spcomp.rs:6-11). -/
inductive Severity where
  | warning
  | error
  | fatalError
deriving DecidableEq, Repr

/-- `SpCompDiagnostic` (spcomp.rs:25-41). -/
structure Diag where
  path : Str
  line : Nat
  severity : Severity
  code : Str
  message : Str
deriving DecidableEq, Repr

/-- `[:/\\A-Za-z\-_0-9. ]` -/
def isPathChar (c : Char) : Bool :=
  c = ':' ∨ c = '/' ∨ c = '\\' ∨ ('A' ≤ c ∧ c ≤ 'Z') ∨ ('a' ≤ c ∧ c ≤ 'z') ∨ c = '-' ∨ c = '_' ∨ ('0' ≤ c ∧ c ≤ '9') ∨ c = '.' ∨ c = ' '

/-- `[0-9]` -/
def isDig (c : Char) : Bool := '0' ≤ c ∧ c ≤ '9'

/-- A literal part of the expression. -/
def strip : Str → Str → Option Str
  | [], l => some l
  | c :: cs, d :: ds => if c = d then strip cs ds else none
  | _ :: _, [] => none

/-- `(error|fatal error|warning)` followed by a blank. -/
def stripSeverity (l : Str) : Option (Severity × Str) :=
  match strip "error ".toList l with
  | some r => some (.error, r)
  | none =>
    match strip "fatal error ".toList l with
    | some r => some (.fatalError, r)
    | none => (strip "warning ".toList l).map (fun r => (.warning, r))

/-- The regular expression (spcomp.rs:66-68) at the start of `l`: path, number, severity, code, message. `isD` is `\d` and `isS` is
`\s` (both are Unicode classes). The expression is deterministic, since every repetition is followed by a character outside its class,
except for the blanks before the message, which are all skipped. -/
def matchAt (isD isS : Char → Bool) (l : Str) : Option (Str × Str × Severity × Str × Str) :=
  match strip ['('] (l.dropWhile isPathChar) with
  | none => none
  | some r =>
    if r.takeWhile isD = [] then none
    else
      match strip ") : ".toList (r.dropWhile isD) with
      | none => none
      | some r1 =>
        match stripSeverity r1 with
        | none => none
        | some (sev, r2) =>
          match strip [':'] (r2.dropWhile isDig) with
          | none => none
          | some r3 =>
            if r3.takeWhile isS = [] then none
            else some (l.takeWhile isPathChar, r.takeWhile isD, sev, r2.takeWhile isDig, (r3.dropWhile isS).takeWhile (· ≠ '\n'))

/-- `captures`: the first place where it matches. -/
def search (isD isS : Char → Bool) : Str → Option (Str × Str × Severity × Str × Str)
  | [] => matchAt isD isS []
  | c :: l =>
    match matchAt isD isS (c :: l) with
    | some r => some r
    | none => search isD isS l

/-- Value of decimal digits. -/
def value (l : Str) : Nat := l.foldl (fun a c => a * 10 + (c.toNat - '0'.toNat)) 0

/-- `parse::<u32>` on what `\d+` matches. -/
def parseU32 (l : Str) : Option Nat := if l.all isDig ∧ value l < 2 ^ 32 then some (value l) else none

inductive Parsed where
  | none
  | panic
  | diag (d : Diag)
deriving DecidableEq, Repr

/-- `try_from_line` (spcomp.rs:64-84). `checked` tells if arithmetic is checked (a build with overflow checks). -/
def tryFromLine (checked : Bool) (isD isS : Char → Bool) (line : Str) : Parsed :=
  match search isD isS line with
  | none => .none
  | some (path, num, sev, code, msg) =>
    if path.head? = some '/' then
      match parseU32 num with
      | none => .none
      | some 0 => if checked then .panic else .diag ⟨path, 2 ^ 32 - 1, sev, code, msg⟩
      | some (n + 1) => .diag ⟨path, n, sev, code, msg⟩
    else .none

end Verif.Flycheck

namespace Verif.Flycheck.Spec
open Verif.Flycheck

def Severity.text : Severity → Str
  | .warning => "warning".toList
  | .error => "error".toList
  | .fatalError => "fatal error".toList

/-- A message as the compiler prints it: `path(number) : severity code:blanks message`. -/
def printed (path num : Str) (sev : Severity) (code blanks msg : Str) : Str :=
  path ++ ('(' :: num ++ (") : ".toList ++ (Severity.text sev ++ (' ' :: code ++ (':' :: blanks ++ msg)))))

/-- `[:/\\A-Za-z\-_0-9. ]`: letters and digits, and seven other characters. -/
def PathChar (c : Char) : Prop := c.isAlphanum = true ∨ c ∈ [':', '/', '\\', '-', '_', '.', ' ']

instance (c : Char) : Decidable (PathChar c) := inferInstanceAs (Decidable (_ ∨ _))

/-- `Decimal l n`: `l` are decimal digits with value `n`. -/
inductive Decimal : Str → Nat → Prop where
  | nil : Decimal [] 0
  | snoc {l : Str} {n : Nat} {c : Char} (d : Nat) : Decimal l n → d < 10 → c = Char.ofNat ('0'.toNat + d) → Decimal (l ++ [c]) (10 * n + d)

end Verif.Flycheck.Spec
