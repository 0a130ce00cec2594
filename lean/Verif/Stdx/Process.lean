/-!
# Model of reading the output of a process

`crates/stdx/src/process.rs` on Unix: `streaming_output` and `imp::read2`. A program writes to two pipes; the operating system decides when
each of them is readable and how many bytes a read gets.
-/

namespace Verif.Stdx.Process

abbrev Byte := UInt8

def newline : Byte := 10

inductive Pipe where
  | out | err
deriving DecidableEq

/-- Something for each of the two pipes. -/
def put {α : Type} (f : Pipe → α) (p : Pipe) (a : α) : Pipe → α := fun q => if q = p then a else f q

/-- `str::lines`: ends at line feeds, which are removed with one carriage return before them; a last line without end counts if it is not
empty. `cur` is the part of the current line that was read, the last character first. -/
def linesFrom (cur : List Char) : List Char → List (List Char)
  | [] => if cur.isEmpty then [] else [cur.reverse]
  | c :: cs =>
    if c = '\n' then
      (match cur with
      | '\r' :: l => l.reverse
      | l => l.reverse) :: linesFrom [] cs
    else linesFrom (c :: cur) cs

def lines (t : List Char) : List (List Char) := linesFrom [] t

/-- `rposition(|&b| b == b'\n')` and `i + 1` (process.rs:25-28): how many bytes there are up to the last line feed. -/
def upToNewline : List Byte → Option Nat
  | [] => none
  | b :: bs =>
    match upToNewline bs with
    | some n => some (n + 1)
    | none => if b = newline then some 1 else none

/-- How a `read_to_end` on a non-blocking pipe ends (process.rs:121-130). -/
inductive Res where
  | eof | wouldBlock | failed
deriving DecidableEq

/-- The local variables of `read2` and `streaming_output` (process.rs:19-20, 92-105), the lines that were handed over so far, the latest last, and,
of the environment, what is still to be read from each pipe. -/
structure State where
  buf : Pipe → List Byte := fun _ => []
  done : Pipe → Bool := fun _ => false
  /-- `fds[0].fd`, `fds[1].fd` -/
  fd0 : Pipe := .out
  fd1 : Pipe := .err
  rev0 : Bool := false
  rev1 : Bool := false
  nfds : Nat := 2
  /-- whether `errfd` is 1 -/
  errfd1 : Bool := true
  dst : Pipe → List Byte := fun _ => []
  handed : List (Pipe × List Char) := []
  rest : Pipe → List Byte

/-- What the operating system answers in one turn of the loop: `poll` may be interrupted or fail; otherwise it says for each descriptor whether something
happened. Then the results of the reads. -/
inductive Input where
  | interrupted
  | pollFailed
  | ready (r0 r1 : Bool) (read : Pipe → Nat × Res)

/-- The callback `data` (process.rs:22-47). `decode` is `String::from_utf8_lossy`. -/
def feed (decode : List Byte → List Char) (p : Pipe) (eof : Bool) (s : State) : State :=
  match (if eof then some (s.buf p).length else upToNewline (s.buf p)) with
  | none => s
  | some idx =>
    let new := (s.buf p).take idx
    { s with
      buf := put s.buf p ((s.buf p).drop idx)
      dst := put s.dst p (s.dst p ++ new)
      handed := s.handed ++ (lines (decode new)).map fun l => (p, l) }

/-- `read_to_end` of a pipe: what could be read is in the buffer whatever the result. -/
def readPipe (p : Pipe) (k : Nat) (s : State) : State :=
  { s with buf := put s.buf p (s.buf p ++ (s.rest p).take k), rest := put s.rest p ((s.rest p).drop k) }

/-- `fds[errfd].revents != 0`. -/
def State.errReady (s : State) : Bool := if s.errfd1 then s.rev1 else s.rev0

/-- The part of the turn for the error pipe (process.rs:131-135); `none` is the `?`. -/
def turnErr (decode : List Byte → List Char) (read : Pipe → Nat × Res) (s : State) : Option State :=
  if !s.done .err && s.errReady then
    let s := readPipe .err (read .err).1 s
    match (read .err).2 with
    | .failed => none
    | .wouldBlock => some (feed decode .err (s.done .err) s)
    | .eof =>
      let s := { s with done := put s.done .err true, nfds := s.nfds - 1 }
      some (feed decode .err (s.done .err) s)
  else some (feed decode .err (s.done .err) s)

/-- The part of the turn for the output pipe (process.rs:136-142). -/
def turnOut (decode : List Byte → List Char) (read : Pipe → Nat × Res) (s : State) : Option State :=
  if !s.done .out && s.rev0 then
    let s := readPipe .out (read .out).1 s
    match (read .out).2 with
    | .failed => none
    | .wouldBlock => some (feed decode .out (s.done .out) s)
    | .eof =>
      let s := { s with done := put s.done .out true, fd0 := .err, errfd1 := false, nfds := s.nfds - 1 }
      some (feed decode .out (s.done .out) s)
  else some (feed decode .out (s.done .out) s)

/-- `poll` sets `revents` of the first `nfds` descriptors. -/
def State.poll (s : State) (r0 r1 : Bool) : State :=
  { s with rev0 := if 0 < s.nfds then r0 else s.rev0, rev1 := if 1 < s.nfds then r1 else s.rev1 }

/-- One turn of the loop (process.rs:107-143); `none`: an error is returned. -/
def turn (decode : List Byte → List Char) (i : Input) (s : State) : Option State :=
  match i with
  | .interrupted => some s
  | .pollFailed => none
  | .ready r0 r1 read =>
    (turnErr decode read (s.poll r0 r1)).bind (turnOut decode read)

/-- The loop, as long as it is given answers: it ends when no descriptor is left. The result says whether it has ended; `none`: an error is
returned. -/
def run (decode : List Byte → List Char) : List Input → State → Option (Bool × State)
  | is, s =>
    if s.nfds = 0 then some (true, s)
    else match is with
      | [] => some (false, s)
      | i :: is => (turn decode i s).bind (run decode is)

/-- `SpCompActor::run` (flycheck/src/lib.rs:429-466) sends what `try_from_line` makes of each line. -/
def sent {D : Type} (parse : List Char → Option D) (s : State) : List D := s.handed.filterMap fun l => parse l.2

/-! ## Specification -/

namespace Spec

/-- An answer the operating system can give in a state: no more is read than there is, and the end of a pipe is reported when all has been
read. -/
def Possible (s : State) : Input → Prop
  | .ready _ _ read => ∀ p, (read p).1 ≤ (s.rest p).length ∧ ((read p).2 = .eof → (read p).1 = (s.rest p).length)
  | _ => True

/-- All answers are possible when they are given. -/
def PossibleAll (decode : List Byte → List Char) : List Input → State → Prop
  | [], _ => True
  | i :: is, s => Possible s i ∧ ∀ s', turn decode i s = some s' → PossibleAll decode is s'

/-- The lines of a text: they end at line feeds, which do not belong to them, nor does a carriage return directly before. What is behind the last
line feed is a line if it is not empty. -/
inductive IsLines : List Char → List (List Char) → Prop where
  | nil : IsLines [] []
  | last {l : List Char} : l ≠ [] → '\n' ∉ l → IsLines l [l]
  | lf {l t : List Char} {ls : List (List Char)} : '\n' ∉ l → l.getLast? ≠ some '\r' → IsLines t ls → IsLines (l ++ '\n' :: t) (l :: ls)
  | crlf {l t : List Char} {ls : List (List Char)} : '\n' ∉ l → IsLines t ls → IsLines (l ++ '\r' :: '\n' :: t) (l :: ls)

/-- What is assumed about the decoding of bytes: a line feed separates what is before from what is after. -/
structure Decodes (decode : List Byte → List Char) : Prop where
  nil : decode [] = []
  split : ∀ a b, decode (a ++ newline :: b) = decode a ++ '\n' :: decode b

/-- The lines handed over for one pipe. -/
def got (s : State) (p : Pipe) : List (List Char) := (s.handed.filter fun l => l.1 = p).map (·.2)

/-- The descriptors that are polled. -/
def polled (s : State) : List Pipe := [s.fd0, s.fd1].take s.nfds

end Spec

end Verif.Stdx.Process
