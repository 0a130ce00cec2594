import Verif.Ide.Docs
/-!
# Model of the text shown on hovering over a name

`Documentation::to_markdown` (`crates/ide-db/src/documentation.rs:90-114`), `Markup::fenced_block` (`crates/ide/src/markup.rs:36-38`), the end of
`hover` (`crates/ide/src/hover.rs:88-127`).
The regular expressions are written as functions that recognise a match at the start of a text. White space and word characters outside of
ASCII are whatever Unicode says, given as parameters.
-/

namespace Verif.Ide.Markdown
open Verif.Ide.Docs (Str)

/-- `[A-Za-z]` -/
def letter (c : Char) : Bool := ('a' ≤ c && c ≤ 'z') || ('A' ≤ c && c ≤ 'Z')

def digit (c : Char) : Bool := '0' ≤ c && c ≤ '9'

/-- `\s` and `\w`: what they are in ASCII is known. -/
structure Classes where
  space : Char → Bool
  word : Char → Bool
  space_ascii : ∀ c, c.toNat < 128 → space c = Docs.isSpace c
  word_ascii : ∀ c, c.toNat < 128 → word c = (letter c || digit c || c == '_')

/-- A match at the start of a text: what replaces it, and the text behind it. -/
abbrev Match := Str → Option (Str × Str)

/-- `replace_all`: matches are looked for from left to right. The number is a bound for the number of steps; the length of the text is enough. -/
def go (m : Match) : Nat → Str → Str
  | 0, s => s
  | _ + 1, [] => []
  | n + 1, c :: s =>
    match m (c :: s) with
    | some (r, rest) => r ++ go m n rest
    | none => c :: go m n s

def replaceAll (m : Match) (s : Str) : Str := go m s.length s

variable (cl : Classes)

/-- `^\*<` ↦ nothing (documentation.rs:92, 102) -/
def re1 : Str → Str
  | '*' :: '<' :: s => s
  | s => s

/-- `\*\s*\r?\n\s*\*` ↦ two line feeds (documentation.rs:93, 103). The white space between the stars has to contain a line feed. -/
def re2 : Match
  | '*' :: s =>
    if '\n' ∈ s.takeWhile cl.space then
      match s.dropWhile cl.space with
      | '*' :: rest => some (['\n', '\n'], rest)
      | _ => none
    else none
  | _ => none

/-- `\s*\*` -/
def blankStar (s : Str) : Option (Str × Str) :=
  match s.dropWhile cl.space with
  | '*' :: rest => some ([], rest)
  | _ => none

/-- `\r?\n\s*\*` ↦ nothing (documentation.rs:94, 104) -/
def re3 : Match
  | '\r' :: '\n' :: s => blankStar cl s
  | '\n' :: s => blankStar cl s
  | _ => none

/-- `^\*` ↦ nothing (documentation.rs:95, 105) -/
def re4 : Str → Str
  | '*' :: s => s
  | s => s

/-- `<` ↦ `\<` (documentation.rs:96, 106) -/
def re5 : Match
  | '<' :: s => some (['\\', '<'], s)
  | _ => none

/-- `>` ↦ `\>` (documentation.rs:97, 107) -/
def re6 : Match
  | '>' :: s => some (['\\', '>'], s)
  | _ => none

/-- `(@[A-Za-z]+)\s+` behind the white space -/
def tagMatch (s : Str) : Option (Str × Str) :=
  if s.takeWhile letter = [] then none
  else
    match s.dropWhile letter with
    | c :: rest => if cl.space c then some ("\n\n_@".toList ++ s.takeWhile letter ++ "_ ".toList, rest.dropWhile cl.space) else none
    | [] => none

/-- `\s*(@[A-Za-z]+)\s+` ↦ `\n\n_${1}_ ` (documentation.rs:98, 109) -/
def re7 : Match := fun s =>
  match s.dropWhile cl.space with
  | '@' :: t => tagMatch cl t
  | _ => none

/-- `[A-Za-z0-9_.]` -/
def nameChar (c : Char) : Bool := letter c || digit c || c == '_' || c == '.'

/-- `(_@param_) ([A-Za-z0-9_.]+)\s*` ↦ ``${1} `${2}` — >`` (documentation.rs:99, 110) -/
def re8 : Match
  | '_' :: '@' :: 'p' :: 'a' :: 'r' :: 'a' :: 'm' :: '_' :: ' ' :: s =>
    if s.takeWhile nameChar = [] then none
    else some ("_@param_ `".toList ++ s.takeWhile nameChar ++ "` — >".toList, (s.dropWhile nameChar).dropWhile cl.space)
  | _ => none

/-- `[A-Za-z0-9_ :]` -/
def argChar (c : Char) : Bool := letter c || digit c || c == '_' || c == ' ' || c == ':'

/-- `(\w+\([A-Za-z0-9_ :]*\))` ↦ `` `${1}` `` (documentation.rs:100, 111) -/
def re9 : Match := fun s =>
  if s.takeWhile cl.word = [] then none
  else
    match s.dropWhile cl.word with
    | '(' :: t =>
      match t.dropWhile argChar with
      | ')' :: rest => some ('`' :: s.takeWhile cl.word ++ '(' :: t.takeWhile argChar ++ [')', '`'], rest)
      | _ => none
    | _ => none

/-- `replace("DEPRECATED", "\n\n**DEPRECATED**")` (documentation.rs:112) -/
def re10 : Match
  | 'D' :: 'E' :: 'P' :: 'R' :: 'E' :: 'C' :: 'A' :: 'T' :: 'E' :: 'D' :: s => some ("\n\n**DEPRECATED**".toList, s)
  | _ => none

/-- `to_markdown` (documentation.rs:90-114) -/
def toMarkdown (s : Str) : Str :=
  replaceAll re10 (replaceAll (re9 cl) (replaceAll (re8 cl) (replaceAll (re7 cl) (replaceAll re6 (replaceAll re5
    (re4 (replaceAll (re3 cl) (replaceAll (re2 cl) (re1 s)))))))))

/-- `Markup::fenced_block` (markup.rs:36-38) -/
def fencedBlock (contents : Str) : Str := "```sourcepawn\n".toList ++ contents ++ "\n```".toList

/-- `docs.join("\n")` (documentation.rs:84) -/
def join : List Str → Str
  | [] => []
  | [d] => d
  | d :: ds => d ++ '\n' :: join ds

/-- The text of a hover that is not over a macro (hover.rs:88-127): `source` is the text of the definition, and `docs` are the comments of
`Documentation::from_node`, which always returns something. -/
def hoverText (documentation : Bool) (source : Str) (docs : List Str) : Str :=
  if documentation then fencedBlock source ++ "\n\n---\n\n".toList ++ toMarkdown cl (join docs) else fencedBlock source

end Verif.Ide.Markdown

/-! ## Specification -/
namespace Verif.Ide.Markdown.Spec
open Verif.Ide.Docs (Str)
open Verif.Ide.Markdown

/-- The characters of a documentation that are not layout: neither white space nor the stars at the starts of lines. -/
def solid (cl : Classes) (s : Str) : Str := s.filter fun c => !cl.space c && c != '*'

/-- The characters that are no marks of Markdown either. -/
def bare (cl : Classes) (s : Str) : Str :=
  s.filter fun c => !cl.space c && c != '*' && c != '_' && c != '`' && c != '\\' && c != '—' && c != '>' && c != '<'

/-- A text of one line or a part of it: no layout of its own, nothing that means something to Markdown or to the renderer. -/
structure Plain (cl : Classes) (s : Str) : Prop where
  chars : ∀ c ∈ s, c ≠ '*' ∧ c ≠ '@' ∧ c ≠ '<' ∧ c ≠ '>' ∧ c ≠ '(' ∧ c ≠ '\n' ∧ c ≠ '\r'
  first : ∃ c r, s = c :: r ∧ cl.space c = false
  last : ∃ r c, s = r ++ [c] ∧ cl.space c = false
  notDeprecated : ¬ "DEPRECATED".toList <:+: s

/-- Space between words: not empty, without line breaks. -/
structure Gap (cl : Classes) (s : Str) : Prop where
  chars : ∀ c ∈ s, cl.space c = true ∧ c ≠ '\n' ∧ c ≠ '\r'
  some : s ≠ []

/-- A text of several lines: the first, and for each other its indentation behind the star, and itself. -/
structure Para where
  head : Str
  more : List (Str × Str)

/-- One thing said about a function: about a parameter, or about something else (`@return`, `@error`, `@note`, …). -/
inductive Entry where
  | param (name gap : Str) (text : Para)
  | other (tag gap : Str) (text : Para)

/-- A documentation as people write it. -/
structure Doc where
  summary : Para
  entries : List Entry

def WfPara (cl : Classes) (p : Para) : Prop := Plain cl p.head ∧ ∀ x ∈ p.more, Gap cl x.1 ∧ Plain cl x.2

def WfEntry (cl : Classes) : Entry → Prop
  | .param name gap text =>
    name ≠ [] ∧ (∀ c ∈ name, nameChar c = true) ∧ ¬ "DEPRECATED".toList <:+: name ∧ Gap cl gap ∧ WfPara cl text
  | .other tag gap text =>
    tag ≠ [] ∧ (∀ c ∈ tag, letter c = true) ∧ tag ≠ "param".toList ∧ ¬ "DEPRECATED".toList <:+: tag ∧ Gap cl gap ∧ WfPara cl text

def Wf (cl : Classes) (d : Doc) : Prop := WfPara cl d.summary ∧ ∀ e ∈ d.entries, WfEntry cl e

/-- A paragraph in the comment. -/
def Para.written (p : Para) : Str := p.head ++ p.more.flatMap fun x => "\n *".toList ++ x.1 ++ x.2

/-- A paragraph as it should be shown: its lines one after the other. -/
def Para.shown (p : Para) : Str := p.head ++ p.more.flatMap fun x => x.1 ++ x.2

/-- An entry in the comment, on lines of its own. -/
def Entry.written : Entry → Str
  | .param name gap text => "\n * @param ".toList ++ name ++ gap ++ text.written
  | .other tag gap text => "\n * @".toList ++ tag ++ gap ++ text.written

/-- An entry as it should be shown: a paragraph of its own, the tag in italics, the name of the parameter as code. -/
def Entry.shown : Entry → Str
  | .param name _ text => "\n\n_@param_ `".toList ++ name ++ "` — >".toList ++ text.shown
  | .other tag _ text => "\n\n_@".toList ++ tag ++ "_ ".toList ++ text.shown

/-- The comment between `/**` and `*/`, without the white space `/**` is followed by. -/
def Doc.written (d : Doc) : Str := "* ".toList ++ d.summary.written ++ "\n *".toList ++ d.entries.flatMap Entry.written ++ "\n ".toList

def Doc.shown (d : Doc) : Str := " ".toList ++ d.summary.shown ++ d.entries.flatMap Entry.shown ++ "\n ".toList

/-- The lines of a text. -/
def lines : Str → List Str
  | [] => [[]]
  | c :: s =>
    if c = '\n' then [] :: lines s
    else match lines s with
      | l :: ls => (c :: l) :: ls
      | [] => [[c]]

/-- A line that ends a block of code in Markdown. -/
def fence (l : Str) : Bool := "```".toList.isPrefixOf (l.dropWhile (· = ' '))

/-- What Markdown takes for the code, given the lines behind the one that opens the block: the lines up to the next fence; and the lines
behind it. -/
def code : List Str → Option (List Str × List Str)
  | [] => none
  | l :: ls => if fence l then some ([], ls) else (code ls).map fun r => (l :: r.1, r.2)

/-- `<` and `>` are written with a backslash in Markdown. -/
def escape (s : Str) : Str := s.flatMap fun c => if c = '<' ∨ c = '>' then ['\\', c] else [c]

/-- A call like `max(a, b)` in a text, and the text before it. -/
structure Call where
  before : Str
  name : Str
  args : Str

/-- Text in which the renderer has only `<` and `>` to write differently. -/
def Quiet (s : Str) : Prop := ∀ c ∈ s, c ≠ '*' ∧ c ≠ '@' ∧ c ≠ '('

/-- A word and, in parentheses, letters, digits, underscores, spaces and colons. The word is not the rest of a longer one. -/
structure WfCall (cl : Classes) (k : Call) : Prop where
  before : Quiet k.before
  apart : ∀ r c, k.before = r ++ [c] → cl.word c = false
  name : k.name ≠ [] ∧ ∀ c ∈ k.name, cl.word c = true
  args : ∀ c ∈ k.args, c.isAlphanum = true ∨ c = '_' ∨ c = ' ' ∨ c = ':'

def Call.code (k : Call) : Str := k.name ++ '(' :: k.args ++ [')']

def Call.written (k : Call) : Str := k.before ++ k.code

/-- The call as code, the text before it as it is. -/
def Call.shown (k : Call) : Str := escape k.before ++ '`' :: k.code ++ ['`']

end Verif.Ide.Markdown.Spec
