import Verif.Graph.Graphviz
/-!
# Model of the text of the picture of the projects

`crates/base-db/src/graph.rs:229-275` (`to_graphviz`): how the lines of `Graph/Graphviz` are written.
-/

namespace Verif.Graph

/-- `COLORS` (graph.rs:300-389). -/
def colours : List String :=
  ["aliceblue", "antiquewhite", "aqua", "aquamarine", "azure", "beige", "bisque", "black", "blanchedalmond", "blue", "blueviolet", "brown",
   "burlywood", "cadetblue", "chartreuse", "chocolate", "coral", "cornflowerblue", "cornsilk", "crimson", "cyan", "darkblue", "darkcyan",
   "darkgoldenrod", "darkgray", "darkgreen", "darkkhaki", "darkmagenta", "darkolivegreen", "darkorange", "darkorchid", "darkred", "darksalmon",
   "darkseagreen", "darkslateblue", "darkslategray", "darkturquoise", "darkviolet", "deeppink", "deepskyblue", "dimgray", "dodgerblue", "firebrick",
   "floralwhite", "forestgreen", "fuchsia", "gainsboro", "ghostwhite", "gold", "goldenrod", "gray", "green", "greenyellow", "honeydew", "hotpink",
   "indianred", "indigo", "ivory", "khaki", "lavender", "lavenderblush", "lawngreen", "lemonchiffon", "lightblue", "lightcoral", "lightcyan",
   "lightgoldenrodyellow", "lightgray", "lightgreen", "lightpink", "lightsalmon", "lightseagreen", "lightskyblue", "lightslategray",
   "lightsteelblue", "lightyellow", "lime", "limegreen", "linen", "magenta", "maroon", "mediumaquamarine", "mediumblue", "mediumorchid",
   "mediumpurple", "mediumseagreen", "mediumslateblue", "mediumspringgreen"]

/-- `\"{}\"` in the formats: nothing is escaped. -/
def quoted (n : List Char) : List Char := '"' :: n ++ ['"']

/-- A line as it is written (graph.rs:234, 240-249, 251-255, 257, 266-269, 271). -/
def Line.text : Line → List Char
  | .start => "digraph G {".toList
  | .cluster i c =>
    "  subgraph cluster_".toList ++ (toString i).toList ++ " {\n    style=filled;\n    color=".toList ++ (colours[c]?.getD "").toList ++
      ";\n    node [style=filled,color=white];\n    label = ".toList ++ quoted ("Project n°".toList ++ (toString i).toList) ++ ";".toList
  | .arrow s t => quoted s ++ " -> ".toList ++ quoted t ++ ";".toList
  | .diamond n => quoted n ++ " [shape=Mdiamond];".toList
  | .stop => "}".toList

/-- `out.join("\n")` (graph.rs:273). -/
def joinLines : List (List Char) → List Char
  | [] => []
  | [l] => l
  | l :: ls => l ++ '\n' :: joinLines ls

def render (ls : List Line) : List Char := joinLines (ls.map Line.text)

end Verif.Graph

/-! ## Specification: how a program that draws pictures reads the text -/
namespace Verif.Graph.Spec

/-- A string in quotes, or a character outside of strings. -/
inductive Token where
  | str (s : List Char)
  | sign (c : Char)
deriving DecidableEq

/-- The strings and other characters of a text in the DOT language: in a string a backslash before a quote stands for the quote. The first argument is what was
read of the string we are in. A string that does not end is no token. -/
def lex : Option (List Char) → List Char → List Token
  | none, [] => []
  | none, c :: cs => if c = '"' then lex (some []) cs else .sign c :: lex none cs
  | some _, [] => []
  | some s, '\\' :: '"' :: cs => lex (some (s ++ ['"'])) cs
  | some s, c :: cs => if c = '"' then .str s :: lex none cs else lex (some (s ++ [c])) cs

def signs (s : String) : List Token := s.toList.map .sign

/-- What has to be read for a line. -/
def meaning : Line → List Token
  | .start => signs "digraph G {"
  | .cluster i c =>
    signs "  subgraph cluster_" ++ signs (toString i) ++ signs " {\n    style=filled;\n    color=" ++ signs (colours[c]?.getD "") ++
      signs ";\n    node [style=filled,color=white];\n    label = " ++ [.str ("Project n°".toList ++ (toString i).toList)] ++ signs ";"
  | .arrow s t => [.str s] ++ signs " -> " ++ [.str t] ++ signs ";"
  | .diamond n => [.str n] ++ signs " [shape=Mdiamond];"
  | .stop => signs "}"

def joinTokens : List (List Token) → List Token
  | [] => []
  | [l] => l
  | l :: ls => l ++ .sign '\n' :: joinTokens ls

/-- A name without quotes that does not end with a backslash. -/
def Plain (n : Name) : Prop := '"' ∉ n ∧ n.getLast? ≠ some '\\'

def names : Line → List Name
  | .arrow s t => [s, t]
  | .diamond n => [n]
  | _ => []

end Verif.Graph.Spec
