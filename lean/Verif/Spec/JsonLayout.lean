import Verif.Model.Basic

/-! # Specification: the texts `serde_json` writes for grammars -/

set_option autoImplicit false

namespace Bnf.Spec

/-- A string in quotes; quotes, backslashes and control characters are escaped. -/
def quotedJson (s : Str) : Str :=
  "\"".toList ++ (s.map fun c =>
    match c.toNat with
    | 34 => "\\\"".toList
    | 92 => "\\\\".toList
    | 8 => "\\b".toList
    | 9 => "\\t".toList
    | 10 => "\\n".toList
    | 12 => "\\f".toList
    | 13 => "\\r".toList
    | n => if n < 16 then "\\u000".toList ++ Nat.toDigits 16 n
      else if n < 32 then "\\u00".toList ++ Nat.toDigits 16 n else [c]).flatten ++ "\"".toList

/-- Texts with commas between them. -/
def commaSeparated : List Str → Str
  | [] => []
  | [x] => x
  | x :: xs => x ++ ",".toList ++ commaSeparated xs

def compactTerm : Term → Str
  | .terminal s => "{\"Terminal\":".toList ++ quotedJson s ++ "}".toList
  | .nonterminal s => "{\"Nonterminal\":".toList ++ quotedJson s ++ "}".toList

def compactExpression (e : Expression) : Str := "{\"terms\":[".toList ++ commaSeparated (e.terms.map compactTerm) ++ "]}".toList

def compactProduction (p : Production) : Str :=
  "{\"lhs\":".toList ++ compactTerm p.lhs ++ ",\"rhs\":[".toList ++ commaSeparated (p.rhs.map compactExpression) ++ "]}".toList

/-- What `serde_json::to_string` writes. -/
def compactGrammar (g : Grammar) : Str :=
  "{\"productions\":[".toList ++ commaSeparated (g.productions.map compactProduction) ++ "]}".toList

/-- A line: how many steps it is indented, and its text. -/
abbrev Line := Nat × Str

/-- Lines further to the right. -/
def indented (ls : List Line) : List Line := ls.map fun l => (l.1 + 1, l.2)

/-- A comma at the end of the last line. -/
def withComma : List Line → List Line
  | [] => []
  | [(d, t)] => [(d, t ++ ",".toList)]
  | l :: ls => l :: withComma ls

/-- A text before the first line. -/
def withPrefix (k : Str) : List Line → List Line
  | [] => []
  | (d, t) :: ls => (d, k ++ t) :: ls

/-- Blocks below each other, all but the last with a comma. -/
def blocks : List (List Line) → List Line
  | [] => []
  | [b] => b
  | b :: bs => withComma b ++ blocks bs

/-- Blocks in brackets. -/
def arrayLines : List (List Line) → List Line
  | [] => [(0, "[]".toList)]
  | bs => [(0, "[".toList)] ++ indented (blocks bs) ++ [(0, "]".toList)]

/-- Blocks, each with a name, in braces. -/
def objectLines (ms : List (Str × List Line)) : List Line :=
  [(0, "{".toList)] ++ indented (blocks (ms.map fun m => withPrefix ("\"".toList ++ m.1 ++ "\": ".toList) m.2)) ++ [(0, "}".toList)]

def termLines : Term → List Line
  | .terminal s => objectLines [("Terminal".toList, [(0, quotedJson s)])]
  | .nonterminal s => objectLines [("Nonterminal".toList, [(0, quotedJson s)])]

def expressionLines (e : Expression) : List Line := objectLines [("terms".toList, arrayLines (e.terms.map termLines))]

def productionLines (p : Production) : List Line :=
  objectLines [("lhs".toList, termLines p.lhs), ("rhs".toList, arrayLines (p.rhs.map expressionLines))]

def grammarLines (g : Grammar) : List Line := objectLines [("productions".toList, arrayLines (g.productions.map productionLines))]

/-- The lines as a text, with two spaces for each step and line feeds between the lines. -/
def linesText : List Line → Str
  | [] => []
  | [(d, t)] => List.replicate (2 * d) ' ' ++ t
  | (d, t) :: ls => List.replicate (2 * d) ' ' ++ t ++ "\n".toList ++ linesText ls

/-- What `serde_json::to_string_pretty` writes. -/
def prettyGrammar (g : Grammar) : Str := linesText (grammarLines g)

end Bnf.Spec
