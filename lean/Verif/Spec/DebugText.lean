import Verif.Model.Basic
import Verif.Chars

/-! # Specification: the texts of the derived `Debug` implementations -/

set_option autoImplicit false

namespace Bnf.Spec

/-- The escape of a character: the short ones, or its number in hexadecimal digits; characters of printable ASCII and those with `plain` stay. -/
def escaped (plain : Char → Bool) (c : Char) : Str :=
  match c.toNat with
  | 0 => chars! "\\0"
  | 9 => chars! "\\t"
  | 10 => chars! "\\n"
  | 13 => chars! "\\r"
  | 34 => chars! "\\\""
  | 92 => chars! "\\\\"
  | n => if (32 ≤ n ∧ n < 127) ∨ plain c then [c] else chars! "\\u{" ++ Nat.toDigits 16 n ++ chars! "}"

/-- A string in quotes. -/
def quotedDebug (plain : Char → Bool) (s : Str) : Str := chars! "\"" ++ (s.map (escaped plain)).flatten ++ chars! "\""

/-- Texts with commas and spaces between them, in brackets. -/
def bracketed (xs : List Str) : Str := chars! "[" ++ (xs.intersperse (chars! ", ")).flatten ++ chars! "]"

section compact
variable (plain : Char → Bool)

def debugTerm : Term → Str
  | .terminal s => chars! "Terminal(" ++ quotedDebug plain s ++ chars! ")"
  | .nonterminal s => chars! "Nonterminal(" ++ quotedDebug plain s ++ chars! ")"

def debugExpression (e : Expression) : Str := chars! "Expression { terms: " ++ bracketed (e.terms.map (debugTerm plain)) ++ chars! " }"

def debugProduction (p : Production) : Str :=
  chars! "Production { lhs: " ++ debugTerm plain p.lhs ++ chars! ", rhs: " ++ bracketed (p.rhs.map (debugExpression plain)) ++ chars! " }"

/-- `{:?}` of a grammar. -/
def debugGrammar (g : Grammar) : Str := chars! "Grammar { productions: " ++ bracketed (g.productions.map (debugProduction plain)) ++ chars! " }"

/-- A parse tree from the texts of its nodes. -/
def debugTreeOf (lhs : Term) (nodes : List Str) : Str :=
  chars! "ParseTree { lhs: " ++ debugTerm plain lhs ++ chars! ", rhs: " ++ bracketed nodes ++ chars! " }"

mutual
def debugNode : ParseTreeNode → Str
  | .terminal s => chars! "Terminal(" ++ quotedDebug plain s ++ chars! ")"
  | .nonterminal lhs rhs => chars! "Nonterminal(" ++ debugTreeOf plain lhs (debugNodes rhs) ++ chars! ")"
def debugNodes : List ParseTreeNode → List Str
  | [] => []
  | n :: ns => debugNode n :: debugNodes ns
end

/-- `{:?}` of a parse tree. -/
def debugTree (t : ParseTree) : Str := debugTreeOf plain t.lhs (debugNodes plain t.rhs)
end compact

/-! ## `{:#?}`, for a value that begins in a line indented by `d` steps -/

/-- The end of a line and the indentation of the next. -/
def newLine (d : Nat) : Str := chars! "\n" ++ List.replicate (4 * d) ' '

/-- Texts one below the other, each with a comma, in brackets. -/
def vertical (d : Nat) : List Str → Str
  | [] => chars! "[]"
  | xs => chars! "[" ++ (xs.map fun x => newLine (d + 1) ++ x ++ chars! ",").flatten ++ newLine d ++ chars! "]"

section pretty
variable (plain : Char → Bool)

def prettyTerm (d : Nat) : Term → Str
  | .terminal s => chars! "Terminal(" ++ newLine (d + 1) ++ quotedDebug plain s ++ chars! "," ++ newLine d ++ chars! ")"
  | .nonterminal s => chars! "Nonterminal(" ++ newLine (d + 1) ++ quotedDebug plain s ++ chars! "," ++ newLine d ++ chars! ")"

def prettyExpression (d : Nat) (e : Expression) : Str :=
  chars! "Expression {" ++ newLine (d + 1) ++ chars! "terms: " ++ vertical (d + 1) (e.terms.map (prettyTerm plain (d + 2))) ++ chars! "," ++
    newLine d ++ chars! "}"

def prettyProduction (d : Nat) (p : Production) : Str :=
  chars! "Production {" ++ newLine (d + 1) ++ chars! "lhs: " ++ prettyTerm plain (d + 1) p.lhs ++ chars! "," ++
    newLine (d + 1) ++ chars! "rhs: " ++ vertical (d + 1) (p.rhs.map (prettyExpression plain (d + 2))) ++ chars! "," ++ newLine d ++ chars! "}"

/-- `{:#?}` of a grammar (with `d = 0`). -/
def prettyDebug (d : Nat) (g : Grammar) : Str :=
  chars! "Grammar {" ++ newLine (d + 1) ++ chars! "productions: " ++ vertical (d + 1) (g.productions.map (prettyProduction plain (d + 2))) ++ chars! "," ++
    newLine d ++ chars! "}"

/-- A parse tree from the texts of its nodes. -/
def prettyTreeOf (d : Nat) (lhs : Term) (nodes : List Str) : Str :=
  chars! "ParseTree {" ++ newLine (d + 1) ++ chars! "lhs: " ++ prettyTerm plain (d + 1) lhs ++ chars! "," ++
    newLine (d + 1) ++ chars! "rhs: " ++ vertical (d + 1) nodes ++ chars! "," ++ newLine d ++ chars! "}"

mutual
def prettyNode (d : Nat) : ParseTreeNode → Str
  | .terminal s => chars! "Terminal(" ++ newLine (d + 1) ++ quotedDebug plain s ++ chars! "," ++ newLine d ++ chars! ")"
  | .nonterminal lhs rhs =>
    chars! "Nonterminal(" ++ newLine (d + 1) ++ prettyTreeOf plain (d + 1) lhs (prettyNodes (d + 3) rhs) ++ chars! "," ++ newLine d ++ chars! ")"
def prettyNodes (d : Nat) : List ParseTreeNode → List Str
  | [] => []
  | n :: ns => prettyNode d n :: prettyNodes d ns
end

/-- `{:#?}` of a parse tree (with `d = 0`). -/
def prettyTree (d : Nat) (t : ParseTree) : Str := prettyTreeOf plain d t.lhs (prettyNodes plain (d + 2) t.rhs)
end pretty

end Bnf.Spec
