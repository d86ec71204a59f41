import Verif.Conformance.Snapshots
import Verif.Model.Generate
import Verif.Model.Api
import Verif.Model.Views
import Verif.Model.Editing

/-!
# The model against the unit tests of the crate

The inputs and expected values of the crate's own unit tests, checked on the model by evaluation at each build.  As in
`Conformance/Snapshots` these are tests of the model, not proofs.  Tests that only say that something random succeeds, and the property
tests (which are theorems here, C94–C97), are left out.
-/

set_option autoImplicit false

namespace Bnf.Conformance

/-- Left out of the comparison: the text of the message. -/
def okOf {α : Type} : Option (Except Error α) → Option α
  | some (.ok a) => some a
  | _ => none

/-- An error of any kind (but neither success nor lack of fuel). -/
def isErr {α : Type} : Option (Except Error α) → Bool
  | some (.error _) => true
  | _ => false

/-- The grammar of a text; the empty grammar if there is none (no test below is about the empty grammar). -/
def G (s : String) : Grammar := (okOf (Grammar.fromStr Char.isAlpha s.toList)).getD ⟨[]⟩
def parses (s : String) : Bool := (okOf (Grammar.fromStr Char.isAlpha s.toList)).isSome
def rejected (s : String) : Bool := isErr (Grammar.fromStr Char.isAlpha s.toList)
def T (s : String) : Option Term := okOf (Term.fromStr s.toList)
def E (s : String) : Option Expression := okOf (Expression.fromStr s.toList)
def Pr (s : String) : Option Production := okOf (Production.fromStr s.toList)
def t (s : String) : Term := .terminal s.toList
def n (s : String) : Term := .nonterminal s.toList

/-- The number of trees of `parse_input` (deprecated or through `build_parser`, which must succeed). -/
def trees (g : Grammar) (s : String) : Option Nat :=
  match g.buildParser id with
  | .ok p => match p.parseInput s.toList with
    | some it => (drain 10000 100 it).map List.length
    | none => none
  | _ => none
def treesFrom (g : Grammar) (s : String) (start : Term) : Option Nat :=
  match g.buildParser id with
  | .ok p => match p.parseInputStartingWith s.toList start with
    | some it => (drain 10000 100 it).map List.length
    | none => none
  | _ => none
def first (g : Grammar) (s : String) : Option Bool :=
  match g.parseInputDeprecated s.toList with
  | some it => match it.next 10000 with
    | .returned (x, _) => some x.isSome
    | _ => none
  | none => none
def builds (g : Grammar) : Bool := match g.buildParser id with | .ok _ => true | .error _ => false
def valid (g : Grammar) : Bool := match g.validate id with | .ok _ => true | .error _ => false

/-! `src/term.rs` -/
#guard T "<dna>" == some (n "dna")
#guard isErr (Term.fromStr "<dna".toList)
#guard isErr (Term.fromStr "".toList)
#guard T "< some space >" == some (n " some space ")
#guard T "\" some space \"" == some (t " some space ")
#guard T "'\"'" == some (t "\"")
#guard T "\"'\"" == some (t "'")
#guard okOf (Term.fromStr (t "\"").display) == some (t "\"")
#guard (n "nonterminal").addTerm (t "terminal") == ⟨[n "nonterminal", t "terminal"]⟩
#guard (t "terminal").addExpressionRef ⟨[n "nonterminal"]⟩ == ⟨[n "nonterminal", t "terminal"]⟩
#guard (t "terminal").addExpression ⟨[n "nonterminal"]⟩ == ⟨[n "nonterminal", t "terminal"]⟩
/-! `src/expression.rs` -/
#guard ((Expression.new.addTerm (n "nonterminal")).addTerm (t "terminal")) == ⟨[n "nonterminal", t "terminal"]⟩
#guard (Expression.removeTerm ⟨[t "A", t "C", t "G", t "T", t "Z"]⟩ (t "Z")) == some (some (t "Z"), ⟨[t "A", t "C", t "G", t "T"]⟩)
#guard (Expression.removeTerm ⟨[t "A", t "C", t "G", t "T"]⟩ (t "Z")) == some (none, ⟨[t "A", t "C", t "G", t "T"]⟩)
#guard E "<base> <dna>" == some ⟨[n "base", n "dna"]⟩
#guard isErr (Expression.fromStr "<base> <dna".toList)
#guard isErr (Expression.fromStr "".toList)
#guard Expression.refAddExpression ⟨[n "nonterminal"]⟩ ⟨[t "terminal"]⟩ == ⟨[n "nonterminal", t "terminal"]⟩
#guard Expression.addExpression ⟨[n "nonterminal"]⟩ ⟨[t "terminal"]⟩ == ⟨[n "nonterminal", t "terminal"]⟩
#guard Expression.refAddTerm ⟨[n "nonterminal"]⟩ (t "terminal") == ⟨[n "nonterminal", t "terminal"]⟩
#guard Expression.addTermOp ⟨[n "nonterminal"]⟩ (t "terminal") == ⟨[n "nonterminal", t "terminal"]⟩
#guard (E "<a> <b> <c>").map (·.terminates none) == some false
#guard (E "'a' <b> <c>").map (·.terminates none) == some false
#guard (E "<a> 'b' <c>").map (·.terminates none) == some false
#guard (E "<a> <b> 'c'").map (·.terminates none) == some false
#guard (E "'a' 'b' <c>").map (·.terminates none) == some false
#guard (E "'a' <b> 'c'").map (·.terminates none) == some false
#guard (E "<a> 'b' 'c'").map (·.terminates none) == some false
#guard (E "'a' 'b' 'c'").map (·.terminates none) == some true
#guard (E "'a' 'b'").map (·.terminates none) == some true
#guard (E "'a'").map (·.terminates none) == some true
#guard (E "'a' <b> <c>").map (·.terminates (some [n "b", n "1", n "2"])) == some false
#guard (E "<a> <b> <c>").map (·.terminates (some [n "c", n "b", n "1"])) == some false
#guard (E "'a' 'b' <c>").map (·.terminates (some [n "c"])) == some true
#guard (E "'a' <b> <c>").map (·.terminates (some [n "c", n "b"])) == some true
#guard (E "'a' <b> <c>").map (·.terminates (some [n "c", n "b", n "1", n "2"])) == some true
#guard (E "<a> <b> <c>").map (·.terminates (some [n "c", n "b", n "1", n "2", n "a"])) == some true
/-! `src/production.rs` -/
#guard Pr "<dna> ::= <base> | <base> <dna>" == some ⟨n "dna", [⟨[n "base"]⟩, ⟨[n "base", n "dna"]⟩]⟩
#guard isErr (Production.fromStr "<base> ::= 'A' | 'C' | 'G' |".toList)
#guard isErr (Production.fromStr "".toList)
#guard Pr "<base> ::= 'A' ; 'C' ; 'G' ; 'T'" == some ⟨n "base", [⟨[t "A"]⟩]⟩
#guard Pr "<a> ::= 'x' ; this is a comment\n" == some ⟨n "a", [⟨[t "x"]⟩]⟩
#guard Pr "<a> ::= 'x' ; comment" == some ⟨n "a", [⟨[t "x"]⟩]⟩
#guard Pr "<a> ::= 'x' ; comment\n | 'y'" == some ⟨n "a", [⟨[t "x"]⟩, ⟨[t "y"]⟩]⟩
#guard (Pr "<dna> ::= <base> | <dna> <base>").map (·.rhs.length) == some 2
#guard (Pr "<dna> ::= <base> | <dna> <base>").map Production.display == some "<dna> ::= <base> | <dna> <base>".toList
#guard (Production.removeFromRhs ⟨n "dna", [⟨[n "base"]⟩, ⟨[n "base", n "dna"]⟩, ⟨[n "base", n "base", n "dna"]⟩]⟩ ⟨[n "base", n "base", n "dna"]⟩) ==
  some (some ⟨[n "base", n "base", n "dna"]⟩, ⟨n "dna", [⟨[n "base"]⟩, ⟨[n "base", n "dna"]⟩]⟩)
#guard (Production.removeFromRhs ⟨n "dna", [⟨[n "base"]⟩, ⟨[t "base", n "dna"]⟩]⟩ ⟨[n "base", n "base", n "dna"]⟩) ==
  some (none, ⟨n "dna", [⟨[n "base"]⟩, ⟨[t "base", n "dna"]⟩]⟩)
#guard (Pr "<S> ::= 'T'").map (·.hasTerminatingExpression none) == some true
#guard (Pr "<S> ::= 'T' | <NT>").map (·.hasTerminatingExpression none) == some true
#guard (Pr "<S> ::= <NT> | 'T'").map (·.hasTerminatingExpression none) == some true
#guard (Pr "<S> ::= <NT1> | 'T' | <NT2>").map (·.hasTerminatingExpression none) == some true
#guard (Pr "<S> ::= 'T1' | <NT> | 'T2'").map (·.hasTerminatingExpression none) == some true
#guard (Pr "<S> ::= <NT>").map (·.hasTerminatingExpression none) == some false
#guard (Pr "<S> ::= 'T' <NT>").map (·.hasTerminatingExpression none) == some false
#guard (Pr "<S> ::= <NT> 'T'").map (·.hasTerminatingExpression none) == some false
#guard (Pr "<S> ::= <NT1> 'T' | <NT2>").map (·.hasTerminatingExpression none) == some false
#guard (Pr "<S> ::= <NT1> | <NT> 'T2'").map (·.hasTerminatingExpression none) == some false
#guard (Pr "<S> ::= <NT1> <NT2> | <NT3> | <NT4>").map (·.hasTerminatingExpression (some [n "NT1", n "NT2", n "NTa", n "NTb"])) == some true
#guard (Pr "<S> ::= <NT1> <NT2> | <NT3> | <NT4>").map (·.hasTerminatingExpression (some [n "NTa", n "NT4", n "NTc", n "NTb"])) == some true
#guard (Pr "<S> ::= <NT1> <NT2> | <NT3> | <NT4>").map (·.hasTerminatingExpression (some [n "NT1", n "NTa", n "NTb", n "NTc"])) == some false
#guard (Pr "<S> ::= <NT1> <NT2> | <NT3> | <NT4>").map (·.hasTerminatingExpression (some [n "NT2", n "NTa", n "NTb", n "NTc"])) == some false
#guard (Pr "<S> ::= <NT1> <NT2> | <NT3> | <NT4>").map (·.hasTerminatingExpression (some [n "NTa", n "NTb", n "NTc", n "NTd"])) == some false
/-! `src/parsers/mod.rs` -/
#guard (match whitespacePlusComments "  ; comment\n  rest".toList with | .ok r _ => some r | _ => none) == some "rest".toList
#guard (match whitespacePlusComments "  ; comment".toList with | .ok r _ => some r | _ => none) == some "".toList
#guard (match whitespacePlusComments "  x".toList with | .ok r _ => some r | _ => none) == some "x".toList
#guard (match terminal "\"hello world\"".toList with | .ok _ v => some v | _ => none) == some (t "hello world")
#guard first (G "s = ('a' / 'b') 'c'") "ac" == some true
#guard first (G "s = ('a' / 'b') 'c'") "bc" == some true
#guard G "s = 'c' ['a' / 'b']" == G "s = 'c' ('a' / 'b' / '')" && parses "s = 'c' ['a' / 'b']"
#guard parses "s = a / a s\n                            a = 'b'\n                            a =/ 'c'"
#guard first (G "s = a / (a s)\n                            a = 'b'\n                            a =/ 'c'") "bcbccbbcbcbcbbbbbbbbbbbbccc" == some true
#guard rejected "<s> ::= ()"
#guard rejected "<s> ::= []"
#guard trees (G "\n        <s> ::= ((<a> | <b>) | <c>)\n        <a> ::= 'a'\n        <b> ::= 'b'\n        <c> ::= 'c'") "a" == some 1
#guard trees (G "\n        <s> ::= ((<a> | <b>) | <c>)\n        <a> ::= 'a'\n        <b> ::= 'b'\n        <c> ::= 'c'") "b" == some 1
#guard trees (G "\n        <s> ::= ((<a> | <b>) | <c>)\n        <a> ::= 'a'\n        <b> ::= 'b'\n        <c> ::= 'c'") "c" == some 1
#guard okOf (Grammar.fromStr Char.isAlpha (G "\n        <s> ::= (<a> | <b>) [<c>]\n        <a> ::= 'a'\n        <b> ::= 'b'\n        <c> ::= 'c'").display) == some (G "\n        <s> ::= (<a> | <b>) [<c>]\n        <a> ::= 'a'\n        <b> ::= 'b'\n        <c> ::= 'c'")
#guard (G "\n        <s> ::= (<a> | <b>) [<c>]\n        <a> ::= 'a'\n        <b> ::= 'b'\n        <c> ::= 'c'").productions.any fun p => p.lhs == n "__anon0"
#guard trees (G "\n        s = ('a' / 'b') ['c']\n        a = 'a'\n        b = 'b'\n        c = 'c'") "a" == some 1
#guard trees (G "\n        s = ('a' / 'b') ['c']\n        a = 'a'\n        b = 'b'\n        c = 'c'") "ac" == some 1
#guard trees (G "\n        s = ('a' / 'b') ['c']\n        a = 'a'\n        b = 'b'\n        c = 'c'") "b" == some 1
#guard trees (G "\n        s = ('a' / 'b') ['c']\n        a = 'a'\n        b = 'b'\n        c = 'c'") "bc" == some 1
#guard trees (G "\n        s = ('a' / 'b') ['c']\n        a = 'a'\n        b = 'b'\n        c = 'c'") "" == some 0
#guard trees (G "\n        <s> ::= (<a>) [<b>]\n        <a> ::= 'a'\n        <b> ::= 'b'") "a" == some 1
#guard trees (G "\n        <s> ::= (<a>) [<b>]\n        <a> ::= 'a'\n        <b> ::= 'b'") "ab" == some 1
#guard trees (G "\n        <s> ::= (<a>) [<b>]\n        <a> ::= 'a'\n        <b> ::= 'b'") "" == some 0
/-! `src/parsers/bnf.rs`, `src/parsers/augmented.rs` -/
#guard (match nonterminal BNF "<nonterminal-pattern>".toList with | .ok _ v => some v | _ => none) == some (n "nonterminal-pattern")
#guard (match expression BNF 100 "<nonterminal-pattern> \"terminal-pattern\"".toList with | .ok _ v => some v | _ => none) ==
  some ⟨[n "nonterminal-pattern", t "terminal-pattern"]⟩
#guard (match production BNF 200 "<nonterminal-pattern> ::= <nonterminal-pattern> \"terminal-pattern\" | \"terminal-pattern\";\\r\\n".toList with | .ok _ v => some v | _ => none) ==
  some ⟨n "nonterminal-pattern", [⟨[n "nonterminal-pattern", t "terminal-pattern"]⟩, ⟨[t "terminal-pattern"]⟩]⟩
#guard okOf (Grammar.parseFrom BNF "<nonterminal-pattern> ::= <nonterminal-pattern> \"terminal-pattern\" | \"terminal-pattern\";\\r\\n".toList) ==
  some ⟨[⟨n "nonterminal-pattern", [⟨[n "nonterminal-pattern", t "terminal-pattern"]⟩, ⟨[t "terminal-pattern"]⟩]⟩]⟩
#guard (match nonterminal (ABNF Char.isAlpha) "nonterminal-pattern".toList with | .ok _ v => some v | _ => none) == some (n "nonterminal-pattern")
#guard (match expression (ABNF Char.isAlpha) 100 "nonterminal-pattern \"terminal-pattern\"".toList with | .ok _ v => some v | _ => none) ==
  some ⟨[n "nonterminal-pattern", t "terminal-pattern"]⟩
#guard (match production (ABNF Char.isAlpha) 200 "nonterminal-pattern = nonterminal-pattern \"terminal-pattern\" / \"terminal-pattern\";\\r\\n".toList with | .ok _ v => some v | _ => none) ==
  some ⟨n "nonterminal-pattern", [⟨[n "nonterminal-pattern", t "terminal-pattern"]⟩, ⟨[t "terminal-pattern"]⟩]⟩
#guard okOf (Grammar.parseFrom (ABNF Char.isAlpha) "nonterminal-pattern = nonterminal-pattern \"terminal-pattern\" / \"terminal-pattern\";\\r\\n".toList) ==
  some ⟨[⟨n "nonterminal-pattern", [⟨[n "nonterminal-pattern", t "terminal-pattern"]⟩, ⟨[t "terminal-pattern"]⟩]⟩]⟩
#guard (match production BNF 100 "<a> ::= 'x' ; only a comment\n".toList with | .ok _ v => some v | _ => none) == some ⟨n "a", [⟨[t "x"]⟩]⟩
#guard okOf (Grammar.parseFrom BNF "<a> ::= 'x'\n; comment\n<b> ::= 'y'\n".toList) == some ⟨[⟨n "a", [⟨[t "x"]⟩]⟩, ⟨n "b", [⟨[t "y"]⟩]⟩]⟩
#guard okOf (Grammar.parseFrom BNF "<a> ::= 'x'\n<b> ::= 'y' ; last line comment".toList) == some ⟨[⟨n "a", [⟨[t "x"]⟩]⟩, ⟨n "b", [⟨[t "y"]⟩]⟩]⟩
/-! `tests/from_str.rs` -/
#guard (E "'😵' '😋' '😉'").isSome
#guard parses "<🙃> ::= '😵' '😋' | '😉'\n        <🤘> ::= '👏 ' '👊' | '👌'"
#guard (Pr "<🤘> ::= '👏 ' '👊' | '👌'").isSome
#guard (T "'👏 '").isSome
#guard (T "<🤘>").isSome
#guard G "<a> ::= 'x'" == ⟨[⟨n "a", [⟨[t "x"]⟩]⟩]⟩
#guard G "<a> ::= 'x' ; end of first rule\n; comment-only line\n<b> ::= 'y' ; end of second rule" == ⟨[⟨n "a", [⟨[t "x"]⟩]⟩, ⟨n "b", [⟨[t "y"]⟩]⟩]⟩
#guard G "<a> ::= 'x' ; note\n<b> ::= 'y'" == ⟨[⟨n "a", [⟨[t "x"]⟩]⟩, ⟨n "b", [⟨[t "y"]⟩]⟩]⟩
#guard (G "; the building blocks of life!\n<dna> ::= <base> | <base> <dna>\n<base> ::= 'A' | 'C' | 'G' | 'T' ;(Adenine, Cytosine, Guanine, and Thymine)\n; the end 📖").productions.map Production.display ==
  ["<dna> ::= <base> | <base> <dna>".toList, "<base> ::= 'A' | 'C' | 'G' | 'T'".toList]
/-! `tests/display.rs` -/
#guard (G " <postal-address> ::= <name-part> <street-address> <zip-part>;\n\n            <name-part> ::= <personal-part> <last-name> <opt-suffix-part> <EOL>\n                            | <personal-part> <name-part>;\n\n        <personal-part> ::= <initial> \".\" | <first-name>;\n\n        <street-address> ::= <house-num> <street-name> <opt-apt-num> <EOL>;\n\n            <zip-part> ::= <town-name> \",\" <state-code> <ZIP-code> <EOL>;\n\n        <opt-suffix-part> ::= \"Sr.\" | \"Jr.\" | <roman-numeral> | \"\";\n            <opt-apt-num> ::= <apt-num> | \"\";\n\n        <initial> ::= 'A' | 'B' | 'C' | 'D' | 'E' | 'F' | 'G' | 'H' | 'I' | 'J' | 'K' | 'L' | 'M' | 'N' | 'O' | 'P' | 'Q' | 'R' | 'S' | 'T' | 'U' | 'V' | 'W' | 'X' | 'Y' | 'Z';\n\n        <first-name> ::= <name-word>;\n        <last-name> ::= <name-word>;\n        <name-word> ::= <letter> | <letter> <name-word>;\n\n        <house-num> ::= <digit> | <digit> <house-num>;\n        <apt-num> ::= <digit> | <digit> <apt-num>;\n\n        <street-name> ::= <word> | <word> \" \" <street-name>;\n        <town-name> ::= <word> | <word> \" \" <town-name>;\n        <word> ::= <letter> | <letter> <word>;\n\n        <state-code> ::= <letter> <letter>;\n\n        <ZIP-code> ::= <digit> <digit> <digit> <digit> <digit>;\n\n        <roman-numeral> ::= \"I\" | \"II\" | \"III\" | \"IV\" | \"V\" | \"VI\" | \"VII\" | \"VIII\" | \"IX\" | \"X\";\n\n        <EOL> ::= \";\";\n\n        <letter> ::= 'A' | 'B' | 'C' | 'D' | 'E' | 'F' | 'G' | 'H' | 'I' | 'J' | 'K' | 'L' | 'M' | 'N' | 'O' | 'P' | 'Q' | 'R' | 'S' | 'T' | 'U' | 'V' | 'W' | 'X' | 'Y' | 'Z' | 'a' | 'b' | 'c' | 'd' | 'e' | 'f' | 'g' | 'h' | 'i' | 'j' | 'k' | 'l' | 'm' | 'n' | 'o' | 'p' | 'q' | 'r' | 's' | 't' | 'u' | 'v' | 'w' | 'x' | 'y' | 'z';\n\n        <digit> ::= '0' | '1' | '2' | '3' | '4' | '5' | '6' | '7' | '8' | '9';\n").display ==
  "<postal-address> ::= <name-part> <street-address> <zip-part>\n<name-part> ::= <personal-part> <last-name> <opt-suffix-part> <EOL> | <personal-part> <name-part>\n<personal-part> ::= <initial> '.' | <first-name>\n<street-address> ::= <house-num> <street-name> <opt-apt-num> <EOL>\n<zip-part> ::= <town-name> ',' <state-code> <ZIP-code> <EOL>\n<opt-suffix-part> ::= 'Sr.' | 'Jr.' | <roman-numeral> | ''\n<opt-apt-num> ::= <apt-num> | ''\n<initial> ::= 'A' | 'B' | 'C' | 'D' | 'E' | 'F' | 'G' | 'H' | 'I' | 'J' | 'K' | 'L' | 'M' | 'N' | 'O' | 'P' | 'Q' | 'R' | 'S' | 'T' | 'U' | 'V' | 'W' | 'X' | 'Y' | 'Z'\n<first-name> ::= <name-word>\n<last-name> ::= <name-word>\n<name-word> ::= <letter> | <letter> <name-word>\n<house-num> ::= <digit> | <digit> <house-num>\n<apt-num> ::= <digit> | <digit> <apt-num>\n<street-name> ::= <word> | <word> ' ' <street-name>\n<town-name> ::= <word> | <word> ' ' <town-name>\n<word> ::= <letter> | <letter> <word>\n<state-code> ::= <letter> <letter>\n<ZIP-code> ::= <digit> <digit> <digit> <digit> <digit>\n<roman-numeral> ::= 'I' | 'II' | 'III' | 'IV' | 'V' | 'VI' | 'VII' | 'VIII' | 'IX' | 'X'\n<EOL> ::= ';'\n<letter> ::= 'A' | 'B' | 'C' | 'D' | 'E' | 'F' | 'G' | 'H' | 'I' | 'J' | 'K' | 'L' | 'M' | 'N' | 'O' | 'P' | 'Q' | 'R' | 'S' | 'T' | 'U' | 'V' | 'W' | 'X' | 'Y' | 'Z' | 'a' | 'b' | 'c' | 'd' | 'e' | 'f' | 'g' | 'h' | 'i' | 'j' | 'k' | 'l' | 'm' | 'n' | 'o' | 'p' | 'q' | 'r' | 's' | 't' | 'u' | 'v' | 'w' | 'x' | 'y' | 'z'\n<digit> ::= '0' | '1' | '2' | '3' | '4' | '5' | '6' | '7' | '8' | '9'\n".toList
#guard (G " <postal-address> ::= <name-part> <street-address> <zip-part>;\n\n            <name-part> ::= <personal-part> <last-name> <opt-suffix-part> <EOL>\n                            | <personal-part> <name-part>;\n\n        <personal-part> ::= <initial> \".\" | <first-name>;\n\n        <street-address> ::= <house-num> <street-name> <opt-apt-num> <EOL>;\n\n            <zip-part> ::= <town-name> \",\" <state-code> <ZIP-code> <EOL>;\n\n        <opt-suffix-part> ::= \"Sr.\" | \"Jr.\" | <roman-numeral> | \"\";\n            <opt-apt-num> ::= <apt-num> | \"\"\n").display ==
  "<postal-address> ::= <name-part> <street-address> <zip-part>\n<name-part> ::= <personal-part> <last-name> <opt-suffix-part> <EOL> | <personal-part> <name-part>\n<personal-part> ::= <initial> '.' | <first-name>\n<street-address> ::= <house-num> <street-name> <opt-apt-num> <EOL>\n<zip-part> ::= <town-name> ',' <state-code> <ZIP-code> <EOL>\n<opt-suffix-part> ::= 'Sr.' | 'Jr.' | <roman-numeral> | ''\n<opt-apt-num> ::= <apt-num> | ''\n".toList
#guard (G "\n        <permissive-string-definition>\n            ::= <single-quote> <message> <single-quote>\n            | <double-quote> <messag> <double-quote>\n\n        <double-quote>\n            ::= '\"'\n\n        <single-quote>\n            ::= \"'\"\n\n        <message>\n            ::= \"Hello, world!\"\n    ").display ==
  "<permissive-string-definition> ::= <single-quote> <message> <single-quote> | <double-quote> <messag> <double-quote>\n<double-quote> ::= '\"'\n<single-quote> ::= \"'\"\n<message> ::= 'Hello, world!'\n".toList
/-! `src/parser/mod.rs`, `src/grammar.rs` -/
#guard builds (G "<dna> ::= <base> | <base> <dna>\n        <base> ::= 'A' | 'C' | 'G' | 'T'")
#guard !builds ⟨[]⟩ && !valid ⟨[]⟩
#guard !builds (G "<start> ::= (<undefined>)")
#guard builds (G "<start> ::= (<base>)\n<base> ::= 'A'")
#guard trees (G "<s> ::= (<a> | <b>) [<c>]\n<a> ::= 'a'\n<b> ::= 'b'\n<c> ::= 'c'") "a" == some 1
#guard trees (G "<s> ::= (<a> | <b>) [<c>]\n<a> ::= 'a'\n<b> ::= 'b'\n<c> ::= 'c'") "ac" == some 1
#guard trees (G "<s> ::= (<a> | <b>) [<c>]\n<a> ::= 'a'\n<b> ::= 'b'\n<c> ::= 'c'") "" == some 0
#guard trees (G "<s> ::= [<x>]\n<x> ::= 'x'") "" == some 1
#guard trees (G "<s> ::= [<x>]\n<x> ::= 'x'") "x" == some 1
#guard trees (G "<__anon0> ::= 'a'\n<s> ::= (<__anon0>)") "a" == some 1
#guard (G "<__anon0> ::= 'a'\n<s> ::= (<__anon0>)").productions.any (·.lhs == n "__anon0") && (G "<__anon0> ::= 'a'\n<s> ::= (<__anon0>)").productions.any (·.lhs == n "__anon1")
#guard !builds (G "<dna> ::= <base> | <base> <dna>\n        <base> ::= <undefined>")
#guard trees (G "<dna> ::= <base> | <base> <dna>\n        <base> ::= 'A' | 'C' | 'G' | 'T'") "GATTACA" == some 1
#guard trees (G "<dna> ::= <base> | <base> <dna>\n        <base> ::= 'A' | 'C' | 'G' | 'T'") "ATCG" == some 1
#guard treesFrom (G "<base> ::= 'A' | 'C' | 'G' | 'T'\n        <dna> ::= <base> | <base> <dna>") "GATTACA" (n "dna") == some 1
#guard treesFrom (G "<base> ::= 'A' | 'C' | 'G' | 'T'\n        <dna> ::= <base> | <base> <dna>") "GATTACA" (n "base") == some 0
#guard treesFrom (G "<base> ::= 'A' | 'C' | 'G' | 'T'\n        <dna> ::= <base> | <base> <dna>") "GATTACA" (n "notfound") == some 0
#guard treesFrom (G "<base> ::= 'A' | 'C' | 'G' | 'T'\n        <dna> ::= <base> | <base> <dna>") "G" (t "G") == some 0
#guard treesFrom (G "<dna> ::= <base> | <base> <dna>\n        <base> ::= 'A' | 'C' | 'G' | 'T'") "GATTACA" (n "dna") == treesFrom (G "<base> ::= 'A' | 'C' | 'G' | 'T'\n        <dna> ::= <base> | <base> <dna>") "GATTACA" (n "dna")
#guard valid (G "<start> ::= <a> | <b>\n            <a> ::= 'a'\n            <b> ::= 'b'")
#guard !valid (G "<start> ::= <a> | <b>\n            <a> ::= 'a'")
#guard (match (G "<start> ::= <undefined_nt>").validate id with | .error (.validationError m) => some m | _ => none) ==
  some "Undefined nonterminals: <undefined_nt>".toList
#guard rejected "<almost_grammar> ::= <test"
#guard (G "<nonterm> ::= <nonterm>").terminates == some false && parses "<nonterm> ::= <nonterm>"
#guard (G "\n        <A> ::= <X> | <A> <X>\n        <X> ::= <Y> | <X> <Y>\n        <Y> ::= <Y> <Z>\n        <Z> ::= 'terminating state!'").terminates == some false && parses "\n        <A> ::= <X> | <A> <X>\n        <X> ::= <Y> | <X> <Y>\n        <Y> ::= <Y> <Z>\n        <Z> ::= 'terminating state!'"
#guard (G "\n        <not-a-good-first-state-lhs> ::= <not-a-good-first-state-rhs>\n        <A> ::= <X> | <A> <X>\n        <X> ::= <Y> | <X> <Y>\n        <Y> ::= <Z> | <Y> <Z>\n        <Z> ::= 'terminating state!'").terminates == some false && parses "\n        <not-a-good-first-state-lhs> ::= <not-a-good-first-state-rhs>\n        <A> ::= <X> | <A> <X>\n        <X> ::= <Y> | <X> <Y>\n        <Y> ::= <Z> | <Y> <Z>\n        <Z> ::= 'terminating state!'"
#guard (G "<nonterm> ::= 'term'").terminates == some true && parses "<nonterm> ::= 'term'"
#guard (G "\n        <A> ::= <B> | <A> <B>\n        <B> ::= <C> | <B> <C>\n        <C> ::= <D> | <C> <D>\n        <D> ::= <E> | <D> <E>\n        <E> ::= <F> | <E> <F>\n        <F> ::= <G> | <F> <G>\n        <G> ::= <H> | <G> <H>\n        <H> ::= <I> | <H> <I>\n        <I> ::= <J> | <I> <J>\n        <J> ::= <K> | <J> <K>\n        <K> ::= <L> | <K> <L>\n        <L> ::= <M> | <L> <M>\n        <M> ::= <N> | <M> <N>\n        <N> ::= <O> | <N> <O>\n        <O> ::= <P> | <O> <P>\n        <P> ::= <Q> | <P> <Q>\n        <Q> ::= <R> | <Q> <R>\n        <R> ::= <S> | <R> <S>\n        <S> ::= <T> | <S> <T>\n        <T> ::= <U> | <T> <U>\n        <U> ::= <V> | <U> <V>\n        <V> ::= <W> | <V> <W>\n        <W> ::= <X> | <W> <X>\n        <X> ::= <Y> | <X> <Y>\n        <Y> ::= <Z> | <Y> <Z>\n        <Z> ::= 'terminating state!'").terminates == some true && parses "\n        <A> ::= <B> | <A> <B>\n        <B> ::= <C> | <B> <C>\n        <C> ::= <D> | <C> <D>\n        <D> ::= <E> | <D> <E>\n        <E> ::= <F> | <E> <F>\n        <F> ::= <G> | <F> <G>\n        <G> ::= <H> | <G> <H>\n        <H> ::= <I> | <H> <I>\n        <I> ::= <J> | <I> <J>\n        <J> ::= <K> | <J> <K>\n        <K> ::= <L> | <K> <L>\n        <L> ::= <M> | <L> <M>\n        <M> ::= <N> | <M> <N>\n        <N> ::= <O> | <N> <O>\n        <O> ::= <P> | <O> <P>\n        <P> ::= <Q> | <P> <Q>\n        <Q> ::= <R> | <Q> <R>\n        <R> ::= <S> | <R> <S>\n        <S> ::= <T> | <S> <T>\n        <T> ::= <U> | <T> <U>\n        <U> ::= <V> | <U> <V>\n        <V> ::= <W> | <V> <W>\n        <W> ::= <X> | <W> <X>\n        <X> ::= <Y> | <X> <Y>\n        <Y> ::= <Z> | <Y> <Z>\n        <Z> ::= 'terminating state!'"
#guard (G "<emoji> ::= '😀' | '😍' | '🎉' | '🚀'\n        <symbol> ::= 'α' | 'β' | 'γ' | 'δ'\n        <text> ::= <emoji> | <symbol> | <emoji> <text>").productions.length == 3
#guard first (G "<text> ::= <emoji> | <emoji> <text>\n        <emoji> ::= '😀' | '😍' | '🎉' | '🚀'") "😀🎉" == some true
#guard first (G "<text> ::= <emoji> | <emoji> <text>\n        <emoji> ::= '😀' | '😍' | '🎉' | '🚀'") "😀😍" == some true
#guard first (G "<text> ::= <emoji> | <emoji> <text>\n        <emoji> ::= '😀' | '😍' | '🎉' | '🚀'") "😀😍🎉" == some true
#guard first (G "<文本> ::= <表情> | <符号> | <表情> <文本>\n        <表情> ::= '😀' | '😍'\n        <符号> ::= 'α' | 'β'") "😀α" == some true
#guard escapeMermaidLabel "abc".toList == "abc".toList
#guard escapeMermaidLabel "sum".toList == "sum".toList
#guard escapeMermaidLabel "G".toList == "G".toList
#guard escapeMermaidLabel "\"".toList == "#34;".toList
#guard escapeMermaidLabel "a\"b".toList == "a#34;b".toList
#guard escapeMermaidLabel "[".toList == "#91;".toList
#guard escapeMermaidLabel "]".toList == "#93;".toList
#guard escapeMermaidLabel "[x]".toList == "#91;x#93;".toList
#guard escapeMermaidLabel "\\".toList == "#92;".toList
#guard escapeMermaidLabel "#".toList == "#35;".toList
#guard escapeMermaidLabel ";".toList == "#59;".toList
#guard escapeMermaidLabel "#34;".toList == "#35;34#59;".toList
#guard escapeMermaidLabel "<".toList == "#60;".toList
#guard escapeMermaidLabel ">".toList == "#62;".toList
#guard escapeMermaidLabel "&".toList == "#38;".toList
#guard escapeMermaidLabel "<foo>".toList == "#60;foo#62;".toList
#guard escapeMermaidLabel "a&b".toList == "a#38;b".toList
#guard escapeMermaidLabel "\n".toList == "#10;".toList
#guard escapeMermaidLabel "\r".toList == "#13;".toList
#guard escapeMermaidLabel "a\nb".toList == "a#10;b".toList
#guard escapeMermaidLabel "[\"];\\#\"".toList == "#91;#34;#93;#59;#92;#35;#34;".toList
#guard escapeMermaidLabel "plain".toList == "plain".toList
/-! `src/grammar.rs`: adding and removing productions, and the macros -/
#guard (Grammar.addProduction ⟨[]⟩ ⟨n "dna", [⟨[t "base"]⟩, ⟨[t "base", n "dna"]⟩]⟩) == ⟨[⟨n "dna", [⟨[t "base"]⟩, ⟨[t "base", n "dna"]⟩]⟩]⟩
#guard (Grammar.removeProduction ⟨[⟨n "dna", [⟨[t "base"]⟩, ⟨[t "base", n "dna"]⟩]⟩]⟩ ⟨n "dna", [⟨[t "base"]⟩, ⟨[t "base", n "dna"]⟩]⟩) == some (some ⟨n "dna", [⟨[t "base"]⟩, ⟨[t "base", n "dna"]⟩]⟩, ⟨[]⟩)
#guard (Grammar.removeProduction ⟨[⟨n "dna", [⟨[t "base"]⟩, ⟨[t "base", n "dna"]⟩]⟩]⟩ ⟨n "nonexistent", [⟨[]⟩]⟩) == some (none, ⟨[⟨n "dna", [⟨[t "base"]⟩, ⟨[t "base", n "dna"]⟩]⟩]⟩)
#guard productionMacro [.nt "s".toList, .define] == some ⟨n "s", [⟨[]⟩]⟩
#guard productionMacro [.nt "dna".toList, .define, .nt "base".toList, .bar, .nt "base".toList, .nt "dna".toList] ==
  Pr "<dna> ::= <base> | <base> <dna>"
/-! `src/grammar.rs`: errors of generation -/
/-- The message of a failed generation, with the strategy that takes the first alternative. -/
def message (g : Grammar) : Option Str :=
  match g.generateSeededWithStrategy (σ := Unit) ⟨fun _ _ p _ => (match p.rhs with | e :: _ => .expr e | [] => .panic, ())⟩ 100 () with
  | .done (.error (.generateError m)) _ => some m
  | _ => none
#guard message (G "<nonterm> ::= <nonterm>") ==
  some "Can't generate, first rule in grammar doesn't lead to a terminal state".toList
#guard message ⟨[]⟩ == some "Failed to get first production!".toList
#guard message ⟨[⟨t "\"bad LHS\"", [⟨[t "\"good RHS\""]⟩]⟩]⟩ ==
  some "Terminal type cannot define a production in ''\"bad LHS\"' ::= '\"good RHS\"''!".toList
#guard message ⟨[⟨n "s", []⟩]⟩ == some "Can't generate, first rule in grammar doesn't lead to a terminal state".toList
/-! `src/earley/input_range.rs` -/
#guard ((((InputRange.new "ab".toList).advanceBy 1).map InputRange.after).bind (·.advanceBy 2)).map (fun r => (r.start, r.len)) == some (1, 1)
#guard ((((InputRange.new "GATTACA".toList).advanceBy 3).map InputRange.after).bind (·.advanceBy 2)).map InputRange.debug ==
  some "InputRange(\"GAT|TA|CA\")".toList

/-! `tests/iterate.rs` -/

def iterated : Grammar := G "
        <dna> ::= <base> | <base> <dna>
        <base> ::= 'A' | 'C' | 'G' | 'T'"
def leftTerms (g : Grammar) : List Term := g.productions.map (·.lhs)
def rightTerms (g : Grammar) : List Term := g.productions.flatMap fun p => p.rhs.flatMap (·.terms)
#guard (leftTerms iterated).length = iterated.productionCount
#guard [n "dna", n "base"].all fun x => x ∈ leftTerms iterated ∧ x ∈ rightTerms iterated
#guard (rightTerms iterated).filter (fun x => x ∉ leftTerms iterated) = [t "A", t "C", t "G", t "T"]
#guard (G "
        <dna> ::= <dna> | <base> <dna>;
        <base> ::= 'A' | 'C' | 'G' | 'T';").overwriteTerminals (fun _ => t "Z") =
  ⟨[⟨n "dna", [⟨[n "dna"]⟩, ⟨[n "base", n "dna"]⟩]⟩, ⟨n "base", [⟨[t "Z"]⟩, ⟨[t "Z"]⟩, ⟨[t "Z"]⟩, ⟨[t "Z"]⟩]⟩]⟩

end Bnf.Conformance
