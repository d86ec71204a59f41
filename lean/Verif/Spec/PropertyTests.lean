import Verif.Spec.Derivation
import Verif.Spec.Defined
import Verif.Spec.Calls
import Verif.Spec.Acyclic
import Verif.Spec.Generate
import Verif.Model.Views
import Verif.Model.Display
import Mathlib.Data.List.Infix

/-!
# The crate's property tests

What the generators (`impl Arbitrary`) of the crate's quickcheck tests can produce, whatever the random source, and what the tests check.
Lengths are not bounded (quickcheck bounds them by the size of its `Gen`), the strings of `String::arbitrary` are arbitrary.
-/

set_option autoImplicit false

namespace Bnf.Spec
open Bnf

/-! ## Values for the round trips through text -/

/-- `src/term.rs` 107-122: `Term::arbitrary` for a flip of the coin and a string. -/
def arbitraryTerm (nonterminal : Bool) (u : Str) : Term :=
  if nonterminal then .nonterminal (u.filter (· != '>'))
  else if '"' ∈ u then .terminal (u.filter (· != '\''))
  else if '\'' ∈ u then .terminal (u.filter (· != '"'))
  else .terminal u

/-- Some call of `Term::arbitrary` returns the term. -/
def ArbitraryTerm (t : Term) : Prop := ∃ b u, t = arbitraryTerm b u

/-- `src/expression.rs` 202-211. -/
def ArbitraryExpression (e : Expression) : Prop := e.terms ≠ [] ∧ ∀ t ∈ e.terms, ArbitraryTerm t

/-- `src/production.rs` 181-193. -/
def ArbitraryProduction (p : Production) : Prop :=
  (∃ u : Str, p.lhs = .nonterminal (u.filter (· != '>'))) ∧ p.rhs ≠ [] ∧ ∀ e ∈ p.rhs, ArbitraryExpression e

/-- `src/grammar.rs` 918-927. -/
def ArbitraryGrammar (g : Grammar) : Prop := g.productions ≠ [] ∧ ∀ p ∈ g.productions, ArbitraryProduction p

/-! ## Grammars for the parser -/

/-- `format!("nt{}", i)` -/
def ntName (i : Nat) : Str := ['n', 't'] ++ decimal i

/-- `format!("undefined{}", i)` -/
def undefinedName (i : Nat) : Str := ['u', 'n', 'd', 'e', 'f', 'i', 'n', 'e', 'd'] ++ decimal i

/-- `src/parser/mod.rs` 335-383 (`SimpleValidGrammar`: 1 to 5 productions, 1 to 3 alternatives of 1 to 3 terms) and 470-512
(`ValidGrammarWithMultipleProductions`: 2 to 5, 1 to 2, 1 to 2): production `i` defines `nti`; its alternatives consist of terminals and
nonterminals `ntj` with `j < i`. -/
structure LayeredGrammar (lo hi alts terms : Nat) (g : Grammar) : Prop where
  few : lo ≤ g.productions.length ∧ g.productions.length ≤ hi
  lhs : ∀ (i : Nat) p, g.productions[i]? = some p → p.lhs = .nonterminal (ntName i)
  rhs : ∀ p ∈ g.productions, 1 ≤ p.rhs.length ∧ p.rhs.length ≤ alts
  terms : ∀ p ∈ g.productions, ∀ e ∈ p.rhs, 1 ≤ e.terms.length ∧ e.terms.length ≤ terms
  earlier : ∀ (i : Nat) p, g.productions[i]? = some p → ∀ e ∈ p.rhs, ∀ t ∈ e.terms, (∃ u, t = .terminal u) ∨ ∃ j < i, t = .nonterminal (ntName j)

/-- `src/parser/mod.rs` 335-383. -/
abbrev SimpleValidGrammar (g : Grammar) : Prop := LayeredGrammar 1 5 3 3 g

/-- `src/parser/mod.rs` 470-512. -/
abbrev ValidGrammarWithMultipleProductions (g : Grammar) : Prop := LayeredGrammar 2 5 2 2 g

/-- `src/parser/mod.rs` 393-453: 1 to 4 productions `nt0`, …, 1 to 3 undefined names, 1 to 2 alternatives of 1 to 2 terms, the first term of the
first alternative of the first production is one of the undefined names. -/
structure GrammarWithUndefined (g : Grammar) : Prop where
  few : 1 ≤ g.productions.length ∧ g.productions.length ≤ 4
  lhs : ∀ (i : Nat) p, g.productions[i]? = some p → p.lhs = .nonterminal (ntName i)
  rhs : ∀ p ∈ g.productions, 1 ≤ p.rhs.length ∧ p.rhs.length ≤ 2
  terms : ∀ p ∈ g.productions, ∀ e ∈ p.rhs, 1 ≤ e.terms.length ∧ e.terms.length ≤ 2 ∧ ∀ t ∈ e.terms, (∃ u, t = .terminal u) ∨
    (∃ j < g.productions.length, t = .nonterminal (ntName j)) ∨ ∃ j < 3, t = .nonterminal (undefinedName j)
  first : ∃ p ps e es j ts, g.productions = p :: ps ∧ p.rhs = e :: es ∧ j < 3 ∧ e.terms = .nonterminal (undefinedName j) :: ts

/-- `src/parser/mod.rs` 615-655: names used in a right-hand side and not the left-hand side of any production. -/
def Lacking (g : Grammar) (n : Str) : Prop := Referenced g n ∧ ¬ Declared g n

/-- `src/earley/mod.rs` 330-336: the grammar before the insertion. -/
def nestedEmptyBase : Grammar :=
  ⟨[⟨.nonterminal ['s', 't', 'a', 'r', 't'], [⟨[.nonterminal ['a'], .nonterminal ['e', 'm', 'p', 't', 'y']]⟩]⟩,
    ⟨.nonterminal ['a'], [⟨[.terminal ['a'], .nonterminal ['e', 'm', 'p', 't', 'y']]⟩]⟩]⟩

/-- `src/earley/mod.rs` 330-334: its text. -/
def nestedEmptyText : Str :=
  "\n            <start> ::= <a> <empty>\n            <a> ::= 'a' <empty>".toList

/-- `src/earley/mod.rs` 329-358: `NestedEmptyGrammar::arbitrary`: `<empty>` is inserted before one of the terms of one of the expressions, then
`<empty> ::= ''` is added. -/
def NestedEmpty (g : Grammar) : Prop :=
  ∃ before lhs pre t post after, nestedEmptyBase.productions = before ++ ⟨lhs, [⟨pre ++ t :: post⟩]⟩ :: after ∧
    g.productions = before ++ ⟨lhs, [⟨pre ++ .nonterminal ['e', 'm', 'p', 't', 'y'] :: t :: post⟩]⟩ :: after ++
      [⟨.nonterminal ['e', 'm', 'p', 't', 'y'], [⟨[.terminal []]⟩]⟩]

/-- `Padded g ts ts'`: the terms `ts'` are `ts` with nonterminals inserted that derive the empty string in `g`. -/
inductive Padded (g : Grammar) : List Term → List Term → Prop
  | nil : Padded g [] []
  | keep {t ts ts'} : Padded g ts ts' → Padded g (t :: ts) (t :: ts')
  | insert {n ts ts'} : Derives g (.nonterminal n) [] → Padded g ts ts' → Padded g ts (.nonterminal n :: ts')

/-- Collecting the trees of an iterator into a vector ends, with the trees `ts`. -/
def Collects (it : ParseTreeIter) (ts : List ParseTree) : Prop := ∃ it1 it2, Draws it ts it1 ∧ Next it1 none it2

/-! ## Parsable inputs -/

/-- `tests/parse_input.rs` 763-765 -/
def textAbc : Str := "<x> ::= 'a' | 'b' | 'c'".toList
/-- `tests/parse_input.rs` 766-768 -/
def textAb : Str := "<ab> ::= 'a' 'b' | 'a' <ab> 'b'".toList
/-- `tests/parse_input.rs` 769-771 -/
def textList : Str := "<list> ::= <digit> | <digit> ',' <list>\n<digit> ::= '0' | '1' | '2'".toList

def gramAbc : Grammar := ⟨[⟨.nonterminal ['x'], [⟨[.terminal ['a']]⟩, ⟨[.terminal ['b']]⟩, ⟨[.terminal ['c']]⟩]⟩]⟩
def gramAb : Grammar :=
  ⟨[⟨.nonterminal ['a', 'b'], [⟨[.terminal ['a'], .terminal ['b']]⟩, ⟨[.terminal ['a'], .nonterminal ['a', 'b'], .terminal ['b']]⟩]⟩]⟩
def gramList : Grammar :=
  ⟨[⟨.nonterminal ['l', 'i', 's', 't'], [⟨[.nonterminal ['d', 'i', 'g', 'i', 't']]⟩,
      ⟨[.nonterminal ['d', 'i', 'g', 'i', 't'], .terminal [','], .nonterminal ['l', 'i', 's', 't']]⟩]⟩,
    ⟨.nonterminal ['d', 'i', 'g', 'i', 't'], [⟨[.terminal ['0']]⟩, ⟨[.terminal ['1']]⟩, ⟨[.terminal ['2']]⟩]⟩]⟩

/-- `tests/parse_input.rs` 761-773: `TERMINATING_GRAMMARS`. -/
def terminatingGrammars : List Grammar := [gramAbc, gramAb, gramList]

/-- `tests/parse_input.rs` 797-799: sentences of more than 50 bytes are cut after 50 bytes; `none` is a panic of `truncate`. -/
def truncated (s : Str) : Option Str := if 50 < byteLen s then getTo s 50 else some s

/-- `tests/parse_input.rs` 815-835: `prop_parse_tree_terminals_equal_input` passes. -/
def TerminalsTest (ord : List Str → List Str) (g : Grammar) (input : Str) : Prop :=
  ∃ p it ts, g.buildParser ord = .ok p ∧ p.parseInput input = some it ∧ Collects it ts ∧ ts ≠ [] ∧ ∀ t ∈ ts, yield t.rhs = input

/-- `tests/parse_input.rs` 837-853: `prop_parse_input_build_parser_parity` passes. -/
def ParityTest (ord : List Str → List Str) (g : Grammar) (input : Str) : Prop :=
  ∃ p it it' ts, g.buildParser ord = .ok p ∧ g.parseInputDeprecated input = some it' ∧ Collects it' ts ∧
    p.parseInput input = some it ∧ Collects it ts

/-! ## Mermaid -/

/-- `tests/parse_input.rs` 882-887: `MermaidLabelContent::arbitrary`, `s.replace('\'', "_")`. -/
def labelContent (s : Str) : Str := s.map fun c => if c = '\'' then '_' else c

/-- `tests/parse_input.rs` 961-963: `grammar_single_node`. -/
def singleNodeText (content : Str) : Str := ['<', 'r', 'o', 'o', 't', '>', ' ', ':', ':', '=', ' ', '\''] ++ content ++ ['\'']

mutual
/-- `tests/parse_input.rs` 889-897: `count_parse_tree_edges`. -/
def treeEdges : ParseTreeNode → Nat
  | .terminal _ => 0
  | .nonterminal _ kids => kids.length + forestEdges kids
def forestEdges : List ParseTreeNode → Nat
  | [] => 0
  | k :: ks => treeEdges k + forestEdges ks
end

/-- A line of `str::lines` ends before "\r\n". -/
def dropReturn (l : Str) : Str := if l.getLast? = some '\r' then l.dropLast else l

/-- `str::lines`; the first argument holds the current line. -/
def linesFrom : Str → Str → List Str
  | [], [] => []
  | cur, [] => [cur]
  | cur, c :: s => if c = '\n' then dropReturn cur :: linesFrom [] s else linesFrom (cur ++ [c]) s

/-- `str::lines` -/
def strLines (s : Str) : List Str := linesFrom [] s

/-- The lines that contain "-->". -/
def arrowLines (m : Str) : List Str := (strLines m).filter fun l => decide (['-', '-', '>'] <:+: l)

/-- `str::split` with a pattern of two different characters. -/
def splitPair (a b : Char) : Str → List Str
  | [] => [[]]
  | [c] => [[c]]
  | c :: d :: s =>
    if c = a ∧ d = b then [] :: splitPair a b s
    else match splitPair a b (d :: s) with
      | [] => [[c]]
      | w :: ws => (c :: w) :: ws

/-- `tests/parse_input.rs` 918: `MERMAID_RAW_SPECIALS`. -/
def rawSpecials : List Char := ['"', '[', ']', '\\', '<', '>', '&', '\n', '\r']

/-- `tests/parse_input.rs` 920-933: `assert_mermaid_labels_no_raw_specials`. -/
def LabelsClean (m : Str) : Prop :=
  ∀ segment ∈ splitPair '[' '"' m, ∀ label ∈ (splitPair '"' ']' segment).head?, label ≠ segment → ∀ c ∈ rawSpecials, c ∉ label

/-- `tests/parse_input.rs` 980-1000: what is checked of each tree. -/
def MermaidTest (t : ParseTree) : Prop :=
  ∃ m, t.mermaid = some m ∧ (∀ l ∈ arrowLines m, l.count '"' = 4) ∧
    t.rhs.length + forestEdges t.rhs = (arrowLines m).length ∧ LabelsClean m

/-- `digits.parse::<u32>()` followed by `char::from_u32`. -/
def charOfDigits (ds : Str) : Option Char :=
  if Nat.ofDigitChars 10 ds 0 < 2 ^ 32 ∧ (Nat.ofDigitChars 10 ds 0).isValidChar then some (Char.ofNat (Nat.ofDigitChars 10 ds 0)) else none

/-- `tests/parse_input.rs` 935-959: `unescape_mermaid_entity_codes`; the first argument holds the digits read after a '#'. -/
def unescapeCodes : Option Str → Str → Str
  | none, [] => []
  | some ds, [] => '#' :: ds
  | none, c :: s => if c = '#' then unescapeCodes (some []) s else c :: unescapeCodes none s
  | some ds, c :: s =>
    if c.isDigit then unescapeCodes (some (ds ++ [c])) s
    else if c = ';' ∧ ds ≠ [] then
      match charOfDigits ds with
      | some ch => ch :: unescapeCodes none s
      | none => '#' :: ds ++ unescapeCodes none s
    else '#' :: ds ++ (if c = '#' then unescapeCodes (some []) s else c :: unescapeCodes none s)

end Bnf.Spec
