import Verif.Model.Basic
import Verif.Chars

/-!
# Specification: the texts and grammars of the tests in `tests/parse_input.rs`

The texts are copied from the tests; the grammars are written out by hand (that the texts denote them is a theorem).
-/

set_option autoImplicit false

namespace Bnf.Spec

set_option maxRecDepth 10000

/-- The text in `dna_left_recursive` (`tests/parse_input.rs` 45). -/
def textDnaLeftRecursive : Str := chars! "<dna> ::= <base> | <dna> <base>\n        <base> ::= 'A' | 'C' | 'G' | 'T'"

def rulesDnaLeftRecursive : List Production := [
  ⟨.nonterminal ['d', 'n', 'a'], [⟨[.nonterminal ['b', 'a', 's', 'e']]⟩, ⟨[.nonterminal ['d', 'n', 'a'], .nonterminal ['b', 'a', 's', 'e']]⟩]⟩,
  ⟨.nonterminal ['b', 'a', 's', 'e'], [⟨[.terminal ['A']]⟩, ⟨[.terminal ['C']]⟩, ⟨[.terminal ['G']]⟩, ⟨[.terminal ['T']]⟩]⟩]

def gramDnaLeftRecursive : Grammar := ⟨rulesDnaLeftRecursive⟩

/-- The text in `dna_right_recursive` (`tests/parse_input.rs` 58). -/
def textDnaRightRecursive : Str := chars! "<dna> ::= <base> | <base> <dna>\n        <base> ::= 'A' | 'C' | 'G' | 'T'"

def rulesDnaRightRecursive : List Production := [
  ⟨.nonterminal ['d', 'n', 'a'], [⟨[.nonterminal ['b', 'a', 's', 'e']]⟩, ⟨[.nonterminal ['b', 'a', 's', 'e'], .nonterminal ['d', 'n', 'a']]⟩]⟩,
  ⟨.nonterminal ['b', 'a', 's', 'e'], [⟨[.terminal ['A']]⟩, ⟨[.terminal ['C']]⟩, ⟨[.terminal ['G']]⟩, ⟨[.terminal ['T']]⟩]⟩]

def gramDnaRightRecursive : Grammar := ⟨rulesDnaRightRecursive⟩

/-- The text in `dna_annotated_grammar_parses_input` (`tests/parse_input.rs` 71). -/
def textDnaAnnotatedGrammarParsesInput : Str := chars! "; the building blocks of life!\n<dna> ::= <base> | <base> <dna>\n<base> ::= 'A' | 'C' | 'G' | 'T' ;(Adenine, Cytosine, Guanine, and Thymine)\n; the end 📖"

/-- The text in `ambiguous` (`tests/parse_input.rs` 87). -/
def textAmbiguous : Str := chars! "<start> ::= <a> | <b>\n        <a> ::= 'END'\n        <b> ::= 'END'"

def rulesAmbiguous : List Production := [
  ⟨.nonterminal ['s', 't', 'a', 'r', 't'], [⟨[.nonterminal ['a']]⟩, ⟨[.nonterminal ['b']]⟩]⟩,
  ⟨.nonterminal ['a'], [⟨[.terminal ['E', 'N', 'D']]⟩]⟩,
  ⟨.nonterminal ['b'], [⟨[.terminal ['E', 'N', 'D']]⟩]⟩]

def gramAmbiguous : Grammar := ⟨rulesAmbiguous⟩

/-- The text in `recursive_nested_infinite` (`tests/parse_input.rs` 101). -/
def textRecursiveNestedInfinite : Str := chars! "\n            <a> ::= <b> | 'z'\n            <b> ::= <a> \n        "

def rulesRecursiveNestedInfinite : List Production := [
  ⟨.nonterminal ['a'], [⟨[.nonterminal ['b']]⟩, ⟨[.terminal ['z']]⟩]⟩,
  ⟨.nonterminal ['b'], [⟨[.nonterminal ['a']]⟩]⟩]

def gramRecursiveNestedInfinite : Grammar := ⟨rulesRecursiveNestedInfinite⟩

/-- The text in `empty_right_recursive` (`tests/parse_input.rs` 123). -/
def textEmptyRightRecursive : Str := chars! "<a> ::= '' | 'a' <a>"

def rulesEmptyRightRecursive : List Production := [
  ⟨.nonterminal ['a'], [⟨[.terminal []]⟩, ⟨[.terminal ['a'], .nonterminal ['a']]⟩]⟩]

def gramEmptyRightRecursive : Grammar := ⟨rulesEmptyRightRecursive⟩

/-- The text in `empty_left_recursive` (`tests/parse_input.rs` 133). -/
def textEmptyLeftRecursive : Str := chars! "<a> ::= '' | <a> 'a'"

def rulesEmptyLeftRecursive : List Production := [
  ⟨.nonterminal ['a'], [⟨[.terminal []]⟩, ⟨[.nonterminal ['a'], .terminal ['a']]⟩]⟩]

def gramEmptyLeftRecursive : Grammar := ⟨rulesEmptyLeftRecursive⟩

/-- The text in `complete_empty` (`tests/parse_input.rs` 143). -/
def textCompleteEmpty : Str := chars! "<start> ::= 'hi' <empty>\n        <empty> ::= ''"

def rulesCompleteEmpty : List Production := [
  ⟨.nonterminal ['s', 't', 'a', 'r', 't'], [⟨[.terminal ['h', 'i'], .nonterminal ['e', 'm', 'p', 't', 'y']]⟩]⟩,
  ⟨.nonterminal ['e', 'm', 'p', 't', 'y'], [⟨[.terminal []]⟩]⟩]

def gramCompleteEmpty : Grammar := ⟨rulesCompleteEmpty⟩

/-- The text in `empty` (`tests/parse_input.rs` 156). -/
def textEmpty : Str := chars! "<start> ::= ''"

def rulesEmpty : List Production := [
  ⟨.nonterminal ['s', 't', 'a', 'r', 't'], [⟨[.terminal []]⟩]⟩]

def gramEmpty : Grammar := ⟨rulesEmpty⟩

/-- The text in `nested_empty_post` (`tests/parse_input.rs` 166). -/
def textNestedEmptyPost : Str := chars! "\n        <start> ::= <a> <empty>\n        <a> ::= 'a' <empty>\n        <empty> ::= ''"

def rulesNestedEmptyPost : List Production := [
  ⟨.nonterminal ['s', 't', 'a', 'r', 't'], [⟨[.nonterminal ['a'], .nonterminal ['e', 'm', 'p', 't', 'y']]⟩]⟩,
  ⟨.nonterminal ['a'], [⟨[.terminal ['a'], .nonterminal ['e', 'm', 'p', 't', 'y']]⟩]⟩,
  ⟨.nonterminal ['e', 'm', 'p', 't', 'y'], [⟨[.terminal []]⟩]⟩]

def gramNestedEmptyPost : Grammar := ⟨rulesNestedEmptyPost⟩

/-- The text in `nested_empty_pre` (`tests/parse_input.rs` 181). -/
def textNestedEmptyPre : Str := chars! "\n        <start> ::= <empty> <a>\n        <a> ::= <empty> 'a'\n        <empty> ::= ''"

def rulesNestedEmptyPre : List Production := [
  ⟨.nonterminal ['s', 't', 'a', 'r', 't'], [⟨[.nonterminal ['e', 'm', 'p', 't', 'y'], .nonterminal ['a']]⟩]⟩,
  ⟨.nonterminal ['a'], [⟨[.nonterminal ['e', 'm', 'p', 't', 'y'], .terminal ['a']]⟩]⟩,
  ⟨.nonterminal ['e', 'm', 'p', 't', 'y'], [⟨[.terminal []]⟩]⟩]

def gramNestedEmptyPre : Grammar := ⟨rulesNestedEmptyPre⟩

/-- The text in `nested_empty_pre_and_post` (`tests/parse_input.rs` 196). -/
def textNestedEmptyPreAndPost : Str := chars! "\n        <start> ::= <empty> <a> <empty>\n        <a> ::= <empty> 'a' <empty>\n        <empty> ::= ''"

def rulesNestedEmptyPreAndPost : List Production := [
  ⟨.nonterminal ['s', 't', 'a', 'r', 't'], [⟨[.nonterminal ['e', 'm', 'p', 't', 'y'], .nonterminal ['a'], .nonterminal ['e', 'm', 'p', 't', 'y']]⟩]⟩,
  ⟨.nonterminal ['a'], [⟨[.nonterminal ['e', 'm', 'p', 't', 'y'], .terminal ['a'], .nonterminal ['e', 'm', 'p', 't', 'y']]⟩]⟩,
  ⟨.nonterminal ['e', 'm', 'p', 't', 'y'], [⟨[.terminal []]⟩]⟩]

def gramNestedEmptyPreAndPost : Grammar := ⟨rulesNestedEmptyPreAndPost⟩

/-- The text in `empty_inline` (`tests/parse_input.rs` 211). -/
def textEmptyInline : Str := chars! "\n        <start> ::= <a> '' <a>\n        <a> ::= 'a'"

def rulesEmptyInline : List Production := [
  ⟨.nonterminal ['s', 't', 'a', 'r', 't'], [⟨[.nonterminal ['a'], .terminal [], .nonterminal ['a']]⟩]⟩,
  ⟨.nonterminal ['a'], [⟨[.terminal ['a']]⟩]⟩]

def gramEmptyInline : Grammar := ⟨rulesEmptyInline⟩

/-- The text in `empty_ambiguous` (`tests/parse_input.rs` 225). -/
def textEmptyAmbiguous : Str := chars! "\n        <start> ::= <a> | <b>\n        <a> ::= ''\n        <b> ::= ''"

def rulesEmptyAmbiguous : List Production := [
  ⟨.nonterminal ['s', 't', 'a', 'r', 't'], [⟨[.nonterminal ['a']]⟩, ⟨[.nonterminal ['b']]⟩]⟩,
  ⟨.nonterminal ['a'], [⟨[.terminal []]⟩]⟩,
  ⟨.nonterminal ['b'], [⟨[.terminal []]⟩]⟩]

def gramEmptyAmbiguous : Grammar := ⟨rulesEmptyAmbiguous⟩

/-- The text in `empty_first_nested` (`tests/parse_input.rs` 240). -/
def textEmptyFirstNested : Str := chars! "\n        <a> ::= '' | '' <b> <c>\n        <b> ::= <c>\n        <c> ::= <a>\n        "

def rulesEmptyFirstNested : List Production := [
  ⟨.nonterminal ['a'], [⟨[.terminal []]⟩, ⟨[.terminal [], .nonterminal ['b'], .nonterminal ['c']]⟩]⟩,
  ⟨.nonterminal ['b'], [⟨[.nonterminal ['c']]⟩]⟩,
  ⟨.nonterminal ['c'], [⟨[.nonterminal ['a']]⟩]⟩]

def gramEmptyFirstNested : Grammar := ⟨rulesEmptyFirstNested⟩

/-- The text in `optional_whitespace` (`tests/parse_input.rs` 263). -/
def textOptionalWhitespace : Str := chars! "\n        <balanced> ::= <left> <balanced> <right>\n                     | ''\n        \n        <left> ::= <opt-ws> '(' <opt-ws>\n        <right> ::= <opt-ws> ')' <opt-ws>\n        \n        <opt-ws> ::= '' | <ws>\n        <ws> ::= ' ' | ' ' <ws>\n        "

def rulesOptionalWhitespace : List Production := [
  ⟨.nonterminal ['b', 'a', 'l', 'a', 'n', 'c', 'e', 'd'], [⟨[.nonterminal ['l', 'e', 'f', 't'], .nonterminal ['b', 'a', 'l', 'a', 'n', 'c', 'e', 'd'], .nonterminal ['r', 'i', 'g', 'h', 't']]⟩, ⟨[.terminal []]⟩]⟩,
  ⟨.nonterminal ['l', 'e', 'f', 't'], [⟨[.nonterminal ['o', 'p', 't', '-', 'w', 's'], .terminal ['('], .nonterminal ['o', 'p', 't', '-', 'w', 's']]⟩]⟩,
  ⟨.nonterminal ['r', 'i', 'g', 'h', 't'], [⟨[.nonterminal ['o', 'p', 't', '-', 'w', 's'], .terminal [')'], .nonterminal ['o', 'p', 't', '-', 'w', 's']]⟩]⟩,
  ⟨.nonterminal ['o', 'p', 't', '-', 'w', 's'], [⟨[.terminal []]⟩, ⟨[.nonterminal ['w', 's']]⟩]⟩,
  ⟨.nonterminal ['w', 's'], [⟨[.terminal [' ']]⟩, ⟨[.terminal [' '], .nonterminal ['w', 's']]⟩]⟩]

def gramOptionalWhitespace : Grammar := ⟨rulesOptionalWhitespace⟩

/-- The text in `qualified_whitespace` (`tests/parse_input.rs` 284). -/
def textQualifiedWhitespace : Str := chars! "\n        <terms> ::= <terms> <ws> <term>\n                  | <term>\n        <term> ::= <qualified>\n                 | 'unqualified'\n        <qualified> ::= 'QUALIFIER:' <qual-term>\n        <qual-term> ::= <qual-term> <ws>\n                      | 'qualified'\n        <ws> ::= ' ' | ' ' <ws>\n        "

def rulesQualifiedWhitespace : List Production := [
  ⟨.nonterminal ['t', 'e', 'r', 'm', 's'], [⟨[.nonterminal ['t', 'e', 'r', 'm', 's'], .nonterminal ['w', 's'], .nonterminal ['t', 'e', 'r', 'm']]⟩, ⟨[.nonterminal ['t', 'e', 'r', 'm']]⟩]⟩,
  ⟨.nonterminal ['t', 'e', 'r', 'm'], [⟨[.nonterminal ['q', 'u', 'a', 'l', 'i', 'f', 'i', 'e', 'd']]⟩, ⟨[.terminal ['u', 'n', 'q', 'u', 'a', 'l', 'i', 'f', 'i', 'e', 'd']]⟩]⟩,
  ⟨.nonterminal ['q', 'u', 'a', 'l', 'i', 'f', 'i', 'e', 'd'], [⟨[.terminal ['Q', 'U', 'A', 'L', 'I', 'F', 'I', 'E', 'R', ':'], .nonterminal ['q', 'u', 'a', 'l', '-', 't', 'e', 'r', 'm']]⟩]⟩,
  ⟨.nonterminal ['q', 'u', 'a', 'l', '-', 't', 'e', 'r', 'm'], [⟨[.nonterminal ['q', 'u', 'a', 'l', '-', 't', 'e', 'r', 'm'], .nonterminal ['w', 's']]⟩, ⟨[.terminal ['q', 'u', 'a', 'l', 'i', 'f', 'i', 'e', 'd']]⟩]⟩,
  ⟨.nonterminal ['w', 's'], [⟨[.terminal [' ']]⟩, ⟨[.terminal [' '], .nonterminal ['w', 's']]⟩]⟩]

def gramQualifiedWhitespace : Grammar := ⟨rulesQualifiedWhitespace⟩

/-- The text in `empty_noop_infinite` (`tests/parse_input.rs` 306). -/
def textEmptyNoopInfinite : Str := chars! "\n        <a> ::= '' | <b>\n        <b> ::= <a>"

def rulesEmptyNoopInfinite : List Production := [
  ⟨.nonterminal ['a'], [⟨[.terminal []]⟩, ⟨[.nonterminal ['b']]⟩]⟩,
  ⟨.nonterminal ['b'], [⟨[.nonterminal ['a']]⟩]⟩]

def gramEmptyNoopInfinite : Grammar := ⟨rulesEmptyNoopInfinite⟩

/-- The text in `math` (`tests/parse_input.rs` 335). -/
def textMath : Str := chars! "<sum> ::= <sum> <add> <product>\n            <sum> ::= <product>\n            <product> ::= <product> <mult> <factor>\n            <product> ::= <factor>\n            <add> ::= '+' | '-'\n            <mult> ::= '*' | '/'\n            <factor> ::= '(' <sum> ')'\n            <factor> ::= <number>\n            <number> ::= <digit> <number>\n            <number> ::= <digit>\n            <digit> ::= '0' | '1' | '2' | '3' | '4' | '5' | '6' | '7' | '8' | '9'\n        "

def rulesMath : List Production := [
  ⟨.nonterminal ['s', 'u', 'm'], [⟨[.nonterminal ['s', 'u', 'm'], .nonterminal ['a', 'd', 'd'], .nonterminal ['p', 'r', 'o', 'd', 'u', 'c', 't']]⟩]⟩,
  ⟨.nonterminal ['s', 'u', 'm'], [⟨[.nonterminal ['p', 'r', 'o', 'd', 'u', 'c', 't']]⟩]⟩,
  ⟨.nonterminal ['p', 'r', 'o', 'd', 'u', 'c', 't'], [⟨[.nonterminal ['p', 'r', 'o', 'd', 'u', 'c', 't'], .nonterminal ['m', 'u', 'l', 't'], .nonterminal ['f', 'a', 'c', 't', 'o', 'r']]⟩]⟩,
  ⟨.nonterminal ['p', 'r', 'o', 'd', 'u', 'c', 't'], [⟨[.nonterminal ['f', 'a', 'c', 't', 'o', 'r']]⟩]⟩,
  ⟨.nonterminal ['a', 'd', 'd'], [⟨[.terminal ['+']]⟩, ⟨[.terminal ['-']]⟩]⟩,
  ⟨.nonterminal ['m', 'u', 'l', 't'], [⟨[.terminal ['*']]⟩, ⟨[.terminal ['/']]⟩]⟩,
  ⟨.nonterminal ['f', 'a', 'c', 't', 'o', 'r'], [⟨[.terminal ['('], .nonterminal ['s', 'u', 'm'], .terminal [')']]⟩]⟩,
  ⟨.nonterminal ['f', 'a', 'c', 't', 'o', 'r'], [⟨[.nonterminal ['n', 'u', 'm', 'b', 'e', 'r']]⟩]⟩,
  ⟨.nonterminal ['n', 'u', 'm', 'b', 'e', 'r'], [⟨[.nonterminal ['d', 'i', 'g', 'i', 't'], .nonterminal ['n', 'u', 'm', 'b', 'e', 'r']]⟩]⟩,
  ⟨.nonterminal ['n', 'u', 'm', 'b', 'e', 'r'], [⟨[.nonterminal ['d', 'i', 'g', 'i', 't']]⟩]⟩,
  ⟨.nonterminal ['d', 'i', 'g', 'i', 't'], [⟨[.terminal ['0']]⟩, ⟨[.terminal ['1']]⟩, ⟨[.terminal ['2']]⟩, ⟨[.terminal ['3']]⟩, ⟨[.terminal ['4']]⟩, ⟨[.terminal ['5']]⟩, ⟨[.terminal ['6']]⟩, ⟨[.terminal ['7']]⟩, ⟨[.terminal ['8']]⟩, ⟨[.terminal ['9']]⟩]⟩]

def gramMath : Grammar := ⟨rulesMath⟩

/-- The text in `shared_nonterminal_failure` (`tests/parse_input.rs` 371). -/
def textSharedNonterminalFailure : Str := chars! "\n        <start> ::= <shortfail> | <longsuccess>\n        <shortfail> ::= <char> 'never'\n        <char> ::= 'a'\n        <longsuccess> ::= <long2>\n        <long2> ::= <long3>\n        <long3> ::= <long4>\n        <long4> ::= <char>\n        "

def rulesSharedNonterminalFailure : List Production := [
  ⟨.nonterminal ['s', 't', 'a', 'r', 't'], [⟨[.nonterminal ['s', 'h', 'o', 'r', 't', 'f', 'a', 'i', 'l']]⟩, ⟨[.nonterminal ['l', 'o', 'n', 'g', 's', 'u', 'c', 'c', 'e', 's', 's']]⟩]⟩,
  ⟨.nonterminal ['s', 'h', 'o', 'r', 't', 'f', 'a', 'i', 'l'], [⟨[.nonterminal ['c', 'h', 'a', 'r'], .terminal ['n', 'e', 'v', 'e', 'r']]⟩]⟩,
  ⟨.nonterminal ['c', 'h', 'a', 'r'], [⟨[.terminal ['a']]⟩]⟩,
  ⟨.nonterminal ['l', 'o', 'n', 'g', 's', 'u', 'c', 'c', 'e', 's', 's'], [⟨[.nonterminal ['l', 'o', 'n', 'g', '2']]⟩]⟩,
  ⟨.nonterminal ['l', 'o', 'n', 'g', '2'], [⟨[.nonterminal ['l', 'o', 'n', 'g', '3']]⟩]⟩,
  ⟨.nonterminal ['l', 'o', 'n', 'g', '3'], [⟨[.nonterminal ['l', 'o', 'n', 'g', '4']]⟩]⟩,
  ⟨.nonterminal ['l', 'o', 'n', 'g', '4'], [⟨[.nonterminal ['c', 'h', 'a', 'r']]⟩]⟩]

def gramSharedNonterminalFailure : Grammar := ⟨rulesSharedNonterminalFailure⟩

/-- The text in `swap_left_right_recursion` (`tests/parse_input.rs` 391). -/
def textSwapLeftRightRecursionLeft : Str := chars! "\n        <conjunction> ::= <conjunction> <ws> <predicate> | <predicate>\n        <predicate> ::= <string_null_one> | <special-string> '.'\n        <string_null_one> ::= <string_null_two>\n        <string_null_two> ::= <string_null_three>\n        <string_null_three> ::= <string>\n        <string> ::= <char_null> | <string> <char_null>\n        <special-string> ::= <special-char> | <special-string> <special-char>\n        <char_null> ::= <char>\n        <char> ::= 'a'\n        <special-char> ::= <char_null> | <whitespace>\n        <whitespace> ::= ' '\n        <ws> ::= ' ' | ' ' <ws>\n        "

def rulesSwapLeftRightRecursionLeft : List Production := [
  ⟨.nonterminal ['c', 'o', 'n', 'j', 'u', 'n', 'c', 't', 'i', 'o', 'n'], [⟨[.nonterminal ['c', 'o', 'n', 'j', 'u', 'n', 'c', 't', 'i', 'o', 'n'], .nonterminal ['w', 's'], .nonterminal ['p', 'r', 'e', 'd', 'i', 'c', 'a', 't', 'e']]⟩, ⟨[.nonterminal ['p', 'r', 'e', 'd', 'i', 'c', 'a', 't', 'e']]⟩]⟩,
  ⟨.nonterminal ['p', 'r', 'e', 'd', 'i', 'c', 'a', 't', 'e'], [⟨[.nonterminal ['s', 't', 'r', 'i', 'n', 'g', '_', 'n', 'u', 'l', 'l', '_', 'o', 'n', 'e']]⟩, ⟨[.nonterminal ['s', 'p', 'e', 'c', 'i', 'a', 'l', '-', 's', 't', 'r', 'i', 'n', 'g'], .terminal ['.']]⟩]⟩,
  ⟨.nonterminal ['s', 't', 'r', 'i', 'n', 'g', '_', 'n', 'u', 'l', 'l', '_', 'o', 'n', 'e'], [⟨[.nonterminal ['s', 't', 'r', 'i', 'n', 'g', '_', 'n', 'u', 'l', 'l', '_', 't', 'w', 'o']]⟩]⟩,
  ⟨.nonterminal ['s', 't', 'r', 'i', 'n', 'g', '_', 'n', 'u', 'l', 'l', '_', 't', 'w', 'o'], [⟨[.nonterminal ['s', 't', 'r', 'i', 'n', 'g', '_', 'n', 'u', 'l', 'l', '_', 't', 'h', 'r', 'e', 'e']]⟩]⟩,
  ⟨.nonterminal ['s', 't', 'r', 'i', 'n', 'g', '_', 'n', 'u', 'l', 'l', '_', 't', 'h', 'r', 'e', 'e'], [⟨[.nonterminal ['s', 't', 'r', 'i', 'n', 'g']]⟩]⟩,
  ⟨.nonterminal ['s', 't', 'r', 'i', 'n', 'g'], [⟨[.nonterminal ['c', 'h', 'a', 'r', '_', 'n', 'u', 'l', 'l']]⟩, ⟨[.nonterminal ['s', 't', 'r', 'i', 'n', 'g'], .nonterminal ['c', 'h', 'a', 'r', '_', 'n', 'u', 'l', 'l']]⟩]⟩,
  ⟨.nonterminal ['s', 'p', 'e', 'c', 'i', 'a', 'l', '-', 's', 't', 'r', 'i', 'n', 'g'], [⟨[.nonterminal ['s', 'p', 'e', 'c', 'i', 'a', 'l', '-', 'c', 'h', 'a', 'r']]⟩, ⟨[.nonterminal ['s', 'p', 'e', 'c', 'i', 'a', 'l', '-', 's', 't', 'r', 'i', 'n', 'g'], .nonterminal ['s', 'p', 'e', 'c', 'i', 'a', 'l', '-', 'c', 'h', 'a', 'r']]⟩]⟩,
  ⟨.nonterminal ['c', 'h', 'a', 'r', '_', 'n', 'u', 'l', 'l'], [⟨[.nonterminal ['c', 'h', 'a', 'r']]⟩]⟩,
  ⟨.nonterminal ['c', 'h', 'a', 'r'], [⟨[.terminal ['a']]⟩]⟩,
  ⟨.nonterminal ['s', 'p', 'e', 'c', 'i', 'a', 'l', '-', 'c', 'h', 'a', 'r'], [⟨[.nonterminal ['c', 'h', 'a', 'r', '_', 'n', 'u', 'l', 'l']]⟩, ⟨[.nonterminal ['w', 'h', 'i', 't', 'e', 's', 'p', 'a', 'c', 'e']]⟩]⟩,
  ⟨.nonterminal ['w', 'h', 'i', 't', 'e', 's', 'p', 'a', 'c', 'e'], [⟨[.terminal [' ']]⟩]⟩,
  ⟨.nonterminal ['w', 's'], [⟨[.terminal [' ']]⟩, ⟨[.terminal [' '], .nonterminal ['w', 's']]⟩]⟩]

def gramSwapLeftRightRecursionLeft : Grammar := ⟨rulesSwapLeftRightRecursionLeft⟩

/-- The text in `swap_left_right_recursion` (`tests/parse_input.rs` 391). -/
def textSwapLeftRightRecursionRight : Str := chars! "\n        <conjunction> ::= <conjunction> <ws> <predicate> | <predicate>\n        <predicate> ::= <string_null_one> | <special-string> '.'\n        <string_null_one> ::= <string_null_two>\n        <string_null_two> ::= <string_null_three>\n        <string_null_three> ::= <string>\n        <string> ::= <char_null> | <char_null> <string>\n        <special-string> ::= <special-char> | <special-string> <special-char>\n        <char_null> ::= <char>\n        <char> ::= 'a'\n        <special-char> ::= <char_null> | <whitespace>\n        <whitespace> ::= ' '\n        <ws> ::= ' ' | ' ' <ws>\n        "

def rulesSwapLeftRightRecursionRight : List Production := [
  ⟨.nonterminal ['c', 'o', 'n', 'j', 'u', 'n', 'c', 't', 'i', 'o', 'n'], [⟨[.nonterminal ['c', 'o', 'n', 'j', 'u', 'n', 'c', 't', 'i', 'o', 'n'], .nonterminal ['w', 's'], .nonterminal ['p', 'r', 'e', 'd', 'i', 'c', 'a', 't', 'e']]⟩, ⟨[.nonterminal ['p', 'r', 'e', 'd', 'i', 'c', 'a', 't', 'e']]⟩]⟩,
  ⟨.nonterminal ['p', 'r', 'e', 'd', 'i', 'c', 'a', 't', 'e'], [⟨[.nonterminal ['s', 't', 'r', 'i', 'n', 'g', '_', 'n', 'u', 'l', 'l', '_', 'o', 'n', 'e']]⟩, ⟨[.nonterminal ['s', 'p', 'e', 'c', 'i', 'a', 'l', '-', 's', 't', 'r', 'i', 'n', 'g'], .terminal ['.']]⟩]⟩,
  ⟨.nonterminal ['s', 't', 'r', 'i', 'n', 'g', '_', 'n', 'u', 'l', 'l', '_', 'o', 'n', 'e'], [⟨[.nonterminal ['s', 't', 'r', 'i', 'n', 'g', '_', 'n', 'u', 'l', 'l', '_', 't', 'w', 'o']]⟩]⟩,
  ⟨.nonterminal ['s', 't', 'r', 'i', 'n', 'g', '_', 'n', 'u', 'l', 'l', '_', 't', 'w', 'o'], [⟨[.nonterminal ['s', 't', 'r', 'i', 'n', 'g', '_', 'n', 'u', 'l', 'l', '_', 't', 'h', 'r', 'e', 'e']]⟩]⟩,
  ⟨.nonterminal ['s', 't', 'r', 'i', 'n', 'g', '_', 'n', 'u', 'l', 'l', '_', 't', 'h', 'r', 'e', 'e'], [⟨[.nonterminal ['s', 't', 'r', 'i', 'n', 'g']]⟩]⟩,
  ⟨.nonterminal ['s', 't', 'r', 'i', 'n', 'g'], [⟨[.nonterminal ['c', 'h', 'a', 'r', '_', 'n', 'u', 'l', 'l']]⟩, ⟨[.nonterminal ['c', 'h', 'a', 'r', '_', 'n', 'u', 'l', 'l'], .nonterminal ['s', 't', 'r', 'i', 'n', 'g']]⟩]⟩,
  ⟨.nonterminal ['s', 'p', 'e', 'c', 'i', 'a', 'l', '-', 's', 't', 'r', 'i', 'n', 'g'], [⟨[.nonterminal ['s', 'p', 'e', 'c', 'i', 'a', 'l', '-', 'c', 'h', 'a', 'r']]⟩, ⟨[.nonterminal ['s', 'p', 'e', 'c', 'i', 'a', 'l', '-', 's', 't', 'r', 'i', 'n', 'g'], .nonterminal ['s', 'p', 'e', 'c', 'i', 'a', 'l', '-', 'c', 'h', 'a', 'r']]⟩]⟩,
  ⟨.nonterminal ['c', 'h', 'a', 'r', '_', 'n', 'u', 'l', 'l'], [⟨[.nonterminal ['c', 'h', 'a', 'r']]⟩]⟩,
  ⟨.nonterminal ['c', 'h', 'a', 'r'], [⟨[.terminal ['a']]⟩]⟩,
  ⟨.nonterminal ['s', 'p', 'e', 'c', 'i', 'a', 'l', '-', 'c', 'h', 'a', 'r'], [⟨[.nonterminal ['c', 'h', 'a', 'r', '_', 'n', 'u', 'l', 'l']]⟩, ⟨[.nonterminal ['w', 'h', 'i', 't', 'e', 's', 'p', 'a', 'c', 'e']]⟩]⟩,
  ⟨.nonterminal ['w', 'h', 'i', 't', 'e', 's', 'p', 'a', 'c', 'e'], [⟨[.terminal [' ']]⟩]⟩,
  ⟨.nonterminal ['w', 's'], [⟨[.terminal [' ']]⟩, ⟨[.terminal [' '], .nonterminal ['w', 's']]⟩]⟩]

def gramSwapLeftRightRecursionRight : Grammar := ⟨rulesSwapLeftRightRecursionRight⟩

/-- The text in `shared_nullable_nonterminal` (`tests/parse_input.rs` 431). -/
def textSharedNullableNonterminal : Str := chars! "\n        <disjunction> ::= <predicate> | <disjunction> <or> <predicate>\n        <predicate> ::= <char_null_one> | <special-string> '.'\n\n        <char_null_one> ::= <char_null_two>\n        <char_null_two> ::= <char_null_three>\n        <char_null_three> ::= <char>\n\n        <or> ::= <ws> 'or' <ws>\n        <ws> ::= <whitespace> | ' ' <ws>\n        <whitespace> ::= ' '\n\n        <special-string> ::= <special-char> | <special-char> <special-string>\n        <special-char> ::= <char> | <whitespace>\n        <char> ::= 'a'\n        "

def rulesSharedNullableNonterminal : List Production := [
  ⟨.nonterminal ['d', 'i', 's', 'j', 'u', 'n', 'c', 't', 'i', 'o', 'n'], [⟨[.nonterminal ['p', 'r', 'e', 'd', 'i', 'c', 'a', 't', 'e']]⟩, ⟨[.nonterminal ['d', 'i', 's', 'j', 'u', 'n', 'c', 't', 'i', 'o', 'n'], .nonterminal ['o', 'r'], .nonterminal ['p', 'r', 'e', 'd', 'i', 'c', 'a', 't', 'e']]⟩]⟩,
  ⟨.nonterminal ['p', 'r', 'e', 'd', 'i', 'c', 'a', 't', 'e'], [⟨[.nonterminal ['c', 'h', 'a', 'r', '_', 'n', 'u', 'l', 'l', '_', 'o', 'n', 'e']]⟩, ⟨[.nonterminal ['s', 'p', 'e', 'c', 'i', 'a', 'l', '-', 's', 't', 'r', 'i', 'n', 'g'], .terminal ['.']]⟩]⟩,
  ⟨.nonterminal ['c', 'h', 'a', 'r', '_', 'n', 'u', 'l', 'l', '_', 'o', 'n', 'e'], [⟨[.nonterminal ['c', 'h', 'a', 'r', '_', 'n', 'u', 'l', 'l', '_', 't', 'w', 'o']]⟩]⟩,
  ⟨.nonterminal ['c', 'h', 'a', 'r', '_', 'n', 'u', 'l', 'l', '_', 't', 'w', 'o'], [⟨[.nonterminal ['c', 'h', 'a', 'r', '_', 'n', 'u', 'l', 'l', '_', 't', 'h', 'r', 'e', 'e']]⟩]⟩,
  ⟨.nonterminal ['c', 'h', 'a', 'r', '_', 'n', 'u', 'l', 'l', '_', 't', 'h', 'r', 'e', 'e'], [⟨[.nonterminal ['c', 'h', 'a', 'r']]⟩]⟩,
  ⟨.nonterminal ['o', 'r'], [⟨[.nonterminal ['w', 's'], .terminal ['o', 'r'], .nonterminal ['w', 's']]⟩]⟩,
  ⟨.nonterminal ['w', 's'], [⟨[.nonterminal ['w', 'h', 'i', 't', 'e', 's', 'p', 'a', 'c', 'e']]⟩, ⟨[.terminal [' '], .nonterminal ['w', 's']]⟩]⟩,
  ⟨.nonterminal ['w', 'h', 'i', 't', 'e', 's', 'p', 'a', 'c', 'e'], [⟨[.terminal [' ']]⟩]⟩,
  ⟨.nonterminal ['s', 'p', 'e', 'c', 'i', 'a', 'l', '-', 's', 't', 'r', 'i', 'n', 'g'], [⟨[.nonterminal ['s', 'p', 'e', 'c', 'i', 'a', 'l', '-', 'c', 'h', 'a', 'r']]⟩, ⟨[.nonterminal ['s', 'p', 'e', 'c', 'i', 'a', 'l', '-', 'c', 'h', 'a', 'r'], .nonterminal ['s', 'p', 'e', 'c', 'i', 'a', 'l', '-', 's', 't', 'r', 'i', 'n', 'g']]⟩]⟩,
  ⟨.nonterminal ['s', 'p', 'e', 'c', 'i', 'a', 'l', '-', 'c', 'h', 'a', 'r'], [⟨[.nonterminal ['c', 'h', 'a', 'r']]⟩, ⟨[.nonterminal ['w', 'h', 'i', 't', 'e', 's', 'p', 'a', 'c', 'e']]⟩]⟩,
  ⟨.nonterminal ['c', 'h', 'a', 'r'], [⟨[.terminal ['a']]⟩]⟩]

def gramSharedNullableNonterminal : Grammar := ⟨rulesSharedNullableNonterminal⟩

/-- The text in `branching_and_overlapping_parse_trees` (`tests/parse_input.rs` 461). -/
def textBranchingAndOverlappingParseTrees : Str := chars! "\n        <and> ::= <and> ' AND ' <terminal>\n                | <and> ' ' <terminal>\n                | <terminal>\n        <terminal> ::= 'AND'\n        "

def rulesBranchingAndOverlappingParseTrees : List Production := [
  ⟨.nonterminal ['a', 'n', 'd'], [⟨[.nonterminal ['a', 'n', 'd'], .terminal [' ', 'A', 'N', 'D', ' '], .nonterminal ['t', 'e', 'r', 'm', 'i', 'n', 'a', 'l']]⟩, ⟨[.nonterminal ['a', 'n', 'd'], .terminal [' '], .nonterminal ['t', 'e', 'r', 'm', 'i', 'n', 'a', 'l']]⟩, ⟨[.nonterminal ['t', 'e', 'r', 'm', 'i', 'n', 'a', 'l']]⟩]⟩,
  ⟨.nonterminal ['t', 'e', 'r', 'm', 'i', 'n', 'a', 'l'], [⟨[.terminal ['A', 'N', 'D']]⟩]⟩]

def gramBranchingAndOverlappingParseTrees : Grammar := ⟨rulesBranchingAndOverlappingParseTrees⟩

/-- Texts of the tests with the grammars they denote. -/
def testGrammars : List (Str × Grammar) := [
  (textDnaLeftRecursive, gramDnaLeftRecursive),
  (textDnaRightRecursive, gramDnaRightRecursive),
  (textDnaAnnotatedGrammarParsesInput, gramDnaRightRecursive),
  (textAmbiguous, gramAmbiguous),
  (textRecursiveNestedInfinite, gramRecursiveNestedInfinite),
  (textEmptyRightRecursive, gramEmptyRightRecursive),
  (textEmptyLeftRecursive, gramEmptyLeftRecursive),
  (textCompleteEmpty, gramCompleteEmpty),
  (textEmpty, gramEmpty),
  (textNestedEmptyPost, gramNestedEmptyPost),
  (textNestedEmptyPre, gramNestedEmptyPre),
  (textNestedEmptyPreAndPost, gramNestedEmptyPreAndPost),
  (textEmptyInline, gramEmptyInline),
  (textEmptyAmbiguous, gramEmptyAmbiguous),
  (textEmptyFirstNested, gramEmptyFirstNested),
  (textOptionalWhitespace, gramOptionalWhitespace),
  (textQualifiedWhitespace, gramQualifiedWhitespace),
  (textEmptyNoopInfinite, gramEmptyNoopInfinite),
  (textMath, gramMath),
  (textSharedNonterminalFailure, gramSharedNonterminalFailure),
  (textSwapLeftRightRecursionLeft, gramSwapLeftRightRecursionLeft),
  (textSwapLeftRightRecursionRight, gramSwapLeftRightRecursionRight),
  (textSharedNullableNonterminal, gramSharedNullableNonterminal),
  (textBranchingAndOverlappingParseTrees, gramBranchingAndOverlappingParseTrees)]

end Bnf.Spec
