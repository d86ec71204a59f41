import Verif.Model.Display
import Verif.Model.Text
import Verif.Model.Earley

/-!
# The model against the recorded outputs of the crate

`tests/parse_input.rs` of the crate compares the printed parse trees of 35 grammars and inputs with outputs recorded from runs of the
code (`tests/snapshots/*.snap`).  Here the model reads the same grammar texts, parses the same inputs and prints the trees; the outputs
must be the recorded ones, character by character (white space at the end of the whole output excepted, as in `insta`).

These are tests of the model (checked by evaluation at each build), not proofs about the code; no property refers to this file.  A few
small cases are checked by the kernel too.
-/

set_option autoImplicit false

namespace Bnf.Conformance

/-- `Iterator::collect`, with fuel for the iterator and for the number of trees. -/
def drain (fuel : Nat) : Nat → ParseTreeIter → Option (List ParseTree)
  | 0, _ => none
  | n + 1, it => match it.next fuel with
    | .returned (none, _) => some []
    | .returned (some t, it) => (drain fuel n it).map (t :: ·)
    | _ => none

/-- `Iterator::take`. -/
def take (fuel : Nat) : Nat → ParseTreeIter → Option (List ParseTree)
  | 0, _ => some []
  | n + 1, it => match it.next fuel with
    | .returned (some t, it) => (take fuel n it).map (t :: ·)
    | _ => none

/-- White space at the end. -/
def trimEnd (s : Str) : Str := (s.reverse.dropWhile fun c => c == '\n' || c == ' ').reverse

/-- Read a grammar text, parse an input and print all trees (or the first four), as the tests of the crate do. -/
def output (grammar input : Str) (mermaid firstFour : Bool) : Option Str :=
  match Grammar.fromStr Char.isAlpha grammar with
  | some (.ok g) =>
    match g.parseInputDeprecated input with
    | some it =>
      match (if firstFour then take 10000 4 it else drain 10000 100 it) with
      | some ts => (if mermaid then (ts.mapM ParseTree.mermaid).map (['\n'].intercalate ·)
          else some (['\n'].intercalate (ts.map ParseTree.display))).map trimEnd
      | none => none
    | none => none
  | _ => none

/-! `undefined_prod_deprecated_parses` -/
#guard output "\n        <start> ::= <a> | <b>\n        <a> ::= 'a'\n        ".toList
    "a".toList false false ==
  some (trimEnd "<start> ::= <a>\n└── <a> ::= \"a\"\n    └── \"a\"\n".toList)

/-! `dna_left_recursive` -/
#guard output "<dna> ::= <base> | <dna> <base>\n        <base> ::= 'A' | 'C' | 'G' | 'T'".toList
    "GATTACA".toList false false ==
  some (trimEnd "<dna> ::= <dna> <base>\n├── <dna> ::= <dna> <base>\n│   ├── <dna> ::= <dna> <base>\n│   │   ├── <dna> ::= <dna> <base>\n│   │   │   ├── <dna> ::= <dna> <base>\n│   │   │   │   ├── <dna> ::= <dna> <base>\n│   │   │   │   │   ├── <dna> ::= <base>\n│   │   │   │   │   │   └── <base> ::= \"G\"\n│   │   │   │   │   │       └── \"G\"\n│   │   │   │   │   └── <base> ::= \"A\"\n│   │   │   │   │       └── \"A\"\n│   │   │   │   └── <base> ::= \"T\"\n│   │   │   │       └── \"T\"\n│   │   │   └── <base> ::= \"T\"\n│   │   │       └── \"T\"\n│   │   └── <base> ::= \"A\"\n│   │       └── \"A\"\n│   └── <base> ::= \"C\"\n│       └── \"C\"\n└── <base> ::= \"A\"\n    └── \"A\"\n\n".toList)

/-! `dna_right_recursive` -/
#guard output "<dna> ::= <base> | <base> <dna>\n        <base> ::= 'A' | 'C' | 'G' | 'T'".toList
    "GATTACA".toList false false ==
  some (trimEnd "<dna> ::= <base> <dna>\n├── <base> ::= \"G\"\n│   └── \"G\"\n└── <dna> ::= <base> <dna>\n    ├── <base> ::= \"A\"\n    │   └── \"A\"\n    └── <dna> ::= <base> <dna>\n        ├── <base> ::= \"T\"\n        │   └── \"T\"\n        └── <dna> ::= <base> <dna>\n            ├── <base> ::= \"T\"\n            │   └── \"T\"\n            └── <dna> ::= <base> <dna>\n                ├── <base> ::= \"A\"\n                │   └── \"A\"\n                └── <dna> ::= <base> <dna>\n                    ├── <base> ::= \"C\"\n                    │   └── \"C\"\n                    └── <dna> ::= <base>\n                        └── <base> ::= \"A\"\n                            └── \"A\"\n\n".toList)

/-! `dna_annotated_grammar_parses_input` -/
#guard output "; the building blocks of life!\n<dna> ::= <base> | <base> <dna>\n<base> ::= 'A' | 'C' | 'G' | 'T' ;(Adenine, Cytosine, Guanine, and Thymine)\n; the end 📖".toList
    "GATTACA".toList false false ==
  some (trimEnd "<dna> ::= <base> <dna>\n├── <base> ::= \"G\"\n│   └── \"G\"\n└── <dna> ::= <base> <dna>\n    ├── <base> ::= \"A\"\n    │   └── \"A\"\n    └── <dna> ::= <base> <dna>\n        ├── <base> ::= \"T\"\n        │   └── \"T\"\n        └── <dna> ::= <base> <dna>\n            ├── <base> ::= \"T\"\n            │   └── \"T\"\n            └── <dna> ::= <base> <dna>\n                ├── <base> ::= \"A\"\n                │   └── \"A\"\n                └── <dna> ::= <base> <dna>\n                    ├── <base> ::= \"C\"\n                    │   └── \"C\"\n                    └── <dna> ::= <base>\n                        └── <base> ::= \"A\"\n                            └── \"A\"\n".toList)

/-! `ambiguous` -/
#guard output "<start> ::= <a> | <b>\n        <a> ::= 'END'\n        <b> ::= 'END'".toList
    "END".toList false false ==
  some (trimEnd "<start> ::= <a>\n└── <a> ::= \"END\"\n    └── \"END\"\n\n<start> ::= <b>\n└── <b> ::= \"END\"\n    └── \"END\"\n\n".toList)

/-! `recursive_nested_infinite` -/
#guard output "\n            <a> ::= <b> | 'z'\n            <b> ::= <a> \n        ".toList
    "z".toList false true ==
  some (trimEnd "<a> ::= \"z\"\n└── \"z\"\n\n<a> ::= <b>\n└── <b> ::= <a>\n    └── <a> ::= \"z\"\n        └── \"z\"\n\n<a> ::= <b>\n└── <b> ::= <a>\n    └── <a> ::= <b>\n        └── <b> ::= <a>\n            └── <a> ::= \"z\"\n                └── \"z\"\n\n<a> ::= <b>\n└── <b> ::= <a>\n    └── <a> ::= <b>\n        └── <b> ::= <a>\n            └── <a> ::= <b>\n                └── <b> ::= <a>\n                    └── <a> ::= \"z\"\n                        └── \"z\"\n\n".toList)

/-! `empty_right_recursive` -/
#guard output "<a> ::= '' | 'a' <a>".toList
    "aaaaaaaaaa".toList false false ==
  some (trimEnd "<a> ::= \"a\" <a>\n├── \"a\"\n└── <a> ::= \"a\" <a>\n    ├── \"a\"\n    └── <a> ::= \"a\" <a>\n        ├── \"a\"\n        └── <a> ::= \"a\" <a>\n            ├── \"a\"\n            └── <a> ::= \"a\" <a>\n                ├── \"a\"\n                └── <a> ::= \"a\" <a>\n                    ├── \"a\"\n                    └── <a> ::= \"a\" <a>\n                        ├── \"a\"\n                        └── <a> ::= \"a\" <a>\n                            ├── \"a\"\n                            └── <a> ::= \"a\" <a>\n                                ├── \"a\"\n                                └── <a> ::= \"a\" <a>\n                                    ├── \"a\"\n                                    └── <a> ::= \"\"\n                                        └── \"\"\n\n".toList)

/-! `empty_left_recursive` -/
#guard output "<a> ::= '' | <a> 'a'".toList
    "aaaaaaaaaa".toList false false ==
  some (trimEnd "<a> ::= <a> \"a\"\n├── <a> ::= <a> \"a\"\n│   ├── <a> ::= <a> \"a\"\n│   │   ├── <a> ::= <a> \"a\"\n│   │   │   ├── <a> ::= <a> \"a\"\n│   │   │   │   ├── <a> ::= <a> \"a\"\n│   │   │   │   │   ├── <a> ::= <a> \"a\"\n│   │   │   │   │   │   ├── <a> ::= <a> \"a\"\n│   │   │   │   │   │   │   ├── <a> ::= <a> \"a\"\n│   │   │   │   │   │   │   │   ├── <a> ::= <a> \"a\"\n│   │   │   │   │   │   │   │   │   ├── <a> ::= \"\"\n│   │   │   │   │   │   │   │   │   │   └── \"\"\n│   │   │   │   │   │   │   │   │   └── \"a\"\n│   │   │   │   │   │   │   │   └── \"a\"\n│   │   │   │   │   │   │   └── \"a\"\n│   │   │   │   │   │   └── \"a\"\n│   │   │   │   │   └── \"a\"\n│   │   │   │   └── \"a\"\n│   │   │   └── \"a\"\n│   │   └── \"a\"\n│   └── \"a\"\n└── \"a\"\n\n".toList)

/-! `complete_empty` -/
#guard output "<start> ::= 'hi' <empty>\n        <empty> ::= ''".toList
    "hi".toList false false ==
  some (trimEnd "<start> ::= \"hi\" <empty>\n├── \"hi\"\n└── <empty> ::= \"\"\n    └── \"\"\n\n".toList)

/-! `empty` -/
#guard output "<start> ::= ''".toList
    "".toList false false ==
  some (trimEnd "<start> ::= \"\"\n└── \"\"\n\n".toList)

/-! `nested_empty_post` -/
#guard output "\n        <start> ::= <a> <empty>\n        <a> ::= 'a' <empty>\n        <empty> ::= ''".toList
    "a".toList false false ==
  some (trimEnd "<start> ::= <a> <empty>\n├── <a> ::= \"a\" <empty>\n│   ├── \"a\"\n│   └── <empty> ::= \"\"\n│       └── \"\"\n└── <empty> ::= \"\"\n    └── \"\"\n\n".toList)

/-! `nested_empty_pre` -/
#guard output "\n        <start> ::= <empty> <a>\n        <a> ::= <empty> 'a'\n        <empty> ::= ''".toList
    "a".toList false false ==
  some (trimEnd "<start> ::= <empty> <a>\n├── <empty> ::= \"\"\n│   └── \"\"\n└── <a> ::= <empty> \"a\"\n    ├── <empty> ::= \"\"\n    │   └── \"\"\n    └── \"a\"\n\n".toList)

/-! `nested_empty_pre_and_post` -/
#guard output "\n        <start> ::= <empty> <a> <empty>\n        <a> ::= <empty> 'a' <empty>\n        <empty> ::= ''".toList
    "a".toList false false ==
  some (trimEnd "<start> ::= <empty> <a> <empty>\n├── <empty> ::= \"\"\n│   └── \"\"\n├── <a> ::= <empty> \"a\" <empty>\n│   ├── <empty> ::= \"\"\n│   │   └── \"\"\n│   ├── \"a\"\n│   └── <empty> ::= \"\"\n│       └── \"\"\n└── <empty> ::= \"\"\n    └── \"\"\n\n".toList)

/-! `empty_inline` -/
#guard output "\n        <start> ::= <a> '' <a>\n        <a> ::= 'a'".toList
    "aa".toList false false ==
  some (trimEnd "<start> ::= <a> \"\" <a>\n├── <a> ::= \"a\"\n│   └── \"a\"\n├── \"\"\n└── <a> ::= \"a\"\n    └── \"a\"\n\n".toList)

/-! `empty_ambiguous` -/
#guard output "\n        <start> ::= <a> | <b>\n        <a> ::= ''\n        <b> ::= ''".toList
    "".toList false false ==
  some (trimEnd "<start> ::= <a>\n└── <a> ::= \"\"\n    └── \"\"\n\n<start> ::= <b>\n└── <b> ::= \"\"\n    └── \"\"\n\n".toList)

/-! `empty_first_nested` -/
#guard output "\n        <a> ::= '' | '' <b> <c>\n        <b> ::= <c>\n        <c> ::= <a>\n        ".toList
    "".toList false true ==
  some (trimEnd "<a> ::= \"\"\n└── \"\"\n\n<a> ::= \"\" <b> <c>\n├── \"\"\n├── <b> ::= <c>\n│   └── <c> ::= <a>\n│       └── <a> ::= \"\"\n│           └── \"\"\n└── <c> ::= <a>\n    └── <a> ::= \"\"\n        └── \"\"\n\n<a> ::= \"\" <b> <c>\n├── \"\"\n├── <b> ::= <c>\n│   └── <c> ::= <a>\n│       └── <a> ::= \"\"\n│           └── \"\"\n└── <c> ::= <a>\n    └── <a> ::= \"\" <b> <c>\n        ├── \"\"\n        ├── <b> ::= <c>\n        │   └── <c> ::= <a>\n        │       └── <a> ::= \"\"\n        │           └── \"\"\n        └── <c> ::= <a>\n            └── <a> ::= \"\"\n                └── \"\"\n\n<a> ::= \"\" <b> <c>\n├── \"\"\n├── <b> ::= <c>\n│   └── <c> ::= <a>\n│       └── <a> ::= \"\" <b> <c>\n│           ├── \"\"\n│           ├── <b> ::= <c>\n│           │   └── <c> ::= <a>\n│           │       └── <a> ::= \"\"\n│           │           └── \"\"\n│           └── <c> ::= <a>\n│               └── <a> ::= \"\"\n│                   └── \"\"\n└── <c> ::= <a>\n    └── <a> ::= \"\"\n        └── \"\"\n\n".toList)

/-! `optional_whitespace` -/
#guard output "\n        <balanced> ::= <left> <balanced> <right>\n                     | ''\n        \n        <left> ::= <opt-ws> '(' <opt-ws>\n        <right> ::= <opt-ws> ')' <opt-ws>\n        \n        <opt-ws> ::= '' | <ws>\n        <ws> ::= ' ' | ' ' <ws>\n        ".toList
    "()".toList false false ==
  some (trimEnd "<balanced> ::= <left> <balanced> <right>\n├── <left> ::= <opt-ws> \"(\" <opt-ws>\n│   ├── <opt-ws> ::= \"\"\n│   │   └── \"\"\n│   ├── \"(\"\n│   └── <opt-ws> ::= \"\"\n│       └── \"\"\n├── <balanced> ::= \"\"\n│   └── \"\"\n└── <right> ::= <opt-ws> \")\" <opt-ws>\n    ├── <opt-ws> ::= \"\"\n    │   └── \"\"\n    ├── \")\"\n    └── <opt-ws> ::= \"\"\n        └── \"\"\n\n".toList)

/-! `qualified_whitespace` -/
#guard output "\n        <terms> ::= <terms> <ws> <term>\n                  | <term>\n        <term> ::= <qualified>\n                 | 'unqualified'\n        <qualified> ::= 'QUALIFIER:' <qual-term>\n        <qual-term> ::= <qual-term> <ws>\n                      | 'qualified'\n        <ws> ::= ' ' | ' ' <ws>\n        ".toList
    "QUALIFIER:qualified unqualified".toList false false ==
  some (trimEnd "<terms> ::= <terms> <ws> <term>\n├── <terms> ::= <term>\n│   └── <term> ::= <qualified>\n│       └── <qualified> ::= \"QUALIFIER:\" <qual-term>\n│           ├── \"QUALIFIER:\"\n│           └── <qual-term> ::= \"qualified\"\n│               └── \"qualified\"\n├── <ws> ::= \" \"\n│   └── \" \"\n└── <term> ::= \"unqualified\"\n    └── \"unqualified\"\n\n".toList)

/-! `empty_noop_infinite` -/
#guard output "\n        <a> ::= '' | <b>\n        <b> ::= <a>".toList
    "".toList false true ==
  some (trimEnd "<a> ::= \"\"\n└── \"\"\n\n<a> ::= <b>\n└── <b> ::= <a>\n    └── <a> ::= \"\"\n        └── \"\"\n\n<a> ::= <b>\n└── <b> ::= <a>\n    └── <a> ::= <b>\n        └── <b> ::= <a>\n            └── <a> ::= \"\"\n                └── \"\"\n\n<a> ::= <b>\n└── <b> ::= <a>\n    └── <a> ::= <b>\n        └── <b> ::= <a>\n            └── <a> ::= <b>\n                └── <b> ::= <a>\n                    └── <a> ::= \"\"\n                        └── \"\"\n\n".toList)

/-! `math` -/
#guard output "<sum> ::= <sum> <add> <product>\n            <sum> ::= <product>\n            <product> ::= <product> <mult> <factor>\n            <product> ::= <factor>\n            <add> ::= '+' | '-'\n            <mult> ::= '*' | '/'\n            <factor> ::= '(' <sum> ')'\n            <factor> ::= <number>\n            <number> ::= <digit> <number>\n            <number> ::= <digit>\n            <digit> ::= '0' | '1' | '2' | '3' | '4' | '5' | '6' | '7' | '8' | '9'\n        ".toList
    "1+(2*3-4)".toList false false ==
  some (trimEnd "<sum> ::= <sum> <add> <product>\n├── <sum> ::= <product>\n│   └── <product> ::= <factor>\n│       └── <factor> ::= <number>\n│           └── <number> ::= <digit>\n│               └── <digit> ::= \"1\"\n│                   └── \"1\"\n├── <add> ::= \"+\"\n│   └── \"+\"\n└── <product> ::= <factor>\n    └── <factor> ::= \"(\" <sum> \")\"\n        ├── \"(\"\n        ├── <sum> ::= <sum> <add> <product>\n        │   ├── <sum> ::= <product>\n        │   │   └── <product> ::= <product> <mult> <factor>\n        │   │       ├── <product> ::= <factor>\n        │   │       │   └── <factor> ::= <number>\n        │   │       │       └── <number> ::= <digit>\n        │   │       │           └── <digit> ::= \"2\"\n        │   │       │               └── \"2\"\n        │   │       ├── <mult> ::= \"*\"\n        │   │       │   └── \"*\"\n        │   │       └── <factor> ::= <number>\n        │   │           └── <number> ::= <digit>\n        │   │               └── <digit> ::= \"3\"\n        │   │                   └── \"3\"\n        │   ├── <add> ::= \"-\"\n        │   │   └── \"-\"\n        │   └── <product> ::= <factor>\n        │       └── <factor> ::= <number>\n        │           └── <number> ::= <digit>\n        │               └── <digit> ::= \"4\"\n        │                   └── \"4\"\n        └── \")\"\n\n".toList)

/-! `parse_dna` -/
#guard output "<dna> ::= <base> | <base> <dna>\n        <base> ::= 'A' | 'C' | 'G' | 'T'".toList
    "GATTACA".toList false false ==
  some (trimEnd "<dna> ::= <base> <dna>\n├── <base> ::= \"G\"\n│   └── \"G\"\n└── <dna> ::= <base> <dna>\n    ├── <base> ::= \"A\"\n    │   └── \"A\"\n    └── <dna> ::= <base> <dna>\n        ├── <base> ::= \"T\"\n        │   └── \"T\"\n        └── <dna> ::= <base> <dna>\n            ├── <base> ::= \"T\"\n            │   └── \"T\"\n            └── <dna> ::= <base> <dna>\n                ├── <base> ::= \"A\"\n                │   └── \"A\"\n                └── <dna> ::= <base> <dna>\n                    ├── <base> ::= \"C\"\n                    │   └── \"C\"\n                    └── <dna> ::= <base>\n                        └── <base> ::= \"A\"\n                            └── \"A\"\n\n".toList)

/-! `shared_nonterminal_failure` -/
#guard output "\n        <start> ::= <shortfail> | <longsuccess>\n        <shortfail> ::= <char> 'never'\n        <char> ::= 'a'\n        <longsuccess> ::= <long2>\n        <long2> ::= <long3>\n        <long3> ::= <long4>\n        <long4> ::= <char>\n        ".toList
    "a".toList false false ==
  some (trimEnd "<start> ::= <longsuccess>\n└── <longsuccess> ::= <long2>\n    └── <long2> ::= <long3>\n        └── <long3> ::= <long4>\n            └── <long4> ::= <char>\n                └── <char> ::= \"a\"\n                    └── \"a\"\n\n".toList)

/-! `swap_left_right_recursion` -/
#guard output "\n        <conjunction> ::= <conjunction> <ws> <predicate> | <predicate>\n        <predicate> ::= <string_null_one> | <special-string> '.'\n        <string_null_one> ::= <string_null_two>\n        <string_null_two> ::= <string_null_three>\n        <string_null_three> ::= <string>\n        <string> ::= <char_null> | <string> <char_null>\n        <special-string> ::= <special-char> | <special-string> <special-char>\n        <char_null> ::= <char>\n        <char> ::= 'a'\n        <special-char> ::= <char_null> | <whitespace>\n        <whitespace> ::= ' '\n        <ws> ::= ' ' | ' ' <ws>\n        ".toList
    "aa a".toList false false ==
  some (trimEnd "<conjunction> ::= <conjunction> <ws> <predicate>\n├── <conjunction> ::= <predicate>\n│   └── <predicate> ::= <string_null_one>\n│       └── <string_null_one> ::= <string_null_two>\n│           └── <string_null_two> ::= <string_null_three>\n│               └── <string_null_three> ::= <string>\n│                   └── <string> ::= <string> <char_null>\n│                       ├── <string> ::= <char_null>\n│                       │   └── <char_null> ::= <char>\n│                       │       └── <char> ::= \"a\"\n│                       │           └── \"a\"\n│                       └── <char_null> ::= <char>\n│                           └── <char> ::= \"a\"\n│                               └── \"a\"\n├── <ws> ::= \" \"\n│   └── \" \"\n└── <predicate> ::= <string_null_one>\n    └── <string_null_one> ::= <string_null_two>\n        └── <string_null_two> ::= <string_null_three>\n            └── <string_null_three> ::= <string>\n                └── <string> ::= <char_null>\n                    └── <char_null> ::= <char>\n                        └── <char> ::= \"a\"\n                            └── \"a\"\n\n".toList)

/-! `swap_left_right_recursion_2` -/
#guard output "\n        <conjunction> ::= <conjunction> <ws> <predicate> | <predicate>\n        <predicate> ::= <string_null_one> | <special-string> '.'\n        <string_null_one> ::= <string_null_two>\n        <string_null_two> ::= <string_null_three>\n        <string_null_three> ::= <string>\n        <string> ::= <char_null> | <char_null> <string>\n        <special-string> ::= <special-char> | <special-string> <special-char>\n        <char_null> ::= <char>\n        <char> ::= 'a'\n        <special-char> ::= <char_null> | <whitespace>\n        <whitespace> ::= ' '\n        <ws> ::= ' ' | ' ' <ws>\n        ".toList
    "aa a".toList false false ==
  some (trimEnd "<conjunction> ::= <conjunction> <ws> <predicate>\n├── <conjunction> ::= <predicate>\n│   └── <predicate> ::= <string_null_one>\n│       └── <string_null_one> ::= <string_null_two>\n│           └── <string_null_two> ::= <string_null_three>\n│               └── <string_null_three> ::= <string>\n│                   └── <string> ::= <char_null> <string>\n│                       ├── <char_null> ::= <char>\n│                       │   └── <char> ::= \"a\"\n│                       │       └── \"a\"\n│                       └── <string> ::= <char_null>\n│                           └── <char_null> ::= <char>\n│                               └── <char> ::= \"a\"\n│                                   └── \"a\"\n├── <ws> ::= \" \"\n│   └── \" \"\n└── <predicate> ::= <string_null_one>\n    └── <string_null_one> ::= <string_null_two>\n        └── <string_null_two> ::= <string_null_three>\n            └── <string_null_three> ::= <string>\n                └── <string> ::= <char_null>\n                    └── <char_null> ::= <char>\n                        └── <char> ::= \"a\"\n                            └── \"a\"\n\n".toList)

/-! `shared_nullable_nonterminal` -/
#guard output "\n        <disjunction> ::= <predicate> | <disjunction> <or> <predicate>\n        <predicate> ::= <char_null_one> | <special-string> '.'\n\n        <char_null_one> ::= <char_null_two>\n        <char_null_two> ::= <char_null_three>\n        <char_null_three> ::= <char>\n\n        <or> ::= <ws> 'or' <ws>\n        <ws> ::= <whitespace> | ' ' <ws>\n        <whitespace> ::= ' '\n\n        <special-string> ::= <special-char> | <special-char> <special-string>\n        <special-char> ::= <char> | <whitespace>\n        <char> ::= 'a'\n        ".toList
    "a or a".toList false false ==
  some (trimEnd "<disjunction> ::= <disjunction> <or> <predicate>\n├── <disjunction> ::= <predicate>\n│   └── <predicate> ::= <char_null_one>\n│       └── <char_null_one> ::= <char_null_two>\n│           └── <char_null_two> ::= <char_null_three>\n│               └── <char_null_three> ::= <char>\n│                   └── <char> ::= \"a\"\n│                       └── \"a\"\n├── <or> ::= <ws> \"or\" <ws>\n│   ├── <ws> ::= <whitespace>\n│   │   └── <whitespace> ::= \" \"\n│   │       └── \" \"\n│   ├── \"or\"\n│   └── <ws> ::= <whitespace>\n│       └── <whitespace> ::= \" \"\n│           └── \" \"\n└── <predicate> ::= <char_null_one>\n    └── <char_null_one> ::= <char_null_two>\n        └── <char_null_two> ::= <char_null_three>\n            └── <char_null_three> ::= <char>\n                └── <char> ::= \"a\"\n                    └── \"a\"\n\n".toList)

/-! `branching_and_overlapping_parse_trees` -/
#guard output "\n        <and> ::= <and> ' AND ' <terminal>\n                | <and> ' ' <terminal>\n                | <terminal>\n        <terminal> ::= 'AND'\n        ".toList
    "AND AND AND AND AND".toList false false ==
  some (trimEnd "<and> ::= <and> \" AND \" <terminal>\n├── <and> ::= <and> \" AND \" <terminal>\n│   ├── <and> ::= <terminal>\n│   │   └── <terminal> ::= \"AND\"\n│   │       └── \"AND\"\n│   ├── \" AND \"\n│   └── <terminal> ::= \"AND\"\n│       └── \"AND\"\n├── \" AND \"\n└── <terminal> ::= \"AND\"\n    └── \"AND\"\n\n<and> ::= <and> \" AND \" <terminal>\n├── <and> ::= <and> \" \" <terminal>\n│   ├── <and> ::= <and> \" \" <terminal>\n│   │   ├── <and> ::= <terminal>\n│   │   │   └── <terminal> ::= \"AND\"\n│   │   │       └── \"AND\"\n│   │   ├── \" \"\n│   │   └── <terminal> ::= \"AND\"\n│   │       └── \"AND\"\n│   ├── \" \"\n│   └── <terminal> ::= \"AND\"\n│       └── \"AND\"\n├── \" AND \"\n└── <terminal> ::= \"AND\"\n    └── \"AND\"\n\n<and> ::= <and> \" \" <terminal>\n├── <and> ::= <and> \" \" <terminal>\n│   ├── <and> ::= <and> \" AND \" <terminal>\n│   │   ├── <and> ::= <terminal>\n│   │   │   └── <terminal> ::= \"AND\"\n│   │   │       └── \"AND\"\n│   │   ├── \" AND \"\n│   │   └── <terminal> ::= \"AND\"\n│   │       └── \"AND\"\n│   ├── \" \"\n│   └── <terminal> ::= \"AND\"\n│       └── \"AND\"\n├── \" \"\n└── <terminal> ::= \"AND\"\n    └── \"AND\"\n\n<and> ::= <and> \" \" <terminal>\n├── <and> ::= <and> \" AND \" <terminal>\n│   ├── <and> ::= <and> \" \" <terminal>\n│   │   ├── <and> ::= <terminal>\n│   │   │   └── <terminal> ::= \"AND\"\n│   │   │       └── \"AND\"\n│   │   ├── \" \"\n│   │   └── <terminal> ::= \"AND\"\n│   │       └── \"AND\"\n│   ├── \" AND \"\n│   └── <terminal> ::= \"AND\"\n│       └── \"AND\"\n├── \" \"\n└── <terminal> ::= \"AND\"\n    └── \"AND\"\n\n<and> ::= <and> \" \" <terminal>\n├── <and> ::= <and> \" \" <terminal>\n│   ├── <and> ::= <and> \" \" <terminal>\n│   │   ├── <and> ::= <and> \" \" <terminal>\n│   │   │   ├── <and> ::= <terminal>\n│   │   │   │   └── <terminal> ::= \"AND\"\n│   │   │   │       └── \"AND\"\n│   │   │   ├── \" \"\n│   │   │   └── <terminal> ::= \"AND\"\n│   │   │       └── \"AND\"\n│   │   ├── \" \"\n│   │   └── <terminal> ::= \"AND\"\n│   │       └── \"AND\"\n│   ├── \" \"\n│   └── <terminal> ::= \"AND\"\n│       └── \"AND\"\n├── \" \"\n└── <terminal> ::= \"AND\"\n    └── \"AND\"\n\n".toList)

/-! `format_parse_tree` -/
#guard output "<dna> ::= <base> | <base> <dna>\n        <base> ::= 'A' | 'C' | 'G' | 'T'".toList
    "GATTACA".toList false false ==
  some (trimEnd "<dna> ::= <base> <dna>\n├── <base> ::= \"G\"\n│   └── \"G\"\n└── <dna> ::= <base> <dna>\n    ├── <base> ::= \"A\"\n    │   └── \"A\"\n    └── <dna> ::= <base> <dna>\n        ├── <base> ::= \"T\"\n        │   └── \"T\"\n        └── <dna> ::= <base> <dna>\n            ├── <base> ::= \"T\"\n            │   └── \"T\"\n            └── <dna> ::= <base> <dna>\n                ├── <base> ::= \"A\"\n                │   └── \"A\"\n                └── <dna> ::= <base> <dna>\n                    ├── <base> ::= \"C\"\n                    │   └── \"C\"\n                    └── <dna> ::= <base>\n                        └── <base> ::= \"A\"\n                            └── \"A\"\n\n".toList)

/-! `mermaid_dna_parse_tree` -/
#guard output "<dna> ::= <base> | <base> <dna>\n        <base> ::= 'A' | 'C' | 'G' | 'T'".toList
    "GATTACA".toList true false ==
  some (trimEnd "flowchart TD\n0[\"dna\"] --> 1[\"base\"]\n1[\"base\"] --> 2[\"G\"]\n0[\"dna\"] --> 3[\"dna\"]\n3[\"dna\"] --> 4[\"base\"]\n4[\"base\"] --> 5[\"A\"]\n3[\"dna\"] --> 6[\"dna\"]\n6[\"dna\"] --> 7[\"base\"]\n7[\"base\"] --> 8[\"T\"]\n6[\"dna\"] --> 9[\"dna\"]\n9[\"dna\"] --> 10[\"base\"]\n10[\"base\"] --> 11[\"T\"]\n9[\"dna\"] --> 12[\"dna\"]\n12[\"dna\"] --> 13[\"base\"]\n13[\"base\"] --> 14[\"A\"]\n12[\"dna\"] --> 15[\"dna\"]\n15[\"dna\"] --> 16[\"base\"]\n16[\"base\"] --> 17[\"C\"]\n15[\"dna\"] --> 18[\"dna\"]\n18[\"dna\"] --> 19[\"base\"]\n19[\"base\"] --> 20[\"A\"]\n\n".toList)

/-! `mermaid_math_parse_tree` -/
#guard output "<sum> ::= <sum> <add> <product>\n            <sum> ::= <product>\n            <product> ::= <product> <mult> <factor>\n            <product> ::= <factor>\n            <add> ::= '+' | '-'\n            <mult> ::= '*' | '/'\n            <factor> ::= '(' <sum> ')'\n            <factor> ::= <number>\n            <number> ::= <digit> <number>\n            <number> ::= <digit>\n            <digit> ::= '0' | '1' | '2' | '3' | '4' | '5' | '6' | '7' | '8' | '9'\n        ".toList
    "1+(2*3-4)".toList true false ==
  some (trimEnd "flowchart TD\n0[\"sum\"] --> 1[\"sum\"]\n1[\"sum\"] --> 2[\"product\"]\n2[\"product\"] --> 3[\"factor\"]\n3[\"factor\"] --> 4[\"number\"]\n4[\"number\"] --> 5[\"digit\"]\n5[\"digit\"] --> 6[\"1\"]\n0[\"sum\"] --> 7[\"add\"]\n7[\"add\"] --> 8[\"+\"]\n0[\"sum\"] --> 9[\"product\"]\n9[\"product\"] --> 10[\"factor\"]\n10[\"factor\"] --> 11[\"(\"]\n10[\"factor\"] --> 12[\"sum\"]\n12[\"sum\"] --> 13[\"sum\"]\n13[\"sum\"] --> 14[\"product\"]\n14[\"product\"] --> 15[\"product\"]\n15[\"product\"] --> 16[\"factor\"]\n16[\"factor\"] --> 17[\"number\"]\n17[\"number\"] --> 18[\"digit\"]\n18[\"digit\"] --> 19[\"2\"]\n14[\"product\"] --> 20[\"mult\"]\n20[\"mult\"] --> 21[\"*\"]\n14[\"product\"] --> 22[\"factor\"]\n22[\"factor\"] --> 23[\"number\"]\n23[\"number\"] --> 24[\"digit\"]\n24[\"digit\"] --> 25[\"3\"]\n12[\"sum\"] --> 26[\"add\"]\n26[\"add\"] --> 27[\"-\"]\n12[\"sum\"] --> 28[\"product\"]\n28[\"product\"] --> 29[\"factor\"]\n29[\"factor\"] --> 30[\"number\"]\n30[\"number\"] --> 31[\"digit\"]\n31[\"digit\"] --> 32[\"4\"]\n10[\"factor\"] --> 33[\")\"]\n\n".toList)

/-! `mermaid_punctuation_double_quote_terminal` -/
#guard output "<q> ::= '\"'\n        ".toList
    "\"".toList true false ==
  some (trimEnd "flowchart TD\n0[\"q\"] --> 1[\"#34;\"]\n".toList)

/-! `mermaid_punctuation_closing_bracket_terminal` -/
#guard output "<b> ::= ']'\n        ".toList
    "]".toList true false ==
  some (trimEnd "flowchart TD\n0[\"b\"] --> 1[\"#93;\"]\n".toList)

/-! `mermaid_punctuation_opening_bracket_terminal` -/
#guard output "<b> ::= '['\n        ".toList
    "[".toList true false ==
  some (trimEnd "flowchart TD\n0[\"b\"] --> 1[\"#91;\"]\n".toList)

/-! `mermaid_punctuation_backslash_terminal` -/
#guard output "<b> ::= '\\\\'".toList
    "\\".toList true false ==
  some (trimEnd "\n".toList)

/-! `mermaid_punctuation_slash_and_angle_brackets` -/
#guard output "<expr> ::= '/'\n        ".toList
    "/".toList true false ==
  some (trimEnd "flowchart TD\n0[\"expr\"] --> 1[\"/\"]\n".toList)

/-! `mermaid_silly_syntax_salad` -/
#guard output "\n        <list> ::= '[' <items> ']'\n        <items> ::= <string> ',' <items> | <string>\n        <string> ::= '\"foo\"' | '\"bar\"' | '\"baz\"'\n        ".toList
    "[\"foo\",\"bar\",\"baz\"]".toList true false ==
  some (trimEnd "flowchart TD\n0[\"list\"] --> 1[\"#91;\"]\n0[\"list\"] --> 2[\"items\"]\n2[\"items\"] --> 3[\"string\"]\n3[\"string\"] --> 4[\"#34;foo#34;\"]\n2[\"items\"] --> 5[\",\"]\n2[\"items\"] --> 6[\"items\"]\n6[\"items\"] --> 7[\"string\"]\n7[\"string\"] --> 8[\"#34;bar#34;\"]\n6[\"items\"] --> 9[\",\"]\n6[\"items\"] --> 10[\"items\"]\n10[\"items\"] --> 11[\"string\"]\n11[\"string\"] --> 12[\"#34;baz#34;\"]\n0[\"list\"] --> 13[\"#93;\"]\n".toList)

/-! The smallest again, by the kernel. -/

example : output "\n        <start> ::= <a> | <b>\n        <a> ::= 'a'\n        ".toList "a".toList false false =
    some (trimEnd "<start> ::= <a>\n└── <a> ::= \"a\"\n    └── \"a\"\n".toList) := by decide +kernel

example : output "<start> ::= <a> | <b>\n        <a> ::= 'END'\n        <b> ::= 'END'".toList "END".toList false false =
    some (trimEnd "<start> ::= <a>\n└── <a> ::= \"END\"\n    └── \"END\"\n\n<start> ::= <b>\n└── <b> ::= \"END\"\n    └── \"END\"\n\n".toList) := by decide +kernel

example : output "<start> ::= 'hi' <empty>\n        <empty> ::= ''".toList "hi".toList false false =
    some (trimEnd "<start> ::= \"hi\" <empty>\n├── \"hi\"\n└── <empty> ::= \"\"\n    └── \"\"\n\n".toList) := by decide +kernel

example : output "<start> ::= ''".toList "".toList false false =
    some (trimEnd "<start> ::= \"\"\n└── \"\"\n\n".toList) := by decide +kernel

example : output "\n        <start> ::= <a> '' <a>\n        <a> ::= 'a'".toList "aa".toList false false =
    some (trimEnd "<start> ::= <a> \"\" <a>\n├── <a> ::= \"a\"\n│   └── \"a\"\n├── \"\"\n└── <a> ::= \"a\"\n    └── \"a\"\n\n".toList) := by decide +kernel

example : output "\n        <start> ::= <a> | <b>\n        <a> ::= ''\n        <b> ::= ''".toList "".toList false false =
    some (trimEnd "<start> ::= <a>\n└── <a> ::= \"\"\n    └── \"\"\n\n<start> ::= <b>\n└── <b> ::= \"\"\n    └── \"\"\n\n".toList) := by decide +kernel

end Bnf.Conformance
