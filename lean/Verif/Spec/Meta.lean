import Verif.Model.Basic

/-!
# The grammar for grammars that the crate's tests use

`tests/grammar.rs` reads the files `tests/fixtures/bnf.bnf` and `tests/fixtures/bnf.abnf`, checks that they give the same grammar, generates
sentences from it and checks that each of them is again accepted by `Grammar::from_str`.
-/

set_option autoImplicit false

namespace Bnf.Spec
open Bnf

/-- `tests/fixtures/bnf.bnf`, the whole file. -/
def bnfForBnf : Str :=
  [';', 'a', 'u', 't', 'o', 'd', 'e', 't', 'e', 'c', 't', 'i', 'o', 'n', ' ', 'o', 'f', ' ', 'g', 'r', 'a', 'm', 'm', 'a', 'r', ' ', 'a', 'c',
  'c', 'o', 'u', 'n', 't', 's', ' ', 'f', 'o', 'r', ' ', 'c', 'o', 'm', 'm', 'e', 'n', 't', 's', '!', '(', 's', 'i', 'c', ')', '\n', '\n',
  '<', 's', 'y', 'n', 't', 'a', 'x', '>', ' ', ' ', ' ', ' ', ' ', ' ', ' ', ' ', ' ', ':', ':', '=', ' ', '<', 'r', 'u', 'l', 'e', '>', ' ',
  '|', ' ', '<', 'r', 'u', 'l', 'e', '>', ' ', '<', 's', 'y', 'n', 't', 'a', 'x', '>', '\n', '<', 'r', 'u', 'l', 'e', '>', ' ', ' ', ' ',
  ' ', ' ', ' ', ' ', ' ', ' ', ' ', ' ', ':', ':', '=', ' ', '<', 'o', 'p', 't', '-', 'w', 'h', 'i', 't', 'e', 's', 'p', 'a', 'c', 'e', '>',
  ' ', '"', '<', '"', ' ', '<', 'r', 'u', 'l', 'e', '-', 'n', 'a', 'm', 'e', '>', ' ', '"', '>', '"', '\n', ' ', ' ', ' ', ' ', ' ', ' ',
  ' ', ' ', ' ', ' ', ' ', ' ', ' ', ' ', ' ', ' ', ' ', ' ', ' ', ' ', ' ', '<', 'o', 'p', 't', '-', 'w', 'h', 'i', 't', 'e', 's', 'p', 'a',
  'c', 'e', '>', ' ', '"', ':', ':', '=', '"', ' ', '<', 'o', 'p', 't', '-', 'w', 'h', 'i', 't', 'e', 's', 'p', 'a', 'c', 'e', '>', '\n',
  ' ', ' ', ' ', ' ', ' ', ' ', ' ', ' ', ' ', ' ', ' ', ' ', ' ', ' ', ' ', ' ', ' ', ' ', ' ', ' ', ' ', '<', 'e', 'x', 'p', 'r', 'e', 's',
  's', 'i', 'o', 'n', '>', ' ', '<', 'l', 'i', 'n', 'e', '-', 'e', 'n', 'd', '>', '\n', '<', 'o', 'p', 't', '-', 'w', 'h', 'i', 't', 'e',
  's', 'p', 'a', 'c', 'e', '>', ' ', ':', ':', '=', ' ', '"', '"', ' ', '|', ' ', '"', ' ', '"', ' ', '<', 'o', 'p', 't', '-', 'w', 'h', 'i',
  't', 'e', 's', 'p', 'a', 'c', 'e', '>', '\n', '<', 'e', 'x', 'p', 'r', 'e', 's', 's', 'i', 'o', 'n', '>', ' ', ' ', ' ', ' ', ' ', ':',
  ':', '=', ' ', '<', 'l', 'i', 's', 't', '>', ' ', '|', ' ', '<', 'l', 'i', 's', 't', '>', ' ', '<', 'o', 'p', 't', '-', 'w', 'h', 'i', 't',
  'e', 's', 'p', 'a', 'c', 'e', '>', ' ', '"', '|', '"', '\n', ' ', ' ', ' ', ' ', ' ', ' ', ' ', ' ', ' ', ' ', ' ', ' ', ' ', ' ', ' ',
  ' ', ' ', ' ', ' ', ' ', ' ', '<', 'o', 'p', 't', '-', 'w', 'h', 'i', 't', 'e', 's', 'p', 'a', 'c', 'e', '>', ' ', '<', 'e', 'x', 'p', 'r',
  'e', 's', 's', 'i', 'o', 'n', '>', '\n', '<', 'l', 'i', 'n', 'e', '-', 'e', 'n', 'd', '>', ' ', ' ', ' ', ' ', ' ', ' ', ' ', ':', ':',
  '=', ' ', '<', 'o', 'p', 't', '-', 'w', 'h', 'i', 't', 'e', 's', 'p', 'a', 'c', 'e', '>', ' ', '<', 'E', 'O', 'L', '>', '\n', ';', 't',
  'h', 'a', 't', '\'', 's', ' ', 'j', 'u', 's', 't', ' ', 'h', 'o', 'w', ' ', 'i', 't', ' ', 'g', 'o', 'e', 's', '\n', '<', 'l', 'i', 's',
  't', '>', ' ', ' ', ' ', ' ', ' ', ' ', ' ', ' ', ' ', ' ', ' ', ':', ':', '=', ' ', '<', 't', 'e', 'r', 'm', '>', ' ', '|', ' ', '<', 't',
  'e', 'r', 'm', '>', ' ', '<', 'o', 'p', 't', '-', 'w', 'h', 'i', 't', 'e', 's', 'p', 'a', 'c', 'e', '>', ' ', '<', 'l', 'i', 's', 't', '>',
  '\n', '<', 't', 'e', 'r', 'm', '>', ' ', ' ', ' ', ' ', ' ', ' ', ' ', ' ', ' ', ' ', ' ', ':', ':', '=', ' ', '<', 'l', 'i', 't', 'e',
  'r', 'a', 'l', '>', ' ', '|', ' ', '"', '<', '"', ' ', '<', 'r', 'u', 'l', 'e', '-', 'n', 'a', 'm', 'e', '>', ' ', '"', '>', '"', '\n',
  '<', 'l', 'i', 't', 'e', 'r', 'a', 'l', '>', ' ', ' ', ' ', ' ', ' ', ' ', ' ', ' ', ':', ':', '=', ' ', '\'', '"', '\'', ' ', '<', 't',
  'e', 'x', 't', '1', '>', ' ', '\'', '"', '\'', ' ', '|', ' ', '"', '\'', '"', ' ', '<', 't', 'e', 'x', 't', '2', '>', ' ', '"', '\'', '"',
  '\n', '<', 't', 'e', 'x', 't', '1', '>', ' ', ' ', ' ', ' ', ' ', ' ', ' ', ' ', ' ', ' ', ':', ':', '=', ' ', '"', '"', ' ', '|', ' ',
  '<', 'c', 'h', 'a', 'r', 'a', 'c', 't', 'e', 'r', '1', '>', ' ', '<', 't', 'e', 'x', 't', '1', '>', '\n', '<', 't', 'e', 'x', 't', '2',
  '>', ' ', ' ', ' ', ' ', ' ', ' ', ' ', ' ', ' ', ' ', ':', ':', '=', ' ', '"', '"', ' ', '|', ' ', '<', 'c', 'h', 'a', 'r', 'a', 'c', 't',
  'e', 'r', '2', '>', ' ', '<', 't', 'e', 'x', 't', '2', '>', ' ', ';', 'r', 'a', 'n', 'd', 'o', 'm', ' ', 'c', 'o', 'm', 'm', 'e', 'n', 't',
  '\n', '<', 'c', 'h', 'a', 'r', 'a', 'c', 't', 'e', 'r', '>', ' ', ' ', ' ', ' ', ' ', ' ', ':', ':', '=', ' ', '<', 'l', 'e', 't', 't',
  'e', 'r', '>', ' ', '|', ' ', '<', 'd', 'i', 'g', 'i', 't', '>', ' ', '|', ' ', '<', 's', 'y', 'm', 'b', 'o', 'l', '>', '\n', '<', 'l',
  'e', 't', 't', 'e', 'r', '>', ' ', ' ', ' ', ' ', ' ', ' ', ' ', ' ', ' ', ':', ':', '=', ' ', '"', 'A', '"', ' ', '|', ' ', '"', 'B', '"',
  ' ', '|', ' ', '"', 'C', '"', ' ', '|', ' ', '"', 'D', '"', ' ', '|', ' ', '"', 'E', '"', ' ', '|', ' ', '"', 'F', '"', '\n', ' ', ' ',
  ' ', ' ', ' ', ' ', ' ', ' ', ' ', ' ', ' ', ' ', ' ', ' ', ' ', ' ', ' ', ' ', ' ', ' ', '|', ' ', '"', 'G', '"', ' ', '|', ' ', '"', 'H',
  '"', ' ', '|', ' ', '"', 'I', '"', ' ', '|', ' ', '"', 'J', '"', ' ', '|', ' ', '"', 'K', '"', ' ', '|', ' ', '"', 'L', '"', '\n', ' ',
  ' ', ' ', ' ', ' ', ' ', ' ', ' ', ' ', ' ', ' ', ' ', ' ', ' ', ' ', ' ', ' ', ' ', ' ', ' ', '|', ' ', '"', 'M', '"', ' ', '|', ' ', '"',
  'N', '"', ' ', '|', ' ', '"', 'O', '"', ' ', '|', ' ', '"', 'P', '"', ' ', '|', ' ', '"', 'Q', '"', ' ', '|', ' ', '"', 'R', '"', '\n',
  ' ', ' ', ' ', ' ', ' ', ' ', ' ', ' ', ' ', ' ', ' ', ' ', ' ', ' ', ' ', ' ', ' ', ' ', ' ', ' ', '|', ' ', '"', 'S', '"', ' ', '|', ' ',
  '"', 'T', '"', ' ', '|', ' ', '"', 'U', '"', ' ', '|', ' ', '"', 'V', '"', ' ', '|', ' ', '"', 'W', '"', ' ', '|', ' ', '"', 'X', '"',
  '\n', ' ', ' ', ' ', ' ', ' ', ' ', ' ', ' ', ' ', ' ', ' ', ' ', ' ', ' ', ' ', ' ', ' ', ' ', ' ', ' ', '|', ' ', '"', 'Y', '"', ' ',
  '|', ' ', '"', 'Z', '"', ' ', '|', ' ', '"', 'a', '"', ' ', '|', ' ', '"', 'b', '"', ' ', '|', ' ', '"', 'c', '"', ' ', '|', ' ', '"', 'd',
  '"', '\n', ' ', ' ', ' ', ' ', ' ', ' ', ' ', ' ', ' ', ' ', ' ', ' ', ' ', ' ', ' ', ' ', ' ', ' ', ' ', ' ', '|', ' ', '"', 'e', '"',
  ' ', '|', ' ', '"', 'f', '"', ' ', '|', ' ', '"', 'g', '"', ' ', '|', ' ', '"', 'h', '"', ' ', '|', ' ', '"', 'i', '"', ' ', '|', ' ', '"',
  'j', '"', '\n', ' ', ' ', ' ', ' ', ' ', ' ', ' ', ' ', ' ', ' ', ' ', ' ', ' ', ' ', ' ', ' ', ' ', ' ', ' ', ' ', '|', ' ', '"', 'k',
  '"', ' ', '|', ' ', '"', 'l', '"', ' ', '|', ' ', '"', 'm', '"', ' ', '|', ' ', '"', 'n', '"', ' ', '|', ' ', '"', 'o', '"', ' ', '|', ' ',
  '"', 'p', '"', '\n', ' ', ' ', ' ', ' ', ' ', ' ', ' ', ' ', ' ', ' ', ' ', ' ', ' ', ' ', ' ', ' ', ' ', ' ', ' ', ' ', '|', ' ', '"',
  'q', '"', ' ', '|', ' ', '"', 'r', '"', ' ', '|', ' ', '"', 's', '"', ' ', '|', ' ', '"', 't', '"', ' ', '|', ' ', '"', 'u', '"', ' ', '|',
  ' ', '"', 'v', '"', '\n', ' ', ' ', ' ', ' ', ' ', ' ', ' ', ' ', ' ', ' ', ' ', ' ', ' ', ' ', ' ', ' ', ' ', ' ', ' ', ' ', '|', ' ',
  '"', 'w', '"', ' ', '|', ' ', '"', 'x', '"', ' ', '|', ' ', '"', 'y', '"', ' ', '|', ' ', '"', 'z', '"', '\n', '<', 'd', 'i', 'g', 'i',
  't', '>', ' ', ' ', ' ', ' ', ' ', ' ', ' ', ' ', ' ', ' ', ':', ':', '=', ' ', '"', '0', '"', ' ', '|', ' ', '"', '1', '"', ' ', '|', ' ',
  '"', '2', '"', ' ', '|', ' ', '"', '3', '"', ' ', '|', ' ', '"', '4', '"', ' ', '|', ' ', '"', '5', '"', '\n', ' ', ' ', ' ', ' ', ' ',
  ' ', ' ', ' ', ' ', ' ', ' ', ' ', ' ', ' ', ' ', ' ', ' ', ' ', ' ', ' ', '|', ' ', '"', '6', '"', ' ', '|', ' ', '"', '7', '"', ' ', '|',
  ' ', '"', '8', '"', ' ', '|', ' ', '"', '9', '"', '\n', '<', 's', 'y', 'm', 'b', 'o', 'l', '>', ' ', ' ', ' ', ' ', ' ', ' ', ' ', ' ',
  ' ', ':', ':', '=', ' ', ' ', '"', '|', '"', ' ', '|', ' ', '"', ' ', '"', ' ', '|', ' ', '"', '-', '"', ' ', '|', ' ', '"', '!', '"', ' ',
  '|', ' ', '"', '#', '"', ' ', '|', ' ', '"', '$', '"', '\n', ' ', ' ', ' ', ' ', ' ', ' ', ' ', ' ', ' ', ' ', ' ', ' ', ' ', ' ', ' ',
  ' ', ' ', ' ', ' ', ' ', '|', ' ', '"', '%', '"', ' ', '|', ' ', '"', '&', '"', ' ', '|', ' ', '"', '(', '"', ' ', '|', ' ', '"', ')', '"',
  ' ', '|', ' ', '"', '*', '"', ' ', '|', ' ', '"', '+', '"', '\n', ' ', ' ', ' ', ' ', ' ', ' ', ' ', ' ', ' ', ' ', ' ', ' ', ' ', ' ',
  ' ', ' ', ' ', ' ', ' ', ' ', '|', ' ', '"', ',', '"', ' ', '|', ' ', '"', '-', '"', ' ', '|', ' ', '"', '.', '"', ' ', '|', ' ', '"', '/',
  '"', ' ', '|', ' ', '"', ':', '"', ' ', '|', ' ', '"', ';', '"', '\n', ' ', ' ', ' ', ' ', ' ', ' ', ' ', ' ', ' ', ' ', ' ', ' ', ' ',
  ' ', ' ', ' ', ' ', ' ', ' ', ' ', '|', '"', '>', '"', ' ', '|', ' ', '"', '=', '"', ' ', '|', ' ', '"', '<', '"', ' ', '|', ' ', '"', '?',
  '"', ' ', '|', ' ', '"', '@', '"', ' ', '|', ' ', '"', '[', '"', '\n', ' ', ' ', ' ', ' ', ' ', ' ', ' ', ' ', ' ', ' ', ' ', ' ', ' ',
  ' ', ' ', ' ', ' ', ' ', ' ', ' ', '|', ' ', '"', '\\', '\\', '"', ' ', '|', ' ', '"', ']', '"', ' ', '|', ' ', '"', '^', '"', ' ', '|',
  ' ', '"', '_', '"', ' ', '|', ' ', '"', '`', '"', '\n', ' ', ' ', ' ', ' ', ' ', ' ', ' ', ' ', ' ', ' ', ' ', ' ', ' ', ' ', ' ', ' ',
  ' ', ' ', ' ', ' ', '|', ' ', '"', '{', '{', '"', ' ', '|', ' ', '"', '}', '}', '"', ' ', '|', ' ', '"', '~', '"', '\n', '<', 'c', 'h',
  'a', 'r', 'a', 'c', 't', 'e', 'r', '1', '>', ' ', ' ', ' ', ' ', ' ', ':', ':', '=', ' ', '<', 'c', 'h', 'a', 'r', 'a', 'c', 't', 'e', 'r',
  '>', ' ', '|', ' ', '"', '\'', '"', '\n', '<', 'c', 'h', 'a', 'r', 'a', 'c', 't', 'e', 'r', '2', '>', ' ', ' ', ' ', ' ', ' ', ':', ':',
  '=', ' ', '<', 'c', 'h', 'a', 'r', 'a', 'c', 't', 'e', 'r', '>', ' ', '|', ' ', '\'', '"', '\'', '\n', '<', 'r', 'u', 'l', 'e', '-', 'n',
  'a', 'm', 'e', '>', ' ', ' ', ' ', ' ', ' ', ' ', ':', ':', '=', ' ', '<', 'l', 'e', 't', 't', 'e', 'r', '>', ' ', '|', ' ', '<', 'r', 'u',
  'l', 'e', '-', 'n', 'a', 'm', 'e', '>', ' ', '<', 'r', 'u', 'l', 'e', '-', 'c', 'h', 'a', 'r', '>', '\n', '<', 'r', 'u', 'l', 'e', '-',
  'c', 'h', 'a', 'r', '>', ' ', ' ', ' ', ' ', ' ', ' ', ':', ':', '=', ' ', '<', 'l', 'e', 't', 't', 'e', 'r', '>', ' ', '|', ' ', '<', 'd',
  'i', 'g', 'i', 't', '>', ' ', '|', ' ', '"', '-', '"', '\n', '<', 'E', 'O', 'L', '>', ' ', ' ', ' ', ' ', ' ', ' ', ' ', ' ', ' ', ' ',
  ' ', ' ', ':', ':', '=', ' ', '"', '\n', '"', '\n', ';', 'l', 'a', 's', 't', ' ', 't', 'h', 'i', 'n', 'g', ',', ' ', 'i', ' ', 'p', 'r',
  'o', 'm', 'i', 's', 'e', '.', '.', '.', '\n']

/-- `tests/fixtures/bnf.abnf`, the whole file. -/
def abnfForBnf : Str :=
  ['s', 'y', 'n', 't', 'a', 'x', ' ', ' ', ' ', ' ', ' ', ' ', ' ', ' ', ' ', '=', ' ', 'r', 'u', 'l', 'e', ' ', '/', ' ', 'r', 'u', 'l', 'e',
  ' ', 's', 'y', 'n', 't', 'a', 'x', '\n', 'r', 'u', 'l', 'e', ' ', ' ', ' ', ' ', ' ', ' ', ' ', ' ', ' ', ' ', ' ', '=', ' ', 'o', 'p',
  't', '-', 'w', 'h', 'i', 't', 'e', 's', 'p', 'a', 'c', 'e', ' ', '"', '<', '"', ' ', 'r', 'u', 'l', 'e', '-', 'n', 'a', 'm', 'e', ' ', '"',
  '>', '"', '\n', ' ', ' ', ' ', ' ', ' ', ' ', ' ', ' ', ' ', ' ', ' ', ' ', ' ', ' ', ' ', ' ', ' ', ' ', ' ', ' ', ' ', 'o', 'p', 't',
  '-', 'w', 'h', 'i', 't', 'e', 's', 'p', 'a', 'c', 'e', ' ', '"', ':', ':', '=', '"', ' ', 'o', 'p', 't', '-', 'w', 'h', 'i', 't', 'e', 's',
  'p', 'a', 'c', 'e', '\n', ' ', ' ', ' ', ' ', ' ', ' ', ' ', ' ', ' ', ' ', ' ', ' ', ' ', ' ', ' ', ' ', ' ', ' ', ' ', ' ', ' ', 'e',
  'x', 'p', 'r', 'e', 's', 's', 'i', 'o', 'n', ' ', 'l', 'i', 'n', 'e', '-', 'e', 'n', 'd', '\n', 'o', 'p', 't', '-', 'w', 'h', 'i', 't',
  'e', 's', 'p', 'a', 'c', 'e', ' ', '=', ' ', '"', '"', ' ', '/', ' ', '"', ' ', '"', ' ', 'o', 'p', 't', '-', 'w', 'h', 'i', 't', 'e', 's',
  'p', 'a', 'c', 'e', '\n', ';', 't', 'h', 'i', 's', ' ', 'i', 's', ' ', 'a', ' ', 'c', 'o', 'm', 'm', 'e', 'n', 't', '\n', 'e', 'x', 'p',
  'r', 'e', 's', 's', 'i', 'o', 'n', ' ', ' ', ' ', ' ', ' ', '=', ' ', 'l', 'i', 's', 't', ' ', '/', ' ', 'l', 'i', 's', 't', ' ', 'o', 'p',
  't', '-', 'w', 'h', 'i', 't', 'e', 's', 'p', 'a', 'c', 'e', ' ', '"', '|', '"', '\n', ' ', ' ', ' ', ' ', ' ', ' ', ' ', ' ', ' ', ' ',
  ' ', ' ', ' ', ' ', ' ', ' ', ' ', ' ', ' ', ' ', ' ', 'o', 'p', 't', '-', 'w', 'h', 'i', 't', 'e', 's', 'p', 'a', 'c', 'e', ' ', 'e', 'x',
  'p', 'r', 'e', 's', 's', 'i', 'o', 'n', '\n', 'l', 'i', 'n', 'e', '-', 'e', 'n', 'd', ' ', ' ', ' ', ' ', ' ', ' ', ' ', '=', ' ', 'o',
  'p', 't', '-', 'w', 'h', 'i', 't', 'e', 's', 'p', 'a', 'c', 'e', ' ', 'E', 'O', 'L', '\n', 'l', 'i', 's', 't', ' ', ' ', ' ', ' ', ' ',
  ' ', ' ', ' ', ' ', ' ', ' ', '=', ' ', 't', 'e', 'r', 'm', ' ', '/', ' ', 't', 'e', 'r', 'm', ' ', 'o', 'p', 't', '-', 'w', 'h', 'i', 't',
  'e', 's', 'p', 'a', 'c', 'e', ' ', 'l', 'i', 's', 't', ' ', ';', 's', '0', ' ', '!', 's', ' ', 't', 'h', 'i', '$', '\n', 't', 'e', 'r',
  'm', ' ', ' ', ' ', ' ', ' ', ' ', ' ', ' ', ' ', ' ', ' ', '=', ' ', 'l', 'i', 't', 'e', 'r', 'a', 'l', ' ', '/', ' ', '"', '<', '"', ' ',
  'r', 'u', 'l', 'e', '-', 'n', 'a', 'm', 'e', ' ', '"', '>', '"', '\n', 'l', 'i', 't', 'e', 'r', 'a', 'l', ' ', ' ', ' ', ' ', ' ', ' ',
  ' ', ' ', '=', ' ', '\'', '"', '\'', ' ', 't', 'e', 'x', 't', '1', ' ', '\'', '"', '\'', ' ', '/', ' ', '"', '\'', '"', ' ', 't', 'e', 'x',
  't', '2', ' ', '"', '\'', '"', '\n', 't', 'e', 'x', 't', '1', ' ', ' ', ' ', ' ', ' ', ' ', ' ', ' ', ' ', ' ', '=', ' ', '"', '"', ' ',
  '/', ' ', 'c', 'h', 'a', 'r', 'a', 'c', 't', 'e', 'r', '1', ' ', 't', 'e', 'x', 't', '1', '\n', 't', 'e', 'x', 't', '2', ' ', ' ', ' ',
  ' ', ' ', ' ', ' ', ' ', ' ', ' ', '=', ' ', '"', '"', ' ', '/', ' ', 'c', 'h', 'a', 'r', 'a', 'c', 't', 'e', 'r', '2', ' ', 't', 'e', 'x',
  't', '2', ' ', ';', 'm', 'u', 'l', 't', 'i', 'p', 'l', 'e', ' ', ' ', '\n', ' ', ' ', ' ', ' ', ';', 'c', 'o', 'm', 'm', 'e', 'n', 't',
  's', '\n', ' ', ' ', ' ', ' ', ' ', ' ', ' ', ' ', ' ', ' ', ' ', ' ', ' ', ' ', ' ', ' ', ' ', ' ', ' ', ' ', ' ', ' ', ' ', ' ', ' ',
  ' ', ' ', ' ', ' ', ' ', ' ', ' ', ' ', ' ', ' ', ' ', ';', 'i', 'n', ' ', 'a', ' ', 'r', 'o', 'w', '!', '\n', 'c', 'h', 'a', 'r', 'a',
  'c', 't', 'e', 'r', ' ', ' ', ' ', ' ', ' ', ' ', '=', ' ', 'l', 'e', 't', 't', 'e', 'r', ' ', '/', ' ', 'd', 'i', 'g', 'i', 't', ' ', '/',
  ' ', 's', 'y', 'm', 'b', 'o', 'l', '\n', 'l', 'e', 't', 't', 'e', 'r', ' ', ' ', ' ', ' ', ' ', ' ', ' ', ' ', ' ', '=', ' ', '"', 'A',
  '"', ' ', '/', ' ', '"', 'B', '"', ' ', '/', ' ', '"', 'C', '"', ' ', '/', ' ', '"', 'D', '"', ' ', '/', ' ', '"', 'E', '"', ' ', '/', ' ',
  '"', 'F', '"', '\n', ' ', ' ', ' ', ' ', ' ', ' ', ' ', ' ', ' ', ' ', ' ', ' ', ' ', ' ', ' ', ' ', ' ', ' ', ' ', ' ', '/', ' ', '"',
  'G', '"', ' ', '/', ' ', '"', 'H', '"', ' ', '/', ' ', '"', 'I', '"', ' ', '/', ' ', '"', 'J', '"', ' ', '/', ' ', '"', 'K', '"', ' ', '/',
  ' ', '"', 'L', '"', '\n', ' ', ' ', ' ', ' ', ' ', ' ', ' ', ' ', ' ', ' ', ' ', ' ', ' ', ' ', ' ', ' ', ' ', ' ', ' ', ' ', '/', ' ',
  '"', 'M', '"', ' ', '/', ' ', '"', 'N', '"', ' ', '/', ' ', '"', 'O', '"', ' ', '/', ' ', '"', 'P', '"', ' ', '/', ' ', '"', 'Q', '"', ' ',
  '/', ' ', '"', 'R', '"', '\n', ' ', ' ', ' ', ' ', ' ', ' ', ' ', ' ', ' ', ' ', ' ', ' ', ' ', ' ', ' ', ' ', ' ', ' ', ' ', ' ', '/',
  ' ', '"', 'S', '"', ' ', '/', ' ', '"', 'T', '"', ' ', '/', ' ', '"', 'U', '"', ' ', '/', ' ', '"', 'V', '"', ' ', '/', ' ', '"', 'W', '"',
  ' ', '/', ' ', '"', 'X', '"', '\n', ' ', ' ', ' ', ' ', ' ', ' ', ' ', ' ', ' ', ' ', ' ', ' ', ' ', ' ', ' ', ' ', ' ', ' ', ' ', ' ',
  '/', ' ', '"', 'Y', '"', ' ', '/', ' ', '"', 'Z', '"', ' ', '/', ' ', '"', 'a', '"', ' ', '/', ' ', '"', 'b', '"', ' ', '/', ' ', '"', 'c',
  '"', ' ', '/', ' ', '"', 'd', '"', '\n', ' ', ' ', ' ', ' ', ' ', ' ', ' ', ' ', ' ', ' ', ' ', ' ', ' ', ' ', ' ', ' ', ' ', ' ', ' ',
  ' ', '/', ' ', '"', 'e', '"', ' ', '/', ' ', '"', 'f', '"', ' ', '/', ' ', '"', 'g', '"', ' ', '/', ' ', '"', 'h', '"', ' ', '/', ' ', '"',
  'i', '"', ' ', '/', ' ', '"', 'j', '"', '\n', ' ', ' ', ' ', ' ', ' ', ' ', ' ', ' ', ' ', ' ', ' ', ' ', ' ', ' ', ' ', ' ', ' ', ' ',
  ' ', ' ', '/', ' ', '"', 'k', '"', ' ', '/', ' ', '"', 'l', '"', ' ', '/', ' ', '"', 'm', '"', ' ', '/', ' ', '"', 'n', '"', ' ', '/', ' ',
  '"', 'o', '"', ' ', '/', ' ', '"', 'p', '"', '\n', ' ', ' ', ' ', ' ', ' ', ' ', ' ', ' ', ' ', ' ', ' ', ' ', ' ', ' ', ' ', ' ', ' ',
  ' ', ' ', ' ', '/', ' ', '"', 'q', '"', ' ', '/', ' ', '"', 'r', '"', ' ', '/', ' ', '"', 's', '"', ' ', '/', ' ', '"', 't', '"', ' ', '/',
  ' ', '"', 'u', '"', ' ', '/', ' ', '"', 'v', '"', '\n', ' ', ' ', ' ', ' ', ' ', ' ', ' ', ' ', ' ', ' ', ' ', ' ', ' ', ' ', ' ', ' ',
  ' ', ' ', ' ', ' ', '/', ' ', '"', 'w', '"', ' ', '/', ' ', '"', 'x', '"', ' ', '/', ' ', '"', 'y', '"', ' ', '/', ' ', '"', 'z', '"',
  '\n', 'd', 'i', 'g', 'i', 't', ' ', ' ', ' ', ' ', ' ', ' ', ' ', ' ', ' ', ' ', '=', ' ', '"', '0', '"', ' ', '/', ' ', '"', '1', '"',
  ' ', '/', ' ', '"', '2', '"', ' ', '/', ' ', '"', '3', '"', ' ', '/', ' ', '"', '4', '"', ' ', '/', ' ', '"', '5', '"', '\n', ' ', ' ',
  ' ', ' ', ' ', ' ', ' ', ' ', ' ', ' ', ' ', ' ', ' ', ' ', ' ', ' ', ' ', ' ', ' ', ' ', '/', ' ', '"', '6', '"', ' ', '/', ' ', '"', '7',
  '"', ' ', '/', ' ', '"', '8', '"', ' ', '/', ' ', '"', '9', '"', '\n', 's', 'y', 'm', 'b', 'o', 'l', ' ', ' ', ' ', ' ', ' ', ' ', ' ',
  ' ', ' ', '=', ' ', ' ', '"', '|', '"', ' ', '/', ' ', '"', ' ', '"', ' ', '/', ' ', '"', '-', '"', ' ', '/', ' ', '"', '!', '"', ' ', '/',
  ' ', '"', '#', '"', ' ', '/', ' ', '"', '$', '"', '\n', ' ', ' ', ' ', ' ', ' ', ' ', ' ', ' ', ' ', ' ', ' ', ' ', ' ', ' ', ' ', ' ',
  ' ', ' ', ' ', ' ', '/', ' ', '"', '%', '"', ' ', '/', ' ', '"', '&', '"', ' ', '/', ' ', '"', '(', '"', ' ', '/', ' ', '"', ')', '"', ' ',
  '/', ' ', '"', '*', '"', ' ', '/', ' ', '"', '+', '"', '\n', ' ', ' ', ' ', ' ', ' ', ' ', ' ', ' ', ' ', ' ', ' ', ' ', ' ', ' ', ' ',
  ' ', ' ', ' ', ' ', ' ', '/', ' ', '"', ',', '"', ' ', '/', ' ', '"', '-', '"', ' ', '/', ' ', '"', '.', '"', ' ', '/', ' ', '"', '/', '"',
  ' ', '/', ' ', '"', ':', '"', ' ', '/', ' ', '"', ';', '"', '\n', ' ', ' ', ' ', ' ', ' ', ' ', ' ', ' ', ' ', ' ', ' ', ' ', ' ', ' ',
  ' ', ' ', ' ', ' ', ' ', ' ', '/', '"', '>', '"', ' ', '/', ' ', '"', '=', '"', ' ', '/', ' ', '"', '<', '"', ' ', '/', ' ', '"', '?', '"',
  ' ', '/', ' ', '"', '@', '"', ' ', '/', ' ', '"', '[', '"', '\n', ' ', ' ', ' ', ' ', ' ', ' ', ' ', ' ', ' ', ' ', ' ', ' ', ' ', ' ',
  ' ', ' ', ' ', ' ', ' ', ' ', '/', ' ', '"', '\\', '\\', '"', ' ', '/', ' ', '"', ']', '"', ' ', '/', ' ', '"', '^', '"', ' ', '/', ' ',
  '"', '_', '"', ' ', '/', ' ', '"', '`', '"', '\n', ' ', ' ', ' ', ' ', ' ', ' ', ' ', ' ', ' ', ' ', ' ', ' ', ' ', ' ', ' ', ' ', ' ',
  ' ', ' ', ' ', '/', ' ', '"', '{', '{', '"', ' ', '/', ' ', '"', '}', '}', '"', ' ', '/', ' ', '"', '~', '"', '\n', 'c', 'h', 'a', 'r',
  'a', 'c', 't', 'e', 'r', '1', ' ', ' ', ' ', ' ', ' ', '=', ' ', 'c', 'h', 'a', 'r', 'a', 'c', 't', 'e', 'r', ' ', '/', ' ', '"', '\'',
  '"', '\n', 'c', 'h', 'a', 'r', 'a', 'c', 't', 'e', 'r', '2', ' ', ' ', ' ', ' ', ' ', '=', ' ', 'c', 'h', 'a', 'r', 'a', 'c', 't', 'e',
  'r', ' ', '/', ' ', '\'', '"', '\'', '\n', 'r', 'u', 'l', 'e', '-', 'n', 'a', 'm', 'e', ' ', ' ', ' ', ' ', ' ', ' ', '=', ' ', 'l', 'e',
  't', 't', 'e', 'r', ' ', '/', ' ', 'r', 'u', 'l', 'e', '-', 'n', 'a', 'm', 'e', ' ', 'r', 'u', 'l', 'e', '-', 'c', 'h', 'a', 'r', '\n',
  'r', 'u', 'l', 'e', '-', 'c', 'h', 'a', 'r', ' ', ' ', ' ', ' ', ' ', ' ', '=', ' ', 'l', 'e', 't', 't', 'e', 'r', ' ', '/', ' ', 'd', 'i',
  'g', 'i', 't', ' ', '/', ' ', '"', '-', '"', '\n', 'E', 'O', 'L', ' ', ' ', ' ', ' ', ' ', ' ', ' ', ' ', ' ', ' ', ' ', ' ', '=', ' ',
  '"', '\n', '"']

/-! The names of this grammar. -/

def nSyntax : Str := ['s', 'y', 'n', 't', 'a', 'x']
def nRule : Str := ['r', 'u', 'l', 'e']
def nOptWhitespace : Str := ['o', 'p', 't', '-', 'w', 'h', 'i', 't', 'e', 's', 'p', 'a', 'c', 'e']
def nExpression : Str := ['e', 'x', 'p', 'r', 'e', 's', 's', 'i', 'o', 'n']
def nLineEnd : Str := ['l', 'i', 'n', 'e', '-', 'e', 'n', 'd']
def nList : Str := ['l', 'i', 's', 't']
def nTerm : Str := ['t', 'e', 'r', 'm']
def nLiteral : Str := ['l', 'i', 't', 'e', 'r', 'a', 'l']
def nText1 : Str := ['t', 'e', 'x', 't', '1']
def nText2 : Str := ['t', 'e', 'x', 't', '2']
def nCharacter : Str := ['c', 'h', 'a', 'r', 'a', 'c', 't', 'e', 'r']
def nLetter : Str := ['l', 'e', 't', 't', 'e', 'r']
def nDigit : Str := ['d', 'i', 'g', 'i', 't']
def nSymbol : Str := ['s', 'y', 'm', 'b', 'o', 'l']
def nCharacter1 : Str := ['c', 'h', 'a', 'r', 'a', 'c', 't', 'e', 'r', '1']
def nCharacter2 : Str := ['c', 'h', 'a', 'r', 'a', 'c', 't', 'e', 'r', '2']
def nRuleName : Str := ['r', 'u', 'l', 'e', '-', 'n', 'a', 'm', 'e']
def nRuleChar : Str := ['r', 'u', 'l', 'e', '-', 'c', 'h', 'a', 'r']
def nEOL : Str := ['E', 'O', 'L']

/-- The alternatives of `<letter>`. -/
def letters : Str := ['A', 'B', 'C', 'D', 'E', 'F', 'G', 'H', 'I', 'J', 'K', 'L', 'M', 'N', 'O', 'P', 'Q', 'R', 'S', 'T', 'U', 'V', 'W', 'X', 'Y', 'Z', 'a', 'b',
  'c', 'd', 'e', 'f', 'g', 'h', 'i', 'j', 'k', 'l', 'm', 'n', 'o', 'p', 'q', 'r', 's', 't', 'u', 'v', 'w', 'x', 'y', 'z']
/-- The alternatives of `<digit>`. -/
def digits : Str := ['0', '1', '2', '3', '4', '5', '6', '7', '8', '9']
/-- The alternatives of `<symbol>`. -/
def symbolTexts : List Str := [['|'], [' '], ['-'], ['!'], ['#'], ['$'], ['%'], ['&'], ['('], [')'], ['*'], ['+'], [','], ['-'], ['.'], ['/'], [':'], [';'], ['>'], ['='], ['<'], ['?'], ['@'], ['['], ['\\', '\\'], [']'], ['^'], ['_'], ['`'], ['{', '{'], ['}', '}'], ['~']]

/-- The grammar that both files describe. -/
def metaGrammar : Grammar := ⟨[
  ⟨.nonterminal nSyntax, [⟨[.nonterminal nRule]⟩, ⟨[.nonterminal nRule, .nonterminal nSyntax]⟩]⟩,
  ⟨.nonterminal nRule, [⟨[.nonterminal nOptWhitespace, .terminal ['<'], .nonterminal nRuleName, .terminal ['>'], .nonterminal nOptWhitespace, .terminal [':', ':', '='], .nonterminal nOptWhitespace, .nonterminal nExpression, .nonterminal nLineEnd]⟩]⟩,
  ⟨.nonterminal nOptWhitespace, [⟨[.terminal []]⟩, ⟨[.terminal [' '], .nonterminal nOptWhitespace]⟩]⟩,
  ⟨.nonterminal nExpression, [⟨[.nonterminal nList]⟩, ⟨[.nonterminal nList, .nonterminal nOptWhitespace, .terminal ['|'], .nonterminal nOptWhitespace, .nonterminal nExpression]⟩]⟩,
  ⟨.nonterminal nLineEnd, [⟨[.nonterminal nOptWhitespace, .nonterminal nEOL]⟩]⟩,
  ⟨.nonterminal nList, [⟨[.nonterminal nTerm]⟩, ⟨[.nonterminal nTerm, .nonterminal nOptWhitespace, .nonterminal nList]⟩]⟩,
  ⟨.nonterminal nTerm, [⟨[.nonterminal nLiteral]⟩, ⟨[.terminal ['<'], .nonterminal nRuleName, .terminal ['>']]⟩]⟩,
  ⟨.nonterminal nLiteral, [⟨[.terminal ['"'], .nonterminal nText1, .terminal ['"']]⟩, ⟨[.terminal ['\''], .nonterminal nText2, .terminal ['\'']]⟩]⟩,
  ⟨.nonterminal nText1, [⟨[.terminal []]⟩, ⟨[.nonterminal nCharacter1, .nonterminal nText1]⟩]⟩,
  ⟨.nonterminal nText2, [⟨[.terminal []]⟩, ⟨[.nonterminal nCharacter2, .nonterminal nText2]⟩]⟩,
  ⟨.nonterminal nCharacter, [⟨[.nonterminal nLetter]⟩, ⟨[.nonterminal nDigit]⟩, ⟨[.nonterminal nSymbol]⟩]⟩,
  ⟨.nonterminal nLetter, letters.map fun c => ⟨[.terminal [c]]⟩⟩,
  ⟨.nonterminal nDigit, digits.map fun c => ⟨[.terminal [c]]⟩⟩,
  ⟨.nonterminal nSymbol, symbolTexts.map fun u => ⟨[.terminal u]⟩⟩,
  ⟨.nonterminal nCharacter1, [⟨[.nonterminal nCharacter]⟩, ⟨[.terminal ['\'']]⟩]⟩,
  ⟨.nonterminal nCharacter2, [⟨[.nonterminal nCharacter]⟩, ⟨[.terminal ['"']]⟩]⟩,
  ⟨.nonterminal nRuleName, [⟨[.nonterminal nLetter]⟩, ⟨[.nonterminal nRuleName, .nonterminal nRuleChar]⟩]⟩,
  ⟨.nonterminal nRuleChar, [⟨[.nonterminal nLetter]⟩, ⟨[.nonterminal nDigit]⟩, ⟨[.terminal ['-']]⟩]⟩,
  ⟨.nonterminal nEOL, [⟨[.terminal ['\n']]⟩]⟩]⟩

/-! Grammars whose printed form belongs to this grammar. -/

/-- A letter, followed by letters, digits and hyphens. -/
def SimpleName (u : Str) : Prop := ∃ c cs, u = c :: cs ∧ c ∈ letters ∧ ∀ d ∈ cs, d ∈ letters ∨ d ∈ digits ∨ d = '-'

/-- A sequence of letters, digits, the texts of `<symbol>` (backslashes and braces are in pairs) and the quote `q`. -/
def SimpleText (q : Char) (u : Str) : Prop :=
  ∃ ps : List Str, u = ps.flatten ∧ ∀ p ∈ ps, (∃ c, p = [c] ∧ (c ∈ letters ∨ c ∈ digits ∨ c = q)) ∨ p ∈ symbolTexts

/-- Terms with such names and texts, with at most one kind of quotes. -/
def SimpleTerm : Term → Prop
  | .nonterminal u => SimpleName u
  | .terminal u => SimpleText '\'' u ∨ SimpleText '"' u

/-- Grammars of such terms, with at least one production, nonterminals on the left, at least one alternative each, no empty alternatives. -/
def SimpleGrammar (g : Grammar) : Prop :=
  g.productions ≠ [] ∧ ∀ p ∈ g.productions, (∃ u, p.lhs = .nonterminal u ∧ SimpleName u) ∧ p.rhs ≠ [] ∧
    ∀ e ∈ p.rhs, e.terms ≠ [] ∧ ∀ t ∈ e.terms, SimpleTerm t

end Bnf.Spec
