import Verif.Spec.TestGrammars
import Verif.Spec.Derivation
import Mathlib.Data.Set.Card

/-!
# Specification: the grammar of the benchmarks on postal addresses

The text is copied from `tests/fixtures/postal_address.terminated.input.bnf` (which `benches/divan.rs` 20-22, 33-36 and others include); the grammar is written
out by hand (that the text denotes it is a theorem).
-/

set_option autoImplicit false

namespace Bnf.Spec.Postal
open Bnf

set_option maxRecDepth 20000

/-- `tests/fixtures/postal_address.terminated.input.bnf`. -/
def text : Str := chars! " <postal-address> ::= <name-part> <street-address> <zip-part>;\n\n            <name-part> ::= <personal-part> <last-name> <opt-suffix-part> <EOL>\n                            | <personal-part> <name-part>;\n\n        <personal-part> ::= <initial> \".\" | <first-name>;\n\n        <street-address> ::= <house-num> <street-name> <opt-apt-num> <EOL>;\n\n            <zip-part> ::= <town-name> \",\" <state-code> <ZIP-code> <EOL>;\n\n        <opt-suffix-part> ::= \"Sr.\" | \"Jr.\" | <roman-numeral> | \"\";\n            <opt-apt-num> ::= <apt-num> | \"\";\n\n        <initial> ::= 'A' | 'B' | 'C' | 'D' | 'E' | 'F' | 'G' | 'H' | 'I' | 'J' | 'K' | 'L' | 'M' | 'N' | 'O' | 'P' | 'Q' | 'R' | 'S' | 'T' | 'U' | 'V' | 'W' | 'X' | 'Y' | 'Z';\n\n        <first-name> ::= <name-word>;\n        <last-name> ::= <name-word>;\n        <name-word> ::= <letter> | <letter> <name-word>;\n\n        <house-num> ::= <digit> | <digit> <house-num>;\n        <apt-num> ::= <digit> | <digit> <apt-num>;\n\n        <street-name> ::= <word> | <word> \" \" <street-name>;\n        <town-name> ::= <word> | <word> \" \" <town-name>;\n        <word> ::= <letter> | <letter> <word>;\n\n        <state-code> ::= <letter> <letter>;\n\n        <ZIP-code> ::= <digit> <digit> <digit> <digit> <digit>;\n\n        <roman-numeral> ::= \"I\" | \"II\" | \"III\" | \"IV\" | \"V\" | \"VI\" | \"VII\" | \"VIII\" | \"IX\" | \"X\";\n\n        <EOL> ::= \";\";\n\n        <letter> ::= 'A' | 'B' | 'C' | 'D' | 'E' | 'F' | 'G' | 'H' | 'I' | 'J' | 'K' | 'L' | 'M' | 'N' | 'O' | 'P' | 'Q' | 'R' | 'S' | 'T' | 'U' | 'V' | 'W' | 'X' | 'Y' | 'Z' | 'a' | 'b' | 'c' | 'd' | 'e' | 'f' | 'g' | 'h' | 'i' | 'j' | 'k' | 'l' | 'm' | 'n' | 'o' | 'p' | 'q' | 'r' | 's' | 't' | 'u' | 'v' | 'w' | 'x' | 'y' | 'z';\n\n        <digit> ::= '0' | '1' | '2' | '3' | '4' | '5' | '6' | '7' | '8' | '9';\n"

def nPostalAddress : Str := ['p', 'o', 's', 't', 'a', 'l', '-', 'a', 'd', 'd', 'r', 'e', 's', 's']
def nNamePart : Str := ['n', 'a', 'm', 'e', '-', 'p', 'a', 'r', 't']
def nPersonalPart : Str := ['p', 'e', 'r', 's', 'o', 'n', 'a', 'l', '-', 'p', 'a', 'r', 't']
def nStreetAddress : Str := ['s', 't', 'r', 'e', 'e', 't', '-', 'a', 'd', 'd', 'r', 'e', 's', 's']
def nZipPart : Str := ['z', 'i', 'p', '-', 'p', 'a', 'r', 't']
def nOptSuffixPart : Str := ['o', 'p', 't', '-', 's', 'u', 'f', 'f', 'i', 'x', '-', 'p', 'a', 'r', 't']
def nOptAptNum : Str := ['o', 'p', 't', '-', 'a', 'p', 't', '-', 'n', 'u', 'm']
def nInitial : Str := ['i', 'n', 'i', 't', 'i', 'a', 'l']
def nFirstName : Str := ['f', 'i', 'r', 's', 't', '-', 'n', 'a', 'm', 'e']
def nLastName : Str := ['l', 'a', 's', 't', '-', 'n', 'a', 'm', 'e']
def nNameWord : Str := ['n', 'a', 'm', 'e', '-', 'w', 'o', 'r', 'd']
def nHouseNum : Str := ['h', 'o', 'u', 's', 'e', '-', 'n', 'u', 'm']
def nAptNum : Str := ['a', 'p', 't', '-', 'n', 'u', 'm']
def nStreetName : Str := ['s', 't', 'r', 'e', 'e', 't', '-', 'n', 'a', 'm', 'e']
def nTownName : Str := ['t', 'o', 'w', 'n', '-', 'n', 'a', 'm', 'e']
def nWord : Str := ['w', 'o', 'r', 'd']
def nStateCode : Str := ['s', 't', 'a', 't', 'e', '-', 'c', 'o', 'd', 'e']
def nZIPCode : Str := ['Z', 'I', 'P', '-', 'c', 'o', 'd', 'e']
def nRomanNumeral : Str := ['r', 'o', 'm', 'a', 'n', '-', 'n', 'u', 'm', 'e', 'r', 'a', 'l']
def nEOL : Str := ['E', 'O', 'L']
def nLetter : Str := ['l', 'e', 't', 't', 'e', 'r']
def nDigit : Str := ['d', 'i', 'g', 'i', 't']

/-- Alternatives of one character each. -/
def oneOf (cs : List Char) : List Expression := cs.map fun c => ⟨[.terminal [c]]⟩

def capitals : List Char := ['A', 'B', 'C', 'D', 'E', 'F', 'G', 'H', 'I', 'J', 'K', 'L', 'M', 'N', 'O', 'P', 'Q', 'R', 'S', 'T', 'U', 'V', 'W', 'X', 'Y', 'Z']

def letters : List Char := ['A', 'B', 'C', 'D', 'E', 'F', 'G', 'H', 'I', 'J', 'K', 'L', 'M', 'N', 'O', 'P', 'Q', 'R', 'S', 'T', 'U', 'V', 'W', 'X', 'Y', 'Z', 'a', 'b', 'c', 'd', 'e', 'f', 'g', 'h', 'i', 'j', 'k', 'l', 'm', 'n', 'o', 'p', 'q', 'r', 's', 't', 'u', 'v', 'w', 'x', 'y', 'z']

def digits : List Char := ['0', '1', '2', '3', '4', '5', '6', '7', '8', '9']

def rules : List Production := [
  ⟨.nonterminal nPostalAddress, [⟨[.nonterminal nNamePart, .nonterminal nStreetAddress, .nonterminal nZipPart]⟩]⟩,
  ⟨.nonterminal nNamePart, [⟨[.nonterminal nPersonalPart, .nonterminal nLastName, .nonterminal nOptSuffixPart, .nonterminal nEOL]⟩, ⟨[.nonterminal nPersonalPart, .nonterminal nNamePart]⟩]⟩,
  ⟨.nonterminal nPersonalPart, [⟨[.nonterminal nInitial, .terminal ['.']]⟩, ⟨[.nonterminal nFirstName]⟩]⟩,
  ⟨.nonterminal nStreetAddress, [⟨[.nonterminal nHouseNum, .nonterminal nStreetName, .nonterminal nOptAptNum, .nonterminal nEOL]⟩]⟩,
  ⟨.nonterminal nZipPart, [⟨[.nonterminal nTownName, .terminal [','], .nonterminal nStateCode, .nonterminal nZIPCode, .nonterminal nEOL]⟩]⟩,
  ⟨.nonterminal nOptSuffixPart, [⟨[.terminal ['S', 'r', '.']]⟩, ⟨[.terminal ['J', 'r', '.']]⟩, ⟨[.nonterminal nRomanNumeral]⟩, ⟨[.terminal []]⟩]⟩,
  ⟨.nonterminal nOptAptNum, [⟨[.nonterminal nAptNum]⟩, ⟨[.terminal []]⟩]⟩,
  ⟨.nonterminal nInitial, oneOf capitals⟩,
  ⟨.nonterminal nFirstName, [⟨[.nonterminal nNameWord]⟩]⟩,
  ⟨.nonterminal nLastName, [⟨[.nonterminal nNameWord]⟩]⟩,
  ⟨.nonterminal nNameWord, [⟨[.nonterminal nLetter]⟩, ⟨[.nonterminal nLetter, .nonterminal nNameWord]⟩]⟩,
  ⟨.nonterminal nHouseNum, [⟨[.nonterminal nDigit]⟩, ⟨[.nonterminal nDigit, .nonterminal nHouseNum]⟩]⟩,
  ⟨.nonterminal nAptNum, [⟨[.nonterminal nDigit]⟩, ⟨[.nonterminal nDigit, .nonterminal nAptNum]⟩]⟩,
  ⟨.nonterminal nStreetName, [⟨[.nonterminal nWord]⟩, ⟨[.nonterminal nWord, .terminal [' '], .nonterminal nStreetName]⟩]⟩,
  ⟨.nonterminal nTownName, [⟨[.nonterminal nWord]⟩, ⟨[.nonterminal nWord, .terminal [' '], .nonterminal nTownName]⟩]⟩,
  ⟨.nonterminal nWord, [⟨[.nonterminal nLetter]⟩, ⟨[.nonterminal nLetter, .nonterminal nWord]⟩]⟩,
  ⟨.nonterminal nStateCode, [⟨[.nonterminal nLetter, .nonterminal nLetter]⟩]⟩,
  ⟨.nonterminal nZIPCode, [⟨[.nonterminal nDigit, .nonterminal nDigit, .nonterminal nDigit, .nonterminal nDigit, .nonterminal nDigit]⟩]⟩,
  ⟨.nonterminal nRomanNumeral, [⟨[.terminal ['I']]⟩, ⟨[.terminal ['I', 'I']]⟩, ⟨[.terminal ['I', 'I', 'I']]⟩, ⟨[.terminal ['I', 'V']]⟩, ⟨[.terminal ['V']]⟩, ⟨[.terminal ['V', 'I']]⟩, ⟨[.terminal ['V', 'I', 'I']]⟩, ⟨[.terminal ['V', 'I', 'I', 'I']]⟩, ⟨[.terminal ['I', 'X']]⟩, ⟨[.terminal ['X']]⟩]⟩,
  ⟨.nonterminal nEOL, [⟨[.terminal [';']]⟩]⟩,
  ⟨.nonterminal nLetter, oneOf letters⟩,
  ⟨.nonterminal nDigit, oneOf digits⟩]

def grammar : Grammar := ⟨rules⟩

/-- The number of parse trees of an address. -/
noncomputable def trees (w : Str) : Nat := Set.ncard {t | IsParse grammar (.nonterminal nPostalAddress) w t}

end Bnf.Spec.Postal
