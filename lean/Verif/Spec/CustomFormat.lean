import Verif.Spec.Reprint

/-!
# Formats defined by a user of the crate

`Format` is a public trait (`src/parsers/mod.rs` 69-79, `src/lib.rs` 30), and `Grammar::parse_from` takes any implementation of it.
-/

set_option autoImplicit false

namespace Bnf.Spec
open Bnf

/-- Any format that a program can define: it chooses delimiters, separators and the character at which productions begin; what a letter is, is fixed by
the standard library. -/
def Definable (F : Format) : Prop := F.nonterminalDelimiter = none → AlphabeticTable F.isAlphabetic

/-- Neither whitespace nor a character with a meaning in all formats. -/
def Free (c : Char) : Prop := isWhitespace c = false ∧ c ∉ [';', '"', '\'', '(', '[', ')', ']']

/-- The characters with which a name begins. -/
def OpensName (F : Format) (c : Char) : Prop :=
  match F.nonterminalDelimiter with
  | some (a, _) => c = a
  | none => F.isAlphabetic c = true

/-- Formats whose signs can be told apart by their first characters.  Nothing is asked of the character at which productions are said to begin, and of
the closing delimiter. -/
structure WellChosen (F : Format) : Prop where
  definable : Definable F
  opening : ∀ a b, F.nonterminalDelimiter = some (a, b) → Free a
  alternative : Free F.alternativeSeparator ∧ ¬ OpensName F F.alternativeSeparator
  separator : ∃ x xs, F.productionSeparator = x :: xs ∧ Free x ∧ ¬ OpensName F x ∧ x ≠ F.alternativeSeparator

/-- Names that can be written. -/
def NameIn (F : Format) (u : Str) : Prop :=
  match F.nonterminalDelimiter with
  | some (_, b) => b ∉ u
  | none => PlainName F.isAlphabetic u

/-- Terms that can be written. -/
def TermIn (F : Format) : Term → Prop
  | .terminal u => '"' ∉ u ∨ '\'' ∉ u
  | .nonterminal u => NameIn F u

/-- Grammars that can be written without groups and optionals. -/
def GrammarIn (F : Format) (g : Grammar) : Prop :=
  g.productions ≠ [] ∧ ∀ p ∈ g.productions, (∃ u, p.lhs = .nonterminal u ∧ NameIn F u) ∧ p.rhs ≠ [] ∧
    ∀ e ∈ p.rhs, e.terms ≠ [] ∧ ∀ t ∈ e.terms, TermIn F t

/-- A term in the format. -/
def termText (F : Format) : Term → Str
  | .terminal u => if u.contains '\'' then ['"'] ++ u ++ ['"'] else ['\''] ++ u ++ ['\'']
  | .nonterminal u =>
    match F.nonterminalDelimiter with
    | some (a, b) => a :: u ++ [b]
    | none => u

/-- A production in the format, on a line. -/
def productionText (F : Format) (p : Production) : Str :=
  termText F p.lhs ++ [' '] ++ F.productionSeparator ++ [' '] ++
    sepBy [' ', F.alternativeSeparator, ' '] (p.rhs.map fun e => sepBy [' '] (e.terms.map (termText F))) ++ ['\n']

/-- A grammar in the format, one line per production. -/
def grammarText (F : Format) (g : Grammar) : Str := (g.productions.map (productionText F)).flatten

end Bnf.Spec
