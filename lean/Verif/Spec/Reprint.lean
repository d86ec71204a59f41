import Verif.Spec.Text

/-! # Grammars that can be written as ABNF texts -/

set_option autoImplicit false

namespace Bnf.Spec
open Bnf

/-- Names that can be written without delimiters: they begin with a letter, and contain no whitespace, `)` or `]`. -/
def PlainName (f : Char → Bool) (u : Str) : Prop := (∃ c cs, u = c :: cs ∧ f c = true) ∧ ∀ c ∈ u, ¬ NameStop c

/-- Terms that can be written in ABNF. -/
def Writable (f : Char → Bool) : Term → Prop
  | .terminal u => '"' ∉ u ∨ '\'' ∉ u
  | .nonterminal u => PlainName f u

/-- Productions that can be written in ABNF without groups and optionals. -/
def WritableProduction (f : Char → Bool) (p : Production) : Prop :=
  (∃ u, p.lhs = .nonterminal u ∧ PlainName f u) ∧ p.rhs ≠ [] ∧ ∀ e ∈ p.rhs, e.terms ≠ [] ∧ ∀ t ∈ e.terms, Writable f t

/-- Grammars that can be written in ABNF without groups and optionals. -/
def WritableGrammar (f : Char → Bool) (g : Grammar) : Prop :=
  g.productions ≠ [] ∧ ∀ p ∈ g.productions, WritableProduction f p

/-- A name of the grammar: on the left of a production, or in an alternative of one. -/
def NameOf (g : Grammar) (n : Str) : Prop :=
  ∃ p ∈ g.productions, p.lhs = .nonterminal n ∨ ∃ e ∈ p.rhs, Term.nonterminal n ∈ e.terms

/-- A term in ABNF. -/
def abnfTerm : Term → Str
  | .terminal u => if u.contains '\'' then ['"'] ++ u ++ ['"'] else ['\''] ++ u ++ ['\'']
  | .nonterminal u => u

/-- Elements of a sequence, each followed by the separator except the last. -/
def sepBy (sep : Str) : List Str → Str
  | [] => []
  | [x] => x
  | x :: y :: l => x ++ sep ++ sepBy sep (y :: l)

/-- A production in ABNF: `name = term term / term`. -/
def abnfProduction (p : Production) : Str :=
  abnfTerm p.lhs ++ [' ', '=', ' '] ++ sepBy [' ', '/', ' '] (p.rhs.map fun e => sepBy [' '] (e.terms.map abnfTerm)) ++ ['\n']

/-- A grammar in ABNF, one line per production. -/
def abnfText (g : Grammar) : Str := (g.productions.map abnfProduction).flatten

end Bnf.Spec
