import Verif.Spec.Derivation

/-!
# Specification: referenced and defined nonterminals
-/

namespace Bnf.Spec

/-- The nonterminal occurs in some alternative. -/
def Referenced (g : Grammar) (n : Str) : Prop := ∃ lhs e, HasAlt g lhs e ∧ Term.nonterminal n ∈ e.terms

/-- The nonterminal is the left-hand side of a production (possibly one without alternatives). -/
def Declared (g : Grammar) (n : Str) : Prop := ∃ p ∈ g.productions, p.lhs = .nonterminal n

/-- The nonterminal has at least one alternative. -/
def Defined (g : Grammar) (n : Str) : Prop := ∃ e, HasAlt g (.nonterminal n) e

end Bnf.Spec
