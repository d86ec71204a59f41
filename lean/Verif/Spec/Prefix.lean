import Verif.Spec.Derivation

/-!
# Specification: grammars in which a text has at most one beginning of each kind

Independent of the parser.
-/

set_option autoImplicit false

namespace Bnf.Spec

/-- From no term are there two different derivation trees of which one spells the beginning of what the other spells. -/
def PrefixUnique (g : Grammar) : Prop := ∀ T w v t t', IsParse g T w t → IsParse g T (w ++ v) t' → t = t'

/-- Every alternative begins with a terminal that is not empty, and different alternatives of the same nonterminal begin with different characters. -/
def Marked (g : Grammar) : Prop :=
  (∀ l e, HasAlt g l e → ∃ c s ts, e.terms = .terminal (c :: s) :: ts) ∧
  ∀ l e e' c s s' ts ts', HasAlt g l e → HasAlt g l e' → e.terms = .terminal (c :: s) :: ts → e'.terms = .terminal (c :: s') :: ts' → e = e'

end Bnf.Spec
