import Verif.Spec.Rejection
import Verif.Spec.TreeChance

/-!
# Specification: probabilities without a bound on the nesting

A call may nest as many expansions as it needs; the probability of an event is then the least upper bound of the probabilities with bounds (`OverallChance` in
`Spec/Rejection`).  Here: the trees over which it is a sum.
-/

set_option autoImplicit false

namespace Bnf.Spec
open Bnf

/-- The derivation trees of `x` that spell a sentence with `P`. -/
def TreesOf (g : Grammar) (x : Str) (P : Str → Bool) : Set ParseTree := {t | t.lhs = .nonterminal x ∧ IsTree g t ∧ P (yield t.rhs) = true}

end Bnf.Spec
