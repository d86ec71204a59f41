import Verif.Spec.Copies
import Verif.Spec.Derivation

/-!
# Specification: alternatives in the order in which a grammar lists them
-/

set_option autoImplicit false

namespace Bnf.Spec

/-- The alternatives of a left-hand side, in the order of the grammar. -/
def listed (g : Grammar) (l : Term) : List Expression := (g.productions.filter fun p => p.lhs = l).flatMap fun p => p.rhs

/-- The children `kk'` are at least as easy to match as `kk`: each of them is a terminal, or the same node as in `kk`, after the same text. -/
def Simpler (kk' kk : List ParseTreeNode) : Prop :=
  ∀ i < kk'.length, (∃ s, kk'[i]? = some (.terminal s)) ∨ (kk'[i]? = kk[i]? ∧ yield (kk'.take i) = yield (kk.take i))

end Bnf.Spec
