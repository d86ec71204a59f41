import Verif.Spec.Display

/-! # Specification: trees without childless inner nodes -/

set_option autoImplicit false

namespace Bnf.Spec

mutual
/-- All inner nodes have children. -/
def Branching : ParseTreeNode → Prop
  | .terminal _ => True
  | .nonterminal _ kids => kids ≠ [] ∧ AllBranching kids
def AllBranching : List ParseTreeNode → Prop
  | [] => True
  | k :: ks => Branching k ∧ AllBranching ks
end

end Bnf.Spec
