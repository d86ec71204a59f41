import Verif.Spec.Derivation

/-!
# Specification: parts of parse trees, reachable nonterminals
-/

set_option autoImplicit false

namespace Bnf.Spec

/-- The node occurs among these nodes, at any depth. -/
inductive NodeIn (a : ParseTreeNode) : List ParseTreeNode → Prop
  | here {ns} : NodeIn a (a :: ns)
  | there {n ns} : NodeIn a ns → NodeIn a (n :: ns)
  | inside {l kids ns} : NodeIn a kids → NodeIn a (.nonterminal l kids :: ns)

/-- One occurrence of the node `a`, at any depth, is replaced by `b`. -/
inductive Replaced (a b : ParseTreeNode) : List ParseTreeNode → List ParseTreeNode → Prop
  | here {ns} : Replaced a b (a :: ns) (b :: ns)
  | there {n ns ns'} : Replaced a b ns ns' → Replaced a b (n :: ns) (n :: ns')
  | inside {l kids kids' ns} : Replaced a b kids kids' →
      Replaced a b (.nonterminal l kids :: ns) (.nonterminal l kids' :: ns)

/-- A way down a tree: the inner nodes passed. -/
inductive Way : List ParseTree → List ParseTreeNode → Prop
  | nil {ns} : Way [] ns
  | cons {l kids ns ps} : .nonterminal l kids ∈ ns → Way ps kids → Way (⟨l, kids⟩ :: ps) ns

/-- The term can occur in a derivation from `S`. -/
inductive Reachable (g : Grammar) (S : Term) : Term → Prop
  | start : Reachable g S S
  | step {l e t} : Reachable g S l → HasAlt g l e → t ∈ e.terms → Reachable g S t

end Bnf.Spec
