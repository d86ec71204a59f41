import Verif.Spec.Combine
import Verif.Spec.Editing

/-! # Specification: the terminals of a tree, and the tree with other terminals -/

set_option autoImplicit false

namespace Bnf.Spec
open Bnf

mutual
/-- The terminals at the leaves of a node, left to right. -/
def nodeLeaves : ParseTreeNode → List Str
  | .terminal s => [s]
  | .nonterminal _ rhs => leaves rhs

/-- The terminals at the leaves of a list of nodes, left to right. -/
def leaves : List ParseTreeNode → List Str
  | [] => []
  | n :: ns => nodeLeaves n ++ leaves ns
end

mutual
/-- The node with other texts at its leaves. -/
def nodeWith (k : Str → Str) : ParseTreeNode → ParseTreeNode
  | .terminal s => .terminal (k s)
  | .nonterminal l rhs => .nonterminal l (nodesWith k rhs)

/-- The nodes with other texts at their leaves. -/
def nodesWith (k : Str → Str) : List ParseTreeNode → List ParseTreeNode
  | [] => []
  | n :: ns => nodeWith k n :: nodesWith k ns
end

/-- The tree with other texts at its leaves. -/
def treeWith (k : Str → Str) (t : ParseTree) : ParseTree := ⟨t.lhs, nodesWith k t.rhs⟩

/-- One grammar behind the other. -/
def behind (g g₂ : Grammar) : Grammar := ⟨g.productions ++ g₂.productions⟩

/-- The second grammar is used only for what replaces terminals of the first: it defines nothing that occurs in the first and mentions nothing the first
defines, nor is a terminal of the first replaced by something that the first defines. -/
structure Separate (f : Str → Term) (g g₂ : Grammar) : Prop where
  apart₁ : ∀ T, Defines g₂ T → ¬ Mentions g T
  apart₂ : ∀ T, Defines g T → ¬ Mentions g₂ T
  apart₃ : ∀ u, ¬ Defines g (f u)

end Bnf.Spec
