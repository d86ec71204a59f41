import Verif.Spec.Display

/-!
# Specification: how large a drawing of a tree is

Sums over the nodes of a tree.
-/

set_option autoImplicit false

namespace Bnf.Spec

mutual
/-- The sum over all nodes of their distance from the root. -/
def depthSum : ParseTreeNode → Nat
  | .terminal _ => 0
  | .nonterminal _ kids => depthsSum kids
/-- The same for the children of a node, whose nodes all lie one deeper. -/
def depthsSum : List ParseTreeNode → Nat
  | [] => 0
  | k :: ks => depthSum k + nodeCount k + depthsSum ks
end

mutual
/-- The sum over all nodes of the lengths of their labels. -/
def labelSum : ParseTreeNode → Nat
  | .terminal t => (nodeLabel (.terminal t)).length
  | .nonterminal lhs kids => (nodeLabel (.nonterminal lhs kids)).length + labelsSum kids
def labelsSum : List ParseTreeNode → Nat
  | [] => 0
  | k :: ks => labelSum k + labelsSum ks
end

mutual
/-- The number of nodes carrying a production. -/
def innerCount : ParseTreeNode → Nat
  | .terminal _ => 0
  | .nonterminal _ kids => 1 + innersCount kids
def innersCount : List ParseTreeNode → Nat
  | [] => 0
  | k :: ks => innerCount k + innersCount ks
end

mutual
/-- The length of the longest way down. -/
def treeHeight : ParseTreeNode → Nat
  | .terminal _ => 0
  | .nonterminal _ kids => treesHeight kids
/-- The length of the longest way down through one of the nodes, counting the way to the node. -/
def treesHeight : List ParseTreeNode → Nat
  | [] => 0
  | k :: ks => max (treeHeight k + 1) (treesHeight ks)
end

end Bnf.Spec
