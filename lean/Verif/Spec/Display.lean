import Verif.Spec.Derivation
import Verif.Model.Text

/-!
# Specification: drawing a tree, and numbering its nodes

Uses the data type of trees and the display of a term (`Term.display`), nothing else of the implementation.
-/

set_option autoImplicit false

namespace Bnf.Spec

/-- How a node is called on the line of its parent. -/
def nodeLabel : ParseTreeNode → Str
  | .terminal t => "\"".toList ++ t ++ "\"".toList
  | .nonterminal lhs _ => lhs.display

/-- Put `first` before the first line of a block and `other` before the others. -/
def indent (first other : Str) : List Str → List Str
  | [] => []
  | l :: ls => (first ++ l) :: ls.map (other ++ ·)

mutual
/-- The lines of the drawing of a node. -/
def draw : ParseTreeNode → List Str
  | .terminal t => ["\"".toList ++ t ++ "\"".toList]
  | .nonterminal lhs kids => (lhs.display ++ " ::=".toList ++ kids.flatMap fun k => " ".toList ++ nodeLabel k) :: drawKids kids

/-- The lines of the drawings of the children of a node: the last child is drawn with "└── ", the others with "├── "; the lines
below them are indented, with a bar if there are more children. -/
def drawKids : List ParseTreeNode → List Str
  | [] => []
  | [k] => indent "└── ".toList "    ".toList (draw k)
  | k :: k' :: ks => indent "├── ".toList "│   ".toList (draw k) ++ drawKids (k' :: ks)
end

/-- Lines as text. -/
def unlines (ls : List Str) : Str := ls.flatMap (· ++ ['\n'])

mutual
/-- The number of nodes. -/
def nodeCount : ParseTreeNode → Nat
  | .terminal _ => 1
  | .nonterminal _ kids => 1 + nodesCount kids
def nodesCount : List ParseTreeNode → Nat
  | [] => 0
  | k :: ks => nodeCount k + nodesCount ks
end

/-! ## Preorder -/

/-- The name in a node. -/
def nodeName : ParseTreeNode → Str
  | .terminal t => t
  | .nonterminal (.nonterminal n) _ => n
  | .nonterminal (.terminal n) _ => n

mutual
/-- The nodes in preorder, each with the path from the root (a list of child positions) and its name. -/
def preorder : ParseTreeNode → List (List Nat × Str)
  | .terminal t => [([], t)]
  | .nonterminal lhs kids => ([], nodeName (.nonterminal lhs kids)) :: preorderKids 0 kids
/-- The same for the children of a node, numbered from `i`. -/
def preorderKids : Nat → List ParseTreeNode → List (List Nat × Str)
  | _, [] => []
  | i, k :: ks => (preorder k).map (fun x => (i :: x.1, x.2)) ++ preorderKids (i + 1) ks
end

mutual
/-- All inner nodes carry nonterminals. -/
def InnerNonterminals : ParseTreeNode → Prop
  | .terminal _ => True
  | .nonterminal lhs kids => (∃ n, lhs = .nonterminal n) ∧ AllInnerNonterminals kids
def AllInnerNonterminals : List ParseTreeNode → Prop
  | [] => True
  | k :: ks => InnerNonterminals k ∧ AllInnerNonterminals ks
end

/-- The text of an edge between two numbered labels. -/
def edgeLine (x y : Nat × Str) : Str :=
  (toString x.1).toList ++ "[\"".toList ++ x.2 ++ "\"] --> ".toList ++ (toString y.1).toList ++ "[\"".toList ++ y.2 ++ "\"]\n".toList

/-- Decode numeric entities `#…;`; the first argument is the value of the digits read so far in an entity. -/
def decodeEntities : Option Nat → Str → Str
  | _, [] => []
  | none, c :: s => if c = '#' then decodeEntities (some 0) s else c :: decodeEntities none s
  | some v, c :: s =>
    if c = ';' then Char.ofNat v :: decodeEntities none s else decodeEntities (some (10 * v + (c.toNat - '0'.toNat))) s

mutual
/-- Labels that can be read back from a drawing: nonterminals as inner nodes, no line break. -/
def CleanNode : ParseTreeNode → Prop
  | .terminal t => '\n' ∉ t
  | .nonterminal lhs kids => (∃ n, lhs = .nonterminal n ∧ '\n' ∉ n) ∧ CleanNodes kids
def CleanNodes : List ParseTreeNode → Prop
  | [] => True
  | k :: ks => CleanNode k ∧ CleanNodes ks
end

end Bnf.Spec
