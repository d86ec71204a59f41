import Verif.Model.Editing

/-!
# Changing parse trees

`lhs` is a public field, `rhs_iter_mut()` hands out the children one after the other, and a child that is an inner node has children in turn.
-/

set_option autoImplicit false

namespace Bnf

/-- A change of the node at the end of a path, reached through the items of `rhs_iter_mut()` (`src/grammar.rs` 180-182): at each inner node passed, the path
says which item is taken.  Where the path leads to no node, no item is handed out and nothing is changed. -/
def ParseTreeNode.editAt (f : ParseTreeNode → ParseTreeNode) : List Nat → ParseTreeNode → ParseTreeNode
  | [], n => f n
  | i :: path, .nonterminal lhs rhs => .nonterminal lhs (writeAt (ParseTreeNode.editAt f path) rhs i)
  | _ :: _, .terminal s => .terminal s

/-- The same in a tree; the path is not empty: `i` is the item of the root. -/
def ParseTree.editAt (t : ParseTree) (i : Nat) (path : List Nat) (f : ParseTreeNode → ParseTreeNode) : ParseTree :=
  ⟨t.lhs, writeAt (ParseTreeNode.editAt f path) t.rhs i⟩

/-- Assigning to the public field `lhs` (`src/grammar.rs` 62). -/
def ParseTree.setLhs (t : ParseTree) (lhs : Term) : ParseTree := ⟨lhs, t.rhs⟩

/-- `src/grammar.rs` 175-177: `rhs_iter()`, and going down in the same way without changing anything. -/
def ParseTreeNode.getAt : List Nat → ParseTreeNode → Option ParseTreeNode
  | [], n => some n
  | i :: path, .nonterminal _ rhs => (rhs[i]?).bind (ParseTreeNode.getAt path)
  | _ :: _, .terminal _ => none

/-- The same in a tree. -/
def ParseTree.getAt (t : ParseTree) (i : Nat) (path : List Nat) : Option ParseTreeNode := (t.rhs[i]?).bind (ParseTreeNode.getAt path)

end Bnf
