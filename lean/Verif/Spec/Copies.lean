import Verif.Model.Basic

/-!
# Specification: how often a derivation tree is written in a grammar

Independent of the parser: only the data types `Grammar` and `ParseTree` are used.  A grammar may list the same
alternative of the same left-hand side more than once.  A tree can then be read in several ways: each of its inner
nodes may use any of the equal alternatives.
-/

set_option autoImplicit false

namespace Bnf.Spec

/-- The term at the root of a node. -/
def rootTerm : ParseTreeNode → Term
  | .terminal s => .terminal s
  | .nonterminal lhs _ => lhs

/-- How often the grammar lists the alternative `e` for the left-hand side `lhs`. -/
def timesListed (g : Grammar) (lhs : Term) (e : Expression) : Nat :=
  (g.productions.map fun p => if p.lhs = lhs then p.rhs.count e else 0).sum

mutual
/-- Ways of choosing, at every inner node, one of the equal alternatives the grammar lists for it. -/
def nodeCopies (g : Grammar) : ParseTreeNode → Nat
  | .terminal _ => 1
  | .nonterminal lhs rhs => timesListed g lhs ⟨rhs.map rootTerm⟩ * forestCopies g rhs
def forestCopies (g : Grammar) : List ParseTreeNode → Nat
  | [] => 1
  | n :: ns => nodeCopies g n * forestCopies g ns
end

/-- The number of ways to read a tree: the product, over its inner nodes, of the number of times the grammar lists
the alternative used there. -/
def copies (g : Grammar) (t : ParseTree) : Nat :=
  timesListed g t.lhs ⟨t.rhs.map rootTerm⟩ * forestCopies g t.rhs

end Bnf.Spec
