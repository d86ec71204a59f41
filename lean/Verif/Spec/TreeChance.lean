import Verif.Spec.Chance
import Verif.Spec.Derivation
import Verif.Spec.Copies

/-!
# Specification: the probability of a derivation tree

The probability that a random expansion from the root chooses exactly the alternatives of the tree: the product over the inner nodes of the share that the
alternative at the node has among those offered there.
-/

set_option autoImplicit false

namespace Bnf.Spec
open Bnf

/-- The share of the alternative `ts` among those offered for `l` at depth `d` (in the first production of `l`, the only one that is used). -/
def share (g : Grammar) (alts : Nat → Production → List Expression) (d : Nat) : Term → List Term → ℚ
  | .terminal _, _ => 0
  | .nonterminal x, ts =>
    match firstOf g x with
    | none => 0
    | some p => if Barren p then 0 else (alts d p).count ⟨ts⟩ / (alts d p).length

mutual
/-- The probability of a node at depth `d`. -/
def nodeChance (g : Grammar) (alts : Nat → Production → List Expression) (d : Nat) : ParseTreeNode → ℚ
  | .terminal _ => 1
  | .nonterminal l kids => share g alts d l (kids.map rootTerm) * kidsChance g alts (d + 1) kids
/-- The probability of a list of nodes at depth `d`. -/
def kidsChance (g : Grammar) (alts : Nat → Production → List Expression) (d : Nat) : List ParseTreeNode → ℚ
  | [] => 1
  | n :: ns => nodeChance g alts d n * kidsChance g alts d ns
end

/-- The probability of a tree. -/
def treeChance (g : Grammar) (alts : Nat → Production → List Expression) (t : ParseTree) : ℚ := nodeChance g alts 0 (.nonterminal t.lhs t.rhs)

mutual
/-- The nesting of expansions in a node. -/
def nodeNesting : ParseTreeNode → Nat
  | .terminal _ => 0
  | .nonterminal _ kids => kidsNesting kids + 1
/-- The nesting of expansions in a list of nodes. -/
def kidsNesting : List ParseTreeNode → Nat
  | [] => 0
  | n :: ns => max (nodeNesting n) (kidsNesting ns)
end

/-- The nesting of expansions in a tree. -/
def treeNesting (t : ParseTree) : Nat := nodeNesting (.nonterminal t.lhs t.rhs)

/-- Every nonterminal that occurs in an alternative has a production. -/
def AllDeclared (g : Grammar) : Prop := ∀ p ∈ g.productions, ∀ e ∈ p.rhs, ∀ x, Term.nonterminal x ∈ e.terms → ∃ q ∈ g.productions, q.lhs = .nonterminal x

/-- The number of alternatives that the grammar lists for `l`. -/
def choices (g : Grammar) (l : Term) : Nat := (g.productions.map fun p => if p.lhs = l then p.rhs.length else 0).sum

mutual
/-- The probability of making one choice after the other as in the node, if there are equal chances: the product of `1 / choices`. -/
def nodeFair (g : Grammar) : ParseTreeNode → ℚ
  | .terminal _ => 1
  | .nonterminal l kids => 1 / choices g l * kidsFair g kids
/-- The same for a list of nodes. -/
def kidsFair (g : Grammar) : List ParseTreeNode → ℚ
  | [] => 1
  | n :: ns => nodeFair g n * kidsFair g ns
end

/-- The same for a tree. -/
def treeFair (g : Grammar) (t : ParseTree) : ℚ := nodeFair g (.nonterminal t.lhs t.rhs)

/-- Each nonterminal has at most one production, only nonterminals have productions, and there is something to choose in each. -/
structure Tidy (g : Grammar) : Prop where
  once : (g.productions.map (·.lhs)).Nodup
  names : ∀ p ∈ g.productions, ∃ x, p.lhs = .nonterminal x
  choice : ∀ p ∈ g.productions, ¬ Barren p

end Bnf.Spec
