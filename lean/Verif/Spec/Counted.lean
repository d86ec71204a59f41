import Verif.Model.Counted
import Verif.Spec.Work

/-!
# Specification: all the work of a parse
-/

set_option autoImplicit false

namespace Bnf.Spec
open Bnf

/-- Calling `next()` until it returns `None` gives the trees `ts`, and `c` counts the work. -/
inductive DrainsWith : ParseTreeIter → List ParseTree → Calls → ParseTreeIter → Prop
  | done {it : ParseTreeIter} {n : Nat} {it' : ParseTreeIter} {c : Calls} : it.nextC n = .returned (none, it', c) → DrainsWith it [] c it'
  | step {it : ParseTreeIter} {n : Nat} {t : ParseTree} {it1 : ParseTreeIter} {c : Calls} {ts : List ParseTree} {c' : Calls} {it' : ParseTreeIter} :
      it.nextC n = .returned (some t, it1, c) → DrainsWith it1 ts c' it' → DrainsWith it (t :: ts) (c.plus c') it'

/-- The outcome without the counts. -/
def withoutCounts {α β : Type} : Outcome (α × β × Calls) → Outcome (α × β)
  | .outOfFuel => .outOfFuel
  | .panic => .panic
  | .returned (a, b, _) => .returned (a, b)

/-- The term that the partial derivation waits for. -/
def Begun.Waits (x : Begun) (T : Term) : Prop := ∃ pre post, x.alt.terms = pre ++ T :: post ∧ pre.length = x.forest.length

mutual
/-- Look-ups for reading a node: for an inner node with `k` children, one for the node, `k + 1` for going to the root of its chain of traversals, and
`k`, `k - 1`, ..., 1 for finding the children one after the other. -/
def nodeReading : ParseTreeNode → Nat
  | .terminal _ => 0
  | .nonterminal _ kids => 1 + (kids.length + 1) * (kids.length + 2) / 2 + kidsReading kids
/-- The same for a list of nodes. -/
def kidsReading : List ParseTreeNode → Nat
  | [] => 0
  | n :: ns => nodeReading n + kidsReading ns
end

/-- Look-ups for reading a tree. -/
def treeReading (t : ParseTree) : Nat := nodeReading (.nonterminal t.lhs t.rhs)

end Bnf.Spec
