import Verif.Model.Basic

/-!
# Specification: derivation trees of a grammar

Independent of the parser: only the data types `Grammar` and `ParseTree` are used.
-/

namespace Bnf.Spec

mutual
/-- Concatenated terminals of a node, left to right. -/
def nodeYield : ParseTreeNode → Str
  | .terminal s => s
  | .nonterminal _ rhs => yield rhs

/-- Concatenated terminals of a list of nodes, left to right. -/
def yield : List ParseTreeNode → Str
  | [] => []
  | n :: ns => nodeYield n ++ yield ns
end

/-- `(lhs, e)` is an alternative of the grammar. -/
def HasAlt (g : Grammar) (lhs : Term) (e : Expression) : Prop :=
  ∃ p ∈ g.productions, p.lhs = lhs ∧ e ∈ p.rhs

/-- `IsForest g ts ns`: the nodes `ns` are derivations of the terms `ts`, one node per term:
a terminal is its own leaf, a nonterminal node carries that nonterminal and its children are
a forest for one of the grammar's alternatives of that nonterminal. -/
inductive IsForest (g : Grammar) : List Term → List ParseTreeNode → Prop
  | nil : IsForest g [] []
  | terminal {s : Str} {ts ns} : IsForest g ts ns → IsForest g (.terminal s :: ts) (.terminal s :: ns)
  | nonterminal {n : Str} {e : Expression} {kids ts ns} :
      HasAlt g (.nonterminal n) e → IsForest g e.terms kids → IsForest g ts ns →
      IsForest g (.nonterminal n :: ts) (.nonterminal (.nonterminal n) kids :: ns)

/-- A derivation tree of the grammar. -/
def IsTree (g : Grammar) (t : ParseTree) : Prop :=
  ∃ e, HasAlt g t.lhs e ∧ IsForest g e.terms t.rhs

/-- `t` is a derivation tree for `input` with root `start`. -/
structure IsParse (g : Grammar) (start : Term) (input : Str) (t : ParseTree) : Prop where
  root : t.lhs = start
  tree : IsTree g t
  spells : yield t.rhs = input

/-- The language of a term: strings with a derivation tree. -/
def Derives (g : Grammar) (start : Term) (input : Str) : Prop := ∃ t, IsParse g start input t

end Bnf.Spec
