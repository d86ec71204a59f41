import Verif.Spec.Derivation

/-!
# Specification: renaming and mirroring grammars and trees
-/

set_option autoImplicit false

namespace Bnf.Spec

/-- Rename nonterminals by `f` and the characters of terminals by `c`. -/
def renTerm (f : Str → Str) (c : Char → Char) : Term → Term
  | .terminal s => .terminal (s.map c)
  | .nonterminal n => .nonterminal (f n)

def renGrammar (f : Str → Str) (c : Char → Char) (g : Grammar) : Grammar :=
  ⟨g.productions.map fun p => ⟨renTerm f c p.lhs, p.rhs.map fun e => ⟨e.terms.map (renTerm f c)⟩⟩⟩

mutual
def renNode (f : Str → Str) (c : Char → Char) : ParseTreeNode → ParseTreeNode
  | .terminal s => .terminal (s.map c)
  | .nonterminal l kids => .nonterminal (renTerm f c l) (renNodes f c kids)
def renNodes (f : Str → Str) (c : Char → Char) : List ParseTreeNode → List ParseTreeNode
  | [] => []
  | k :: ks => renNode f c k :: renNodes f c ks
end

def renTree (f : Str → Str) (c : Char → Char) (t : ParseTree) : ParseTree := ⟨renTerm f c t.lhs, renNodes f c t.rhs⟩

/-- Reverse the terminals. -/
def mirTerm : Term → Term
  | .terminal s => .terminal s.reverse
  | .nonterminal n => .nonterminal n

/-- Reverse all alternatives and terminals. -/
def mirGrammar (g : Grammar) : Grammar :=
  ⟨g.productions.map fun p => ⟨p.lhs, p.rhs.map fun e => ⟨(e.terms.map mirTerm).reverse⟩⟩⟩

mutual
def mirNode : ParseTreeNode → ParseTreeNode
  | .terminal s => .terminal s.reverse
  | .nonterminal l kids => .nonterminal l (mirNodes kids)
/-- Reverse the order of nodes, at all depths. -/
def mirNodes : List ParseTreeNode → List ParseTreeNode
  | [] => []
  | k :: ks => mirNodes ks ++ [mirNode k]
end

def mirTree (t : ParseTree) : ParseTree := ⟨t.lhs, mirNodes t.rhs⟩

end Bnf.Spec
