import Verif.Model.Generate

/-! # Sizes, and the chains of rules for the passes of `terminates` -/

set_option autoImplicit false

namespace Bnf

/-- Occurrences of nonterminals on a right-hand side. -/
def occurrences (es : List Expression) : Nat := (es.map fun e => (e.terms.filter Term.isNonterminal).length).sum

/-- All occurrences of nonterminals on the right-hand sides. -/
def allOccurrences (ps : List Production) : Nat := (ps.map fun p => occurrences p.rhs).sum

/-- The nonterminal with number `k`. -/
def link (k : Nat) : Term := .nonterminal (List.replicate (k + 1) 'a')

/-- The start, which only refers to itself. -/
def barren : Production := ⟨.nonterminal ['s'], [⟨[.nonterminal ['s']]⟩]⟩

/-- `link 0 ::= 'x'`, `link (k + 1) ::= link k`. -/
def linkProd : Nat → Production
  | 0 => ⟨link 0, [⟨[.terminal ['x']]⟩]⟩
  | k + 1 => ⟨link (k + 1), [⟨[link k]⟩]⟩

/-- The productions for the numbers below `k`, the highest first. -/
def downFrom : Nat → List Production
  | 0 => []
  | k + 1 => linkProd k :: downFrom k

/-- The start, then the chain, highest number first. -/
def chainDown (n : Nat) : Grammar := ⟨barren :: downFrom n⟩

/-- The start, then the chain, lowest number first. -/
def chainUp (n : Nat) : Grammar := ⟨barren :: (List.range n).map linkProd⟩

end Bnf
