import Verif.Spec.Derivation

/-! # Sizes of grammars and repeated texts -/

set_option autoImplicit false

namespace Bnf.Spec
open Bnf

/-- Number of characters of a term, a nonterminal counted as one. -/
def termChars : Term → Nat
  | .terminal s => s.length
  | .nonterminal _ => 1

/-- Number of characters of an alternative, nonterminals counted as one. -/
def altChars (ts : List Term) : Nat := (ts.map termChars).sum

/-- The largest alternative of a grammar, at least 1. -/
def largest (g : Grammar) : Nat := (g.productions.flatMap fun p => p.rhs.map fun e => altChars e.terms).foldr max 1

/-- A bound that can be computed from the grammar. -/
def pumpBound (g : Grammar) : Nat := largest g ^ (g.productions.length + 1)

/-- `v` written `k` times. -/
def times : Nat → Str → Str
  | 0, _ => []
  | k + 1, v => v ++ times k v

/-- As many `a` as `b` as `c`, in this order. -/
def abc (n : Nat) : Str := List.replicate n 'a' ++ List.replicate n 'b' ++ List.replicate n 'c'

end Bnf.Spec
