import Mathlib.Computability.ContextFreeGrammar
import Verif.Spec.Derivation

/-!
# Specification: a grammar as a context-free grammar in the sense of Mathlib

Mathlib defines the language of a context-free grammar by rewriting strings of symbols, step by step, without trees.
-/

set_option autoImplicit false

namespace Bnf.Spec

/-- A terminal is the string of its characters, a nonterminal one symbol. -/
def symbols : Term → List (Symbol Char Term)
  | .terminal s => s.map .terminal
  | .nonterminal n => [.nonterminal (.nonterminal n)]

/-- One rule per alternative. -/
def cfgRules (g : Grammar) : Finset (ContextFreeRule Char Term) :=
  (g.productions.flatMap fun p => p.rhs.map fun e => ⟨p.lhs, e.terms.flatMap symbols⟩).toFinset

/-- The context-free grammar over characters. -/
def cfg (g : Grammar) (start : Term) : ContextFreeGrammar Char where
  NT := Term
  initial := start
  rules := cfgRules g

end Bnf.Spec
