import Verif.Spec.Calls
import Verif.Spec.Derivation
import Mathlib.Computability.Language

/-!
# Specification: grammars built from other grammars

A new rule in front of the productions of one or two grammars that do not share names: choice, sequence and repetition.
-/

set_option autoImplicit false

namespace Bnf.Spec
open Bnf

/-- The term is a left-hand side of the grammar. -/
def Defines (g : Grammar) (T : Term) : Prop := ∃ p ∈ g.productions, p.lhs = T

/-- The term occurs in the grammar. -/
def Mentions (g : Grammar) (T : Term) : Prop := ∃ p ∈ g.productions, p.lhs = T ∨ ∃ e ∈ p.rhs, T ∈ e.terms

/-- The rule for the nonterminal `s` in front of the productions of two grammars. -/
def ruleFor (s : Str) (alts : List Expression) (g₁ g₂ : Grammar) : Grammar := ⟨⟨.nonterminal s, alts⟩ :: (g₁.productions ++ g₂.productions)⟩

/-- `<s> ::= <a> | <b>`. -/
def either (s a b : Str) : Grammar → Grammar → Grammar := ruleFor s [⟨[.nonterminal a]⟩, ⟨[.nonterminal b]⟩]

/-- `<s> ::= <a> <b>`. -/
def followed (s a b : Str) : Grammar → Grammar → Grammar := ruleFor s [⟨[.nonterminal a, .nonterminal b]⟩]

/-- `<s> ::= '' | <a> <s>`. -/
def repeated (s a : Str) (g : Grammar) : Grammar := ⟨⟨.nonterminal s, [⟨[.terminal []]⟩, ⟨[.nonterminal a, .nonterminal s]⟩]⟩ :: g.productions⟩

/-- `<s>` is new, `<a>` is defined by the first grammar and `<b>` by the second, and neither grammar defines a term that occurs in the other. -/
structure Combinable (s a b : Str) (g₁ g₂ : Grammar) : Prop where
  fresh₁ : ¬ Mentions g₁ (.nonterminal s)
  fresh₂ : ¬ Mentions g₂ (.nonterminal s)
  first : Defines g₁ (.nonterminal a)
  second : Defines g₂ (.nonterminal b)
  apart₁ : ∀ T, Defines g₂ T → ¬ Mentions g₁ T
  apart₂ : ∀ T, Defines g₁ T → ¬ Mentions g₂ T

/-- Finitely many calls return the tree. -/
def Returns (it : ParseTreeIter) (t : ParseTree) : Prop := ∃ ts it', Draws it ts it' ∧ t ∈ ts

/-- The calls return the trees, and then `None`. -/
def GivesAll (it : ParseTreeIter) (ts : List ParseTree) : Prop := ∃ it1 it2, Draws it ts it1 ∧ Next it1 none it2

/-- The tree with root `<s>` over these trees. -/
def over (s : Str) (ts : List ParseTree) : ParseTree := ⟨.nonterminal s, ts.map fun t => .nonterminal t.lhs t.rhs⟩

/-- The tree of a repetition. -/
def chain (s : Str) : List ParseTree → ParseTree
  | [] => ⟨.nonterminal s, [.terminal []]⟩
  | t :: ts => over s [t, chain s ts]

/-- All ways to cut a text in two. -/
def cuts (w : Str) : List (Str × Str) := (List.range (w.length + 1)).map fun i => (w.take i, w.drop i)

/-- The texts that are parsed: the first call returns a tree. -/
def accepted (g : Grammar) (n : Str) : Language Char := {w | ∃ it t it', Opened g (.nonterminal n) w it ∧ Next it (some t) it'}

end Bnf.Spec
