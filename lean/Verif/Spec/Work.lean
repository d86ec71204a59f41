import Verif.Spec.Calls
import Verif.Spec.Trap

/-!
# Specification: work done by the parser

`Viable` and what follows it only use derivation trees and splittings of the input.
`NextIn` and `DrainsIn` count the rounds of the loop in `src/earley/mod.rs` 115-177.
-/

set_option autoImplicit false

namespace Bnf.Spec

/-- A partial derivation: after the prefix `seen` of the input, the alternative `alt` of `lhs` has been begun and the
derivations `forest` of its first terms have been found. -/
structure Begun where
  seen : Str
  lhs : Term
  alt : Expression
  forest : List ParseTreeNode

/-- The partial derivations a left-to-right reader of the input has to consider: `lhs` is expected after `seen`,
and the derivations of the first terms of the alternative spell what follows `seen` in the input. -/
def Viable (g : Grammar) (S : Term) (input : Str) (x : Begun) : Prop :=
  HasAlt g x.lhs x.alt ∧ Expected g S input x.seen x.lhs ∧
    ∃ pre post r, x.alt.terms = pre ++ post ∧ IsForest g pre x.forest ∧ input = x.seen ++ yield x.forest ++ r

/-- The call returns `r` after exactly `n` rounds of the loop. -/
def NextIn (it : ParseTreeIter) (n : Nat) (r : Option ParseTree) (it' : ParseTreeIter) : Prop :=
  it.next n = .returned (r, it') ∧ ∀ m, m < n → it.next m = .outOfFuel

/-- Calling `next()` until it returns `None` gives the trees `ts` and takes `n` rounds of the loop in all. -/
inductive DrainsIn : ParseTreeIter → List ParseTree → Nat → ParseTreeIter → Prop
  | done {it n it'} : NextIn it n none it' → DrainsIn it [] n it'
  | step {it n t it1 ts m it'} : NextIn it n (some t) it1 → DrainsIn it1 ts m it' → DrainsIn it (t :: ts) (n + m) it'

/-- No text has two derivation trees from the same term. -/
def Unambiguous (g : Grammar) : Prop := ∀ T w t t', IsParse g T w t → IsParse g T w t' → t = t'

/-- Every nonterminal used in an alternative derives some text. -/
def Productive (g : Grammar) : Prop :=
  ∀ lhs e n, HasAlt g lhs e → Term.nonterminal n ∈ e.terms → ∃ w, Derives g (.nonterminal n) w

/-- All alternatives of a grammar with the terms on their left, in order. -/
def alternatives (g : Grammar) : List (Term × Expression) :=
  g.productions.flatMap fun p => p.rhs.map fun e => (p.lhs, e)

/-- The number of places in the alternatives of a grammar: before, between and after their terms. -/
def places (g : Grammar) : Nat := ((alternatives g).map fun a => a.2.terms.length + 1).sum

end Bnf.Spec
