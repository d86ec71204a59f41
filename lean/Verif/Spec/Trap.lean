import Verif.Spec.Acyclic
import Mathlib.Logic.Relation

/-!
# Specification: when reading an input runs into a cyclic derivation

Independent of the parser: only derivation trees and splittings of the input are used.
-/

namespace Bnf.Spec

/-- `Expected g S input u T`: a left-to-right derivation from `S` that has spelled the prefix `u` of the input can
continue with the term `T`: `T` is the starting term itself, or it follows, in an alternative of a term expected
after a shorter prefix, terms which spell the part of the input in between. -/
inductive Expected (g : Grammar) (S : Term) (input : Str) : Str → Term → Prop
  | start : Expected g S input [] S
  | step {u l e pre n post ns r} : Expected g S input u l → HasAlt g l e → e.terms = pre ++ .nonterminal n :: post →
      IsForest g pre ns → input = u ++ yield ns ++ r → Expected g S input (u ++ yield ns) (.nonterminal n)

/-- The nonterminal derives itself, through alternatives whose other terms can be empty. -/
def Cyclic (g : Grammar) (n : Str) : Prop := Relation.TransGen (UnitStep g) n n

/-- Somewhere in the input a cyclic nonterminal is expected and it derives some (possibly empty) text that
really follows there. -/
def Trap (g : Grammar) (S : Term) (input : Str) : Prop :=
  ∃ u n v r, Expected g S input u (.nonterminal n) ∧ Cyclic g n ∧ Derives g (.nonterminal n) v ∧ input = u ++ v ++ r

end Bnf.Spec
