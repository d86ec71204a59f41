import Verif.Spec.Derivation

/-!
# Specification: acyclic grammars
-/

namespace Bnf.Spec

/-- The terms can derive the empty string. -/
def Nullable (g : Grammar) (ts : List Term) : Prop := ∃ ns, IsForest g ts ns ∧ yield ns = []

/-- `n` has an alternative in which `m` occurs and all other terms can derive the empty string. -/
def UnitStep (g : Grammar) (n m : Str) : Prop :=
  ∃ e pre post, HasAlt g (.nonterminal n) e ∧ e.terms = pre ++ .nonterminal m :: post ∧
    Nullable g pre ∧ Nullable g post

/-- No nonterminal derives itself through a non-empty chain of such steps. -/
def Acyclic (g : Grammar) : Prop := ∀ n, ¬ Relation.TransGen (UnitStep g) n n

end Bnf.Spec
