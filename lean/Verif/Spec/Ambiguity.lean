import Verif.Spec.Work
import Verif.Spec.Copies
import Mathlib.Algebra.BigOperators.Finprod

/-! # Specification: how ambiguous a grammar is -/

set_option autoImplicit false

namespace Bnf.Spec

/-- There are at most `k` ways to read the text `w` as the term `T`: `k` derivation trees, each counted as often as
copies of its alternatives can be chosen. -/
def ReadAtMost (g : Grammar) (T : Term) (w : Str) (k : Nat) : Prop :=
  {t | IsParse g T w t}.Finite ∧ ∑ᶠ t ∈ {t | IsParse g T w t}, copies g t ≤ k

/-- No text of at most `n` characters can be read in more than `a n` ways as the same term. -/
def AmbiguityAtMost (g : Grammar) (a : Nat → Nat) : Prop := ∀ n T w, w.length ≤ n → ReadAtMost g T w (a n)

end Bnf.Spec
