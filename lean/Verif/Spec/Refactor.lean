import Verif.Spec.Derivation

/-!
# Specification: changes to a grammar that should not change what it describes

Independent of the parser.
-/

set_option autoImplicit false

namespace Bnf.Spec

/-- `us` is obtained from `ts` by replacing nonterminals by their alternatives, any number of times. -/
inductive Rewrites (g : Grammar) (ts : List Term) : List Term → Prop
  | refl : Rewrites g ts ts
  | step {pre n post e} : Rewrites g ts (pre ++ .nonterminal n :: post) → HasAlt g (.nonterminal n) e → Rewrites g ts (pre ++ e.terms ++ post)

/-- `g'` is `g` with the alternative `pre <b> post` of `<a>` replaced by the alternatives obtained from it by writing the alternatives of `<b>` instead of `<b>`. -/
def Inlined (g g' : Grammar) (a b : Str) (pre post : List Term) : Prop :=
  ∀ n e, HasAlt g' (.nonterminal n) e ↔
    (HasAlt g (.nonterminal n) e ∧ ¬ (n = a ∧ e = ⟨pre ++ .nonterminal b :: post⟩)) ∨
    (n = a ∧ ∃ d, HasAlt g (.nonterminal b) d ∧ e = ⟨pre ++ d.terms ++ post⟩)

/-- The two grammars differ in the direction of one repetition: `<x>` is one or more (`base` the repeated alternatives themselves), or any number
(`base` the empty text), of the alternatives `item`, written with `<x>` on the left in `g` and with `<x>` on the right in `g'`. -/
structure Turned (g g' : Grammar) (x : Str) (item : Expression → Prop) : Prop where
  other : ∀ n e, n ≠ x → (HasAlt g (.nonterminal n) e ↔ HasAlt g' (.nonterminal n) e)
  base : ∃ base : Expression → Prop, ((∀ e, base e ↔ item e) ∨ (∀ e, base e ↔ e = ⟨[.terminal []]⟩)) ∧
    (∀ e, HasAlt g (.nonterminal x) e ↔ base e ∨ ∃ d, item d ∧ e = ⟨.nonterminal x :: d.terms⟩) ∧
    (∀ e, HasAlt g' (.nonterminal x) e ↔ base e ∨ ∃ d, item d ∧ e = ⟨d.terms ++ [.nonterminal x]⟩)

end Bnf.Spec
