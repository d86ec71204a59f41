import Verif.Spec.Generate

/-!
# Specification: when generation need not end

Only the grammar and a description of the alternatives a strategy may choose are used.
-/

set_option autoImplicit false

namespace Bnf.Spec

/-- Which alternatives of a production may be chosen at which depth. -/
abbrev Allowance := Nat → Production → Expression → Prop

/-- Random walk: all of them. -/
def anyAlternative : Allowance := fun _ p e => e ∈ p.rhs

/-- Depth bound `m`: from depth `m` on only alternatives made of terminals, if there are any. -/
def depthAllowance (m : Nat) : Allowance := fun d p e =>
  e ∈ p.rhs ∧ (m ≤ d → AllTerminal e ∨ ∀ e' ∈ p.rhs, ¬ AllTerminal e')

/-- Weight of an alternative: `x` if it contains the left-hand side, otherwise `y`. -/
noncomputable def altWeight (x y : Nat) (p : Production) (e : Expression) : Nat :=
  open Classical in if p.lhs ∈ e.terms then x else y

/-- Weights: alternatives with positive weight, or all if there are none. -/
def weightAllowance (x y : Nat) : Allowance := fun _ p e =>
  e ∈ p.rhs ∧ (0 < altWeight x y p e ∨ ∀ e' ∈ p.rhs, altWeight x y p e' = 0)

/-- Allowed choices can turn the nonterminal, reached at this depth, into text. -/
inductive Finishable (g : Grammar) (A : Allowance) : Nat → Str → Prop
  | undeclared {d n} : ¬ Declared g n → Finishable g A d n
  | expand {d n p e} : IsFirst g n p → ¬ NoChoice p → A d p e → (∀ m, .nonterminal m ∈ e.terms → Finishable g A (d + 1) m) →
      Finishable g A d n

/-- Allowed choices can lead from `n`, reached at depth `d`, to an occurrence of `m` in one of its alternatives: all nonterminals before
that occurrence can be turned into text. -/
def Leads (g : Grammar) (A : Allowance) (d : Nat) (n m : Str) : Prop :=
  ∃ p e before after, IsFirst g n p ∧ ¬ NoChoice p ∧ A d p e ∧ e.terms = before ++ .nonterminal m :: after ∧
    ∀ k, .nonterminal k ∈ before → Finishable g A (d + 1) k

/-- Allowed choices can go down forever from `n`, reached at depth `d`. -/
def Endless (g : Grammar) (A : Allowance) (d : Nat) (n : Str) : Prop :=
  ∃ ns : Nat → Str, ns 0 = n ∧ ∀ i, Leads g A (d + i) (ns i) (ns (i + 1))

/-- The starting nonterminal derives something (so that generation does not stop at once with an error), and allowed choices can go down
forever from it. -/
def StartEndless (g : Grammar) (A : Allowance) : Prop :=
  ∃ start w, g.startingTerm = some (.nonterminal start) ∧ Derives g (.nonterminal start) w ∧ Endless g A 0 start

end Bnf.Spec
