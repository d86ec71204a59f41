import Mathlib.Data.Real.Basic
import Verif.Spec.Chance
import Verif.Spec.Endless

/-!
# Specification: ending with probability 1

The calls with `n` nested expansions have growing probabilities of returning a sentence; ending almost surely means that they come arbitrarily close to 1.
-/

set_option autoImplicit false

namespace Bnf.Spec
open Bnf

/-- The call returns a sentence with probability 1: by allowing enough nested expansions the probability comes as close to 1 as wanted. -/
def AlmostSurely (run : Nat → List Nat × ℚ → GenRes (List Nat × ℚ)) : Prop :=
  ∀ ε : ℚ, 0 < ε → ∃ n q, HasChance (run n) (fun _ => true) q ∧ 1 - ε ≤ q

/-- The probability `q` of returning a sentence at all: the least upper bound over the numbers of nested expansions. -/
def ReturnsWith (run : Nat → List Nat × ℚ → GenRes (List Nat × ℚ)) (q : ℝ) : Prop :=
  IsLUB {p : ℝ | ∃ n, ∃ r : ℚ, HasChance (run n) (fun _ => true) r ∧ (r : ℝ) = p} q

/-- A terminal ends for sure, a nonterminal with probability `q`. -/
def termEnds (q : Str → ℝ) : Term → ℝ
  | .terminal _ => 1
  | .nonterminal x => q x

/-- The right-hand side of the equation for `x`: the average over the alternatives of the probability that all nonterminals in it end, each of them with
probability `q`.  (A nonterminal without production ends at once; a production without a choice is an error.) -/
noncomputable def afterOne (g : Grammar) (alts : Production → List Expression) (q : Str → ℝ) (x : Str) : ℝ :=
  match firstOf g x with
  | none => 1
  | some p => if Barren p then 0 else ((alts p).map fun e => (e.terms.map (termEnds q)).prod).sum / (alts p).length

/-- `q d x` are the probabilities of ending for `x` at depth `d`: the least solution of the equations. -/
def LeastSolution (g : Grammar) (alts : Nat → Production → List Expression) (q : Nat → Str → ℝ) : Prop :=
  (∀ d x, 0 ≤ q d x ∧ q d x = afterOne g (alts d) (q (d + 1)) x) ∧
  ∀ v : Nat → Str → ℝ, (∀ d x, 0 ≤ v d x) → (∀ d x, v d x = afterOne g (alts d) (v (d + 1)) x) → ∀ d x, q d x ≤ v d x

/-- Count only the weights of the nonterminals of the same rank as `x`. -/
def sameRank (rank : Str → Nat) (v : Str → ℚ) (x : Str) : Str → ℚ := fun y => if rank y = rank x then v y else 0

end Bnf.Spec
