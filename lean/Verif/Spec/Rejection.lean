import Mathlib.Data.Real.Basic
import Verif.Spec.Chance

/-!
# Specification: chances of generation with a callback

A callback that looks only at its two arguments (the name of the nonterminal and the text it was expanded to).  An expansion that it rejects is repeated.
-/

set_option autoImplicit false

namespace Bnf.Spec
open Bnf

/-- A callback that looks only at its arguments, and so leaves the random source alone. -/
def verdict (ok : Str → Str → Bool) : Callback (List Nat × ℚ) := fun st x s => (ok x s, st)

/-- Only whole sentences are looked at: expansions of the start must be good, all others are accepted. -/
def wholeSentences (start : Str) (good : Str → Bool) : Str → Str → Bool := fun x s => x != start || good s

/-- The distribution of the sentences of `x` that need at most `n` nested expansions and repetitions, if at depth `d` each element of `alts d p` is chosen
with the same probability, and expansions are repeated until they are `ok`. -/
def distKept (g : Grammar) (alts : Nat → Production → List Expression) (ok : Str → Str → Bool) : Nat → Nat → Str → Dist
  | 0, _, _ => []
  | n + 1, d, x =>
    match firstOf g x with
    | none => [(x, 1)]
    | some p => if Barren p then [] else
      (alts d p).flatMap fun e => (distTerms (distKept g alts ok n (d + 1)) e.terms).flatMap fun o =>
        if ok x o.1 then [(o.1, o.2 / (alts d p).length)]
        else (distKept g alts ok n d x).map fun o' => (o'.1, o.2 / (alts d p).length * o'.2)

/-- The probability `q` that the call returns a sentence with `P`: the least upper bound over the numbers of nested expansions and repetitions, with which
the probability grows. -/
def OverallChance (run : Nat → List Nat × ℚ → GenRes (List Nat × ℚ)) (P : Str → Bool) (q : ℝ) : Prop :=
  IsLUB {p : ℝ | ∃ n, ∃ r : ℚ, HasChance (run n) P r ∧ (r : ℝ) = p} q

/-- The strategies that choose at random and independently of the choices before, with the alternatives among which they choose. -/
inductive Choosing (g : Grammar) : Strategy (List Nat × ℚ) → (Nat → Production → List Expression) → Prop
  | randomWalk : Choosing g (RandomWalk tapeRng) uniformAlts
  | depthBounded (m : Nat) : Choosing g (DepthBounded tapeRng m) (boundedAlts m)
  | weighted (checked : Bool) (x y : Nat) : (∀ p ∈ g.productions, (p.rhs.map fun e => if p.lhs ∈ e.terms then x else y).sum < 2 ^ 32) →
    Choosing g (Weighted tapeRng checked x y) (weightedAlts x y)

/-- The average over a list of alternatives. -/
noncomputable def average (f : Expression → ℝ) (es : List Expression) : ℝ := (es.map f).sum / es.length

end Bnf.Spec
