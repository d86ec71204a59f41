import Verif.Spec.Chance

/-!
# Specification: expected numbers of expansions and characters

The number of numbers on the tape of a run is the number of expansions (each of them draws one number).
-/

set_option autoImplicit false

namespace Bnf.Spec
open Bnf

/-- What the run with this tape contributes to the expected value of `f` (of the sentence and the number of draws). -/
def meanPart (f : Str → Nat → ℚ) (tape : List Nat) : GenRes (List Nat × ℚ) → ℚ
  | .done (.ok s) ([], w) => w * f s tape.length
  | _ => 0

/-- `m` is the expected value of `f` over the runs that return a sentence (the others count as 0). -/
def HasMean (run : List Nat × ℚ → GenRes (List Nat × ℚ)) (f : Str → Nat → ℚ) (m : ℚ) : Prop :=
  ∃ tapes : List (List Nat), tapes.Nodup ∧ (∀ t, weightOf (fun _ => true) (run (t, 1)) ≠ 0 → t ∈ tapes) ∧
    (tapes.map fun t => meanPart f t (run (t, 1))).sum = m

/-- `a` for each expansion and `b` for each character of the sentence. -/
def cost (a b : ℚ) : Str → Nat → ℚ := fun s k => a * k + b * s.length

/-- The cost of a term, given that of the nonterminals. -/
def termCost (b : ℚ) (v : Str → ℚ) : Term → ℚ
  | .terminal u => b * u.length
  | .nonterminal x => v x

/-- The cost of an alternative. -/
def altCost (a b : ℚ) (v : Str → ℚ) (e : Expression) : ℚ := a + (e.terms.map (termCost b v)).sum

end Bnf.Spec
