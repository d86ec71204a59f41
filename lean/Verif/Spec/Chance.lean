import Mathlib.Algebra.Order.Field.Rat
import Verif.Model.Generate

/-!
# Specification: chances in sentence generation

An ideal random source: `random_range(0..n)` returns each number below `n` with the same probability, independently of everything before.
This is expressed without measure theory.  A tape is the list of all numbers drawn in a run; its probability is the product of `1/n` over
its draws, and the probability of an event is the sum over the tapes of the runs in which it happens (each run draws finitely many numbers, and
no tape of a run is the beginning of the tape of another one).
-/

set_option autoImplicit false

namespace Bnf.Spec
open Bnf

/-- Draw a number below `n` from the tape; the second component is the probability of what was drawn so far.  A tape that does not fit (too short,
or a number that is too large) has probability 0. -/
def drawTape : List Nat × ℚ → Nat → Nat × (List Nat × ℚ)
  | ([], _), _ => (0, ([], 0))
  | (x :: xs, w), n => if x < n then (x, (xs, w / n)) else (0, (xs, 0))

/-- The random source that reads from a tape. -/
def tapeRng : Rng (List Nat × ℚ) Unit where
  index := drawTape
  u32 := drawTape
  fill r := ((), r)
  fromSeed _ := ([], 0)
  index_lt r n h := by
    obtain ⟨xs, w⟩ := r
    cases xs with
    | nil => exact h
    | cons x xs => simp only [drawTape]; split <;> assumption
  u32_lt r n h := by
    obtain ⟨xs, w⟩ := r
    cases xs with
    | nil => exact h
    | cons x xs => simp only [drawTape]; split <;> assumption

/-- The probability of the tape if the run returns a sentence with `P` and reads the whole tape. -/
def weightOf (P : Str → Bool) : GenRes (List Nat × ℚ) → ℚ
  | .done (.ok s) ([], w) => if P s then w else 0
  | _ => 0

/-- `p` is the probability that `run`, given a tape, returns a sentence with `P`: the sum over the tapes (of which finitely many contribute). -/
def HasChance (run : List Nat × ℚ → GenRes (List Nat × ℚ)) (P : Str → Bool) (p : ℚ) : Prop :=
  ∃ tapes : List (List Nat), tapes.Nodup ∧ (∀ t, weightOf P (run (t, 1)) ≠ 0 → t ∈ tapes) ∧
    (tapes.map fun t => weightOf P (run (t, 1))).sum = p

/-! ## Distributions -/

/-- Outcomes with their probabilities; what is missing to 1 is the probability of any other ending (or none). -/
abbrev Dist := List (Str × ℚ)

/-- The probability of the outcomes with `P`. -/
def Dist.mass (D : Dist) (P : Str → Bool) : ℚ := (D.map fun o => if P o.1 then o.2 else 0).sum

/-- Expand terms one after the other. -/
def distTerms (D : Str → Dist) : List Term → Dist
  | [] => [([], 1)]
  | .terminal u :: ts => (distTerms D ts).map fun o => (u ++ o.1, o.2)
  | .nonterminal x :: ts => (D x).flatMap fun o => (distTerms D ts).map fun o' => (o.1 ++ o'.1, o.2 * o'.2)

/-- The first production of `x`. -/
def firstOf (g : Grammar) (x : Str) : Option Production := g.productions.find? fun p => p.lhs == .nonterminal x

/-- Nothing to choose: no alternative, or one without terms. -/
def Barren (p : Production) : Prop := p.rhs = [] ∨ p.rhs = [⟨[]⟩]

instance (p : Production) : Decidable (Barren p) := by unfold Barren; infer_instance

/-- The distribution of the sentences of `x` that need at most `n` nested expansions, if at depth `d` each element of `alts d p` is chosen
with the same probability. -/
def dist (g : Grammar) (alts : Nat → Production → List Expression) : Nat → Nat → Str → Dist
  | 0, _, _ => []
  | n + 1, d, x =>
    match firstOf g x with
    | none => [(x, 1)]
    | some p => if Barren p then [] else
      (alts d p).flatMap fun e => (distTerms (dist g alts n (d + 1)) e.terms).map fun o => (o.1, o.2 / (alts d p).length)

/-- A terminal ends at once. -/
def termChance (q : Str → ℚ) : Term → ℚ
  | .terminal _ => 1
  | .nonterminal x => q x

/-- The probability of ending within `n` nested expansions: the iteration for the extinction probability of a branching process. -/
def endChance (g : Grammar) (alts : Nat → Production → List Expression) : Nat → Nat → Str → ℚ
  | 0, _, _ => 0
  | n + 1, d, x =>
    match firstOf g x with
    | none => 1
    | some p => if Barren p then 0 else
      ((alts d p).map fun e => (e.terms.map (termChance (endChance g alts n (d + 1)))).prod).sum / (alts d p).length

/-- All alternatives have the same chance. -/
def uniformAlts : Nat → Production → List Expression := fun _ p => p.rhs

/-- A terminal. -/
def isTerminal : Term → Bool
  | .terminal _ => true
  | .nonterminal _ => false

/-- Below depth `m` all alternatives have the same chance, from there on those without nonterminals if there are any. -/
def boundedAlts (m : Nat) : Nat → Production → List Expression := fun d p =>
  let flat := p.rhs.filter fun e => e.terms.all isTerminal
  if m ≤ d ∧ flat ≠ [] then flat else p.rhs

/-- Each alternative as often as its weight, or once each if all weights are 0. -/
def weightedAlts (recursive other : Nat) : Nat → Production → List Expression := fun _ p =>
  let all := p.rhs.flatMap fun e => List.replicate (if p.lhs ∈ e.terms then recursive else other) e
  if all = [] then p.rhs else all

/-- The weight of a term, given weights of nonterminals. -/
def termWeight (v : Str → ℚ) : Term → ℚ
  | .terminal _ => 0
  | .nonterminal x => v x

/-- The total weight of the nonterminals in an alternative (their number, if all weights are 1). -/
def offspring (v : Str → ℚ) (e : Expression) : ℚ := (e.terms.map (termWeight v)).sum

end Bnf.Spec
