import Verif.Spec.Extinction

/-!
# Specification: chances in coverage-guided generation

The coverage-guided strategy remembers which alternatives it has chosen, so what it does next depends on what it did.  The distributions below carry the
memory along.
-/

set_option autoImplicit false

namespace Bnf.Spec
open Bnf

/-- The result and the tape, without the memory of the strategy. -/
def forget {M σ : Type} : GenRes (M × σ) → GenRes σ
  | .fuel => .fuel
  | .panic => .panic
  | .done r st => .done r st.2

/-- Outcomes with the memory afterwards and their probabilities. -/
abbrev MemDist (M : Type) := List (Str × M × ℚ)

/-- Expand terms one after the other, each with the memory the one before leaves. -/
def memTerms {M : Type} (D : M → Str → MemDist M) : List Term → M → MemDist M
  | [], m => [([], m, 1)]
  | .terminal u :: ts, m => (memTerms D ts m).map fun o => (u ++ o.1, o.2.1, o.2.2)
  | .nonterminal x :: ts, m => (D m x).flatMap fun o => (memTerms D ts o.2.1).map fun o' => (o.1 ++ o'.1, o'.2.1, o.2.2 * o'.2.2)

/-- The position of the first production of `x`. -/
def posOf (g : Grammar) (x : Str) : Nat := g.productions.findIdx fun p => p.lhs == .nonterminal x

/-- The distribution of the sentences of `x` that need at most `n` nested expansions, if with memory `m` each element of `alts m a p` (an alternative
and the memory afterwards) is chosen with the same probability for the production `p` in position `a`. -/
def memDist {M : Type} (g : Grammar) (alts : M → Nat → Production → List (Expression × M)) : Nat → M → Str → MemDist M
  | 0, _, _ => []
  | n + 1, m, x =>
    match firstOf g x with
    | none => [(x, m, 1)]
    | some p => if Barren p then [] else
      (alts m (posOf g x) p).flatMap fun e => (memTerms (memDist g alts n) e.1.terms e.2).map fun o => (o.1, o.2.1, o.2.2 / (alts m (posOf g x) p).length)

/-- The alternatives of the production in position `a` that were not used, with their indices. -/
def unusedAlts (seen : List (Nat × Nat)) (a : Nat) (p : Production) : List (Expression × Nat) := p.rhs.zipIdx.filter fun e => (a, e.2) ∉ seen

/-- Coverage: the unused alternatives, or all of them if there are none; the chosen one is then used. -/
def coverAlts (seen : List (Nat × Nat)) (a : Nat) (p : Production) : List (Expression × List (Nat × Nat)) :=
  (if unusedAlts seen a p = [] then p.rhs.zipIdx else unusedAlts seen a p).map fun e => (e.1, (a, e.2) :: seen)

/-- The probability of the outcomes with `P`. -/
def MemDist.mass {M : Type} (D : MemDist M) (P : Str → Bool) : ℚ := (D.map fun o => if P o.1 then o.2.2 else 0).sum

end Bnf.Spec
