import Verif.Spec.Chance

/-!
# Specification: several calls of generation in a row

As in `Spec/Chance`, without measure theory: a tape now holds the numbers drawn in all calls.
-/

set_option autoImplicit false

namespace Bnf.Spec
open Bnf

/-- `k` calls in a row, each going on where the one before stopped; `none` if one of them does not return a sentence. -/
def inARow {σ : Type} (run : σ → GenRes σ) : Nat → σ → Option (List Str × σ)
  | 0, st => some ([], st)
  | k + 1, st =>
    match run st with
    | .done (.ok s) st' => (inARow run k st').map fun r => (s :: r.1, r.2)
    | _ => none

/-- The probability of the tape if the calls return sentences with `Q` and read the whole tape. -/
def rowWeight (Q : List Str → Prop) [DecidablePred Q] : Option (List Str × (List Nat × ℚ)) → ℚ
  | some (ss, ([], w)) => if Q ss then w else 0
  | _ => 0

/-- `p` is the probability that `k` calls of `run` in a row return sentences that together have `Q`. -/
def HasRowChance (run : List Nat × ℚ → GenRes (List Nat × ℚ)) (k : Nat) (Q : List Str → Prop) [DecidablePred Q] (p : ℚ) : Prop :=
  ∃ tapes : List (List Nat), tapes.Nodup ∧ (∀ t, rowWeight Q (inARow run k (t, 1)) ≠ 0 → t ∈ tapes) ∧
    (tapes.map fun t => rowWeight Q (inARow run k (t, 1))).sum = p

/-- What the calls of a strategy without memory have in common: each sentence has the same probability in each call, whatever came before. -/
def Independent (run : List Nat × ℚ → GenRes (List Nat × ℚ)) : Prop :=
  ∀ (Ps : List (Str → Bool)) (ps : List ℚ), List.Forall₂ (fun P p => HasChance run P p) Ps ps →
    HasRowChance run Ps.length (fun ss => ∀ x ∈ Ps.zip ss, x.1 x.2 = true) ps.prod

/-- `<s> ::= 'a' | 'b' | …`: the sentences are listed. -/
def listGrammar (s : Str) (L : List Str) : Grammar := ⟨[⟨.nonterminal s, L.map fun t => ⟨[.terminal t]⟩⟩]⟩

/-- The probability that, of `n` equally likely things of which `m` are missing, some are still missing after `k` draws. -/
def missing (n : Nat) : Nat → Nat → ℚ
  | 0, m => if m = 0 then 0 else 1
  | _ + 1, 0 => 0
  | k + 1, m + 1 => (m + 1 : ℚ) / n * missing n k m + (1 - (m + 1 : ℚ) / n) * missing n k (m + 1)

end Bnf.Spec
