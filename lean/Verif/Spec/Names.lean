import Verif.Spec.Ebnf

/-!
# Specification: names for groups and optionals
-/

set_option autoImplicit false

namespace Bnf.Spec
open Bnf

mutual

/-- Number of groups and optionals in a term. -/
def _root_.Bnf.ParsedTerm.brackets : ParsedTerm → Nat
  | .simple _ => 0
  | .group as => 1 + altsBrackets as
  | .optional as => 1 + altsBrackets as

/-- The same for a sequence of terms. -/
def termsBrackets : List ParsedTerm → Nat
  | [] => 0
  | t :: ts => t.brackets + termsBrackets ts

/-- The same for a list of alternatives. -/
def altsBrackets : List (List ParsedTerm) → Nat
  | [] => 0
  | e :: es => termsBrackets e + altsBrackets es

end

/-- Number of groups and optionals in the text. -/
def brackets : ParsedGrammar → Nat
  | [] => 0
  | p :: ps => altsBrackets p.rhs + brackets ps

/-- The name `__anonK`, with `K` in decimal. -/
def numbered (k : Nat) : Str := "__anon".toList ++ (toString k).toList

/-- `x` is among the first `brackets pg` of the names `__anon0`, `__anon1`, … that the text does not declare: it is `__anonK`, is not declared,
and fewer than `brackets pg` of the numbers below `K` give undeclared names. -/
def Taken (pg : ParsedGrammar) (x : Str) : Prop :=
  ∃ k, x = numbered k ∧ ¬ DeclaredIn x pg ∧
    ∃ below : List Nat, below.Nodup ∧ (∀ j, j ∈ below ↔ j < k ∧ ¬ DeclaredIn (numbered j) pg) ∧ below.length < brackets pg

end Bnf.Spec
