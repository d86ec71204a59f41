import Verif.Model.Generic

/-!
# What a list with separators is, and what a vector that only grows is
-/

set_option autoImplicit false

namespace Bnf.Spec.Generic

open Bnf.Generic

variable {σ ι ε α δ : Type}

/-- From the state and input `a` on, an item and then a separator are read, which leads to `b`. -/
def Pair (parser : Parser σ ι ε α) (delimiter : Parser σ ι ε δ) (a : σ × ι) (o : α) (b : σ × ι) : Prop :=
  ∃ s j d, parser a.1 a.2 = (.ok j o, s) ∧ delimiter s j = (.ok b.2 d, b.1)

/-- From `a` on, items are read that are each followed by a separator. -/
inductive Pairs (parser : Parser σ ι ε α) (delimiter : Parser σ ι ε δ) : σ × ι → List α → σ × ι → Prop
  | none (a) : Pairs parser delimiter a [] a
  | more {a o b os c} : Pair parser delimiter a o b → Pairs parser delimiter b os c → Pairs parser delimiter a (o :: os) c

/-- How reading a list can end: items each followed by a separator, and then
* an item that no separator follows: the list, the input is left before the place where the separator is missing;
* an item that cannot be read: its error, whatever was read before;
* an item, and a separator that fails for good. -/
inductive Ends (parser : Parser σ ι ε α) (delimiter : Parser σ ι ε δ) (a : σ × ι) : Outcome ι ε (List α) → σ → Prop
  | list {os b j o s e s'} : Pairs parser delimiter a os b → parser b.1 b.2 = (.ok j o, s) → delimiter s j = (.error e, s') →
      Ends parser delimiter a (.ok j (os ++ [o])) s'
  | noItem {os b e s} : Pairs parser delimiter a os b → parser b.1 b.2 = (.error e, s) → Ends parser delimiter a (.error e) s
  | failure {os b e s} : Pairs parser delimiter a os b → parser b.1 b.2 = (.failure e, s) → Ends parser delimiter a (.failure e) s
  | incomplete {os b e s} : Pairs parser delimiter a os b → parser b.1 b.2 = (.incomplete e, s) → Ends parser delimiter a (.incomplete e) s
  | delimiterFailure {os b j o s e s'} : Pairs parser delimiter a os b → parser b.1 b.2 = (.ok j o, s) →
      delimiter s j = (.failure e, s') → Ends parser delimiter a (.failure e) s'
  | delimiterIncomplete {os b j o s e s'} : Pairs parser delimiter a os b → parser b.1 b.2 = (.ok j o, s) →
      delimiter s j = (.incomplete e, s') → Ends parser delimiter a (.incomplete e) s'

/-- The item that a call adds to a vector of `n` items. -/
def added (n : Nat) : AppendOnlyVec.Call α → α
  | .push a => a
  | .pushWithId b => b n

end Bnf.Spec.Generic
