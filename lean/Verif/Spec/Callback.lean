import Verif.Spec.Endless

/-!
# Specification: generation with a callback that only looks at its arguments

`acc n v` is the answer of the callback for the text `v` of the nonterminal `n`.
-/

set_option autoImplicit false

namespace Bnf.Spec

/-- Allowed choices can turn the terms, reached at this depth, into the text, all expansions being accepted. -/
inductive Yields (g : Grammar) (A : Allowance) (acc : Str → Str → Bool) : Nat → List Term → Str → Prop
  | nil {d} : Yields g A acc d [] []
  | terminal {d u ts w} : Yields g A acc d ts w → Yields g A acc d (.terminal u :: ts) (u ++ w)
  | undeclared {d n ts w} : ¬ Declared g n → Yields g A acc d ts w → Yields g A acc d (.nonterminal n :: ts) (n ++ w)
  | expand {d n p e v ts w} : IsFirst g n p → ¬ NoChoice p → A d p e → Yields g A acc (d + 1) e.terms v → acc n v = true →
      Yields g A acc d ts w → Yields g A acc d (.nonterminal n :: ts) (v ++ w)

/-- Allowed choices can produce a text for `n` that the callback rejects. -/
def Rejectable (g : Grammar) (A : Allowance) (acc : Str → Str → Bool) (d : Nat) (n : Str) : Prop :=
  ∃ p e v, IsFirst g n p ∧ ¬ NoChoice p ∧ A d p e ∧ Yields g A acc (d + 1) e.terms v ∧ acc n v = false

/-- Allowed choices can lead from `n` to an occurrence of `m` in one of its alternatives. -/
def LeadsTo (g : Grammar) (A : Allowance) (acc : Str → Str → Bool) (d : Nat) (n m : Str) : Prop :=
  ∃ p e before after u, IsFirst g n p ∧ ¬ NoChoice p ∧ A d p e ∧ e.terms = before ++ .nonterminal m :: after ∧
    Yields g A acc (d + 1) before u

/-- A nonterminal that can be rejected can be reached from `n`. -/
inductive ReachesReject (g : Grammar) (A : Allowance) (acc : Str → Str → Bool) : Nat → Str → Prop
  | here {d n} : Rejectable g A acc d n → ReachesReject g A acc d n
  | step {d n m} : LeadsTo g A acc d n m → ReachesReject g A acc (d + 1) m → ReachesReject g A acc d n

/-- Generation from `n` need not end: something can be rejected (again and again), or there is an infinite path. -/
def EndlessWith (g : Grammar) (A : Allowance) (acc : Str → Str → Bool) (d : Nat) (n : Str) : Prop :=
  ReachesReject g A acc d n ∨ ∃ ns : Nat → Str, ns 0 = n ∧ ∀ i, LeadsTo g A acc (d + i) (ns i) (ns (i + 1))

/-- The starting nonterminal derives something (so that generation does not stop at once with an error), and generation from it need
not end. -/
def StartEndlessWith (g : Grammar) (A : Allowance) (acc : Str → Str → Bool) : Prop :=
  ∃ start w, g.startingTerm = some (.nonterminal start) ∧ Derives g (.nonterminal start) w ∧ EndlessWith g A acc 0 start

/-- The callback answers `acc` and has no state of its own. -/
def pureCallback {σ : Type} (acc : Str → Str → Bool) : Callback σ := fun st n t => (acc n t, st)

end Bnf.Spec
