import Verif.Spec.Api

/-! # Specification: what a sequence of terms derives -/

set_option autoImplicit false

namespace Bnf.Spec

/-- The sequence of terms `ts` derives the text `w`. -/
def SeqSpells (g : Grammar) (ts : List Term) (w : Str) : Prop := ∃ ns, IsForest g ts ns ∧ yield ns = w

/-- `l'` is `l` with its `i`-th element changed by `f`; nothing happens if there is none. -/
def ChangedAt {α : Type} (f : α → α) (i : Nat) (l l' : List α) : Prop :=
  l'.length = l.length ∧ (∀ j, j ≠ i → l'[j]? = l[j]?) ∧ l'[i]? = (l[i]?).map f

end Bnf.Spec
