import Verif.Spec.Text

/-!
# Specification: nesting
-/

set_option autoImplicit false

namespace Bnf.Spec
open Bnf

/-- The number of opening brackets in a text. -/
def opens (s : Str) : Nat := s.countP fun c => c == '(' || c == '['

/-- `k` groups and optionals inside each other. -/
inductive Nested : Nat → Item → Prop
  | none {i} : Nested 0 i
  | group {k as} : Nested k (.alts as) → Nested (k + 1) (.term (.group as))
  | optional {k as} : Nested k (.alts as) → Nested (k + 1) (.term (.optional as))
  | terms {k t ts} : t ∈ ts → Nested k (.term t) → Nested k (.terms ts)
  | alts {k e as} : e ∈ as → Nested k (.terms e) → Nested k (.alts as)

end Bnf.Spec
