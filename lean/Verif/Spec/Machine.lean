import Verif.Model.Machine

/-! States that an iterator with bounded integers can get into. -/

set_option autoImplicit false

namespace Bnf.Spec

/-- States reachable by calls of the bounded `next()`. -/
inductive ReachW (max : Nat) : ParseTreeIter → ParseTreeIter → Prop
  | refl {it} : ReachW max it it
  | step {it fuel r it1 it2} : it.nextW max fuel = .returned (r, it1) → ReachW max it1 it2 → ReachW max it it2

end Bnf.Spec
