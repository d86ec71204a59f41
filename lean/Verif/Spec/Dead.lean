import Verif.Model.Earley

/-!
# Specification: parser states between rounds of the loop, and states without a memory of matches
-/

set_option autoImplicit false

namespace Bnf.Spec
open Bnf

/-- The state with the first traversal taken off the queue. -/
def popped (st : PState) (rest : List Nat) : PState := { st with queue := { st.queue with queue := rest } }

/-- States between the rounds of the loop, starting with `st₀`. -/
inductive Visited (pg : ParseGrammar) (st₀ : PState) : PState → Prop
  | refl : Visited pg st₀ st₀
  | step {st : PState} {id : Nat} {rest : List Nat} {st' : PState} {b : Bool} : Visited pg st₀ st → st.queue.queue = id :: rest →
      earleyRound pg (popped st rest) id = some (st', b) → Visited pg st₀ st'

/-- The state with another map of matches made before. -/
def withEdges (st : PState) (m : AMap Edge Nat) : PState := { st with tree := { st.tree with edges := m } }

end Bnf.Spec
