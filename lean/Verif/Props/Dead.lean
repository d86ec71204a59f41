import Verif.Proofs.Dead
import Verif.Props.Parsing

/-! # Property C83: look-ups of the parser that never succeed -/

set_option autoImplicit false

namespace Bnf.Props
open Bnf Spec

/-- C83: in no round is a match found in the map of earlier matches: with an empty map the round has the same outcome, up to this map. -/
theorem C83_edges {g S input it st id rest st' b} (ho : Opened g S input it) (hv : Visited (ParseGrammar.newUnchecked g) it.st st)
    (hq : st.queue.queue = id :: rest) (hr : earleyRound (ParseGrammar.newUnchecked g) (popped st rest) id = some (st', b)) :
    ∃ m, earleyRound (ParseGrammar.newUnchecked g) (withEdges (popped st rest) []) id = some (withEdges st' m, b) := by
  obtain ⟨h, hs⟩ := hv.sim (opened_sim ho)
  exact hs.round_edges hq hr

/-- C83: ids are recorded in increasing order: everything that is in the index of waiting and complete traversals before a round is smaller than
the id of the round, so that the sorted insertion always appends. -/
theorem C83_append {g S input it st id rest} (ho : Opened g S input it) (hv : Visited (ParseGrammar.newUnchecked g) it.st st)
    (hq : st.queue.queue = id :: rest) (key : Term × Nat) (l : List Nat)
    (hl : st.completions.incomplete.get key = some l ∨ st.completions.complete.get key = some l) :
    (∀ k ∈ l, k < id) ∧ sortedVecInsert l id = l ++ [id] := by
  obtain ⟨h, hs⟩ := hv.sim (opened_sim ho)
  obtain ⟨rfl, _, _⟩ := hs.ord.head hq
  have key : ∀ k ∈ l, k < id := by
    intro k hk
    rcases hl with hl | hl
    · exact (hs.ord.popped k).mp ((hs.inv.c.inc key.1 key.2 k).mp (by rw [Prod.mk.eta, hl]; exact hk)).1
    · exact (hs.ord.popped k).mp ((hs.inv.c.com key.1 key.2 k).mp (by rw [Prod.mk.eta, hl]; exact hk)).1
  refine ⟨key, ?_⟩
  clear hl hs
  induction l with
  | nil => rfl
  | cons x xs ih =>
    have hx := key x (by simp)
    rw [sortedVecInsert, if_neg (by omega), if_neg (by omega), ih fun k hk => key k (by simp [hk])]
    rfl

/-- C83: the queue is a counter: it always holds the ids from some `h` up to the last traversal, in order. -/
theorem C83_queue {g S input it st} (ho : Opened g S input it) (hv : Visited (ParseGrammar.newUnchecked g) it.st st) :
    ∃ h ≤ st.tree.arena.length, st.queue.queue = List.range' h (st.tree.arena.length - h) := by
  obtain ⟨h, hs⟩ := hv.sim (opened_sim ho)
  exact ⟨h, hs.ord.basic.hle, hs.ord.basic.queue⟩

/-- `gDup` on `x` after one round: a match has been recorded, and the next round makes the same match for the second alternative. -/
example : ∃ it st st', Opened gDup (.nonterminal ['a']) ['x'] it ∧ Visited (ParseGrammar.newUnchecked gDup) it.st st ∧
    st.tree.edges.get ⟨.terminal ['x'], 0⟩ = some 2 ∧ st.queue.queue = [1, 2] ∧
    earleyRound (ParseGrammar.newUnchecked gDup) (popped st [2]) 1 = some (st', false) ∧
    st'.tree.edges.get ⟨.terminal ['x'], 1⟩ = some 3 :=
  ⟨_, _, _, .deprecatedStarting rfl, .step .refl rfl rfl, rfl, rfl, rfl, rfl⟩

/-- `<a> ::= <b> | <b>`, `<b> ::= 'x'` on `x`: the index holds the first traversal when the second is inserted. -/
example : ∃ it st, Opened ⟨[⟨.nonterminal ['a'], [⟨[.nonterminal ['b']]⟩, ⟨[.nonterminal ['b']]⟩]⟩, ⟨.nonterminal ['b'], [⟨[.terminal ['x']]⟩]⟩]⟩
      (.nonterminal ['a']) ['x'] it ∧
    Visited (ParseGrammar.newUnchecked
      ⟨[⟨.nonterminal ['a'], [⟨[.nonterminal ['b']]⟩, ⟨[.nonterminal ['b']]⟩]⟩, ⟨.nonterminal ['b'], [⟨[.terminal ['x']]⟩]⟩]⟩) it.st st ∧
    st.queue.queue = [1, 2] ∧ st.completions.incomplete.get (.nonterminal ['b'], 0) = some [0] :=
  ⟨_, _, .deprecatedStarting rfl, .step .refl rfl rfl, rfl, rfl⟩

end Bnf.Props
