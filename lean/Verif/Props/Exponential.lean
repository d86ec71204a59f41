import Verif.Proofs.Exponential
import Verif.Props.WorkCopies
import Verif.Props.Counted
import Verif.Proofs.AcyclicCheck

/-! # Property C132: if nothing derives itself, trees have linear size and parsing takes at most exponential work -/

set_option autoImplicit false

namespace Bnf.Props
open Bnf Spec

/-- C132: in a grammar in which no nonterminal derives itself, the trees of a text have a number of nodes linear in its length. -/
theorem C132_trees {g : Grammar} (ha : Acyclic g) : ∃ C, ∀ S w t, IsParse g S w t → 1 + nodesCount t.rhs ≤ C * (w.length + 1) := by
  obtain ⟨B, hB, hz⟩ := Exponential.exists_longest g
  refine ⟨1 + B * Exponential.emptyMax g B + 2 * (Exponential.ownMax g B * Exponential.nameCount g), ?_⟩
  rintro S w t ⟨_, ⟨e, ⟨p, hp, _, hep⟩, hf⟩, rfl⟩
  have h1 := Exponential.forest_size ha hB hz hf
  have h2 := Nat.mul_le_mul_right (Exponential.emptyMax g B) (hz p hp e hep)
  nlinarith [Nat.zero_le ((1 + B * Exponential.emptyMax g B) * (Spec.yield t.rhs).length), Nat.zero_le (Exponential.ownMax g B * Exponential.nameCount g)]

/-- C132: draining the iterator takes a number of rounds at most exponential in the length of the text, whatever the text and the starting term. -/
theorem C132_rounds {g : Grammar} (ha : Acyclic g) : ∃ K, ∀ S input it, Opened g S input it →
    ∃ ts n it', DrainsIn it ts n it' ∧ n ≤ K ^ (input.length + 1) := by
  obtain ⟨K, hK⟩ := Exponential.rounds_exponential ha
  refine ⟨K, fun S input it ho => ?_⟩
  obtain ⟨hfin, hle⟩ := hK S input
  obtain ⟨ts, n, it', h⟩ := (C65_drains_iff_any ho).mpr hfin
  exact ⟨ts, n, it', h, by have := (C65_exact_repeated ho h).2.2; omega⟩

/-- C132: in no state, reached by any calls, are there more traversals than that. -/
theorem C132_memory {g : Grammar} (ha : Acyclic g) : ∃ K, ∀ S input it it', Opened g S input it → Reach it it' →
    it'.st.tree.arena.length ≤ K ^ (input.length + 1) := by
  obtain ⟨K, hK⟩ := Exponential.rounds_exponential ha
  refine ⟨K, fun S input it it' ho hr => ?_⟩
  obtain ⟨hfin, hle⟩ := hK S input
  have := C65_memory_repeated ho hfin hr
  omega

/-- C132: no text has more than exponentially many trees, from any term. -/
theorem C132_ambiguity {g : Grammar} (ha : Acyclic g) : ∃ K, ∀ S input, {t | IsParse g S input t}.Finite ∧
    {t | IsParse g S input t}.ncard ≤ K ^ (input.length + 1) := Exponential.trees_exponential ha

/-- C132: so is everything that the loops of the parser do. -/
theorem C132_work {g : Grammar} (ha : Acyclic g) : ∃ K, ∀ S input it, Opened g S input it → ∃ ts c it', DrainsWith it ts c it' ∧
    c.rounds + c.predicts + c.matches_ + c.tests ≤ K ^ (input.length + 1) := by
  obtain ⟨K, hK⟩ := C132_rounds ha
  refine ⟨((alternatives g).length + 3) * K, fun S input it ho => ?_⟩
  obtain ⟨ts, n, it', h, hn⟩ := hK S input it ho
  obtain ⟨c, hc⟩ := C105_drains.mpr (drainsIn_draws h)
  have h1 := C105_rounds ho hc h
  obtain ⟨h2, h3, h4, _⟩ := C105_bound ho hc (A := (alternatives g).length) fun n => List.length_filter_le _ _
  refine ⟨ts, c, it', hc, ?_⟩
  have h5 : (alternatives g).length * (c.rounds - 1) ≤ (alternatives g).length * c.rounds := Nat.mul_le_mul_left _ (by omega)
  have h6 : (alternatives g).length + 3 ≤ ((alternatives g).length + 3) ^ (input.length + 1) := Nat.le_self_pow (by omega) _
  rw [Nat.mul_pow]
  refine Nat.le_trans ?_ (Nat.mul_le_mul h6 hn)
  rw [← h1, Nat.add_mul]
  omega

/-- C132: nothing better holds for all these grammars: between two exponential bounds lie the rounds for `<s> ::= <s> <s> | 'a'` and the texts
`a…ab`, which are not in its language. -/
theorem C132_tight : ∃ K, ∀ n it, Opened gDouble (.nonterminal ['s']) (List.replicate (n + 2) 'a' ++ ['b']) it →
    ∃ m it', NextIn it m none it' ∧ 2 ^ n < m ∧ m ≤ K ^ (n + 4) := by
  obtain ⟨K, hK⟩ := C132_rounds gDouble_acyclic
  refine ⟨K, fun n it ho => ?_⟩
  obtain ⟨m, it', h, hm⟩ := C67_rejecting ho
  obtain ⟨ts, k, it2, hd, hk⟩ := hK _ _ it ho
  refine ⟨m, it', h, hm, ?_⟩
  cases hd with
  | done h' =>
    have : k = m := by
      rcases Nat.lt_trichotomy k m with hl | hl | hl
      · have := h.2 k hl; rw [h'.1] at this; cases this
      · exact hl
      · have := h'.2 m hl; rw [h.1] at this; cases this
    subst this
    simpa using hk
  | step h' _ =>
    have := Next.det ⟨_, h.1⟩ ⟨_, h'.1⟩
    exact absurd this.1 (by simp)

/-- Trees with many nodes that spell little: `<s> ::= <a> <a> <s> 'x' | 'x'`, `<a> ::= ''`. The tree of "xx" has eight nodes. -/
def gPadded : Grammar := ⟨[⟨.nonterminal ['s'], [⟨[.nonterminal ['a'], .nonterminal ['a'], .nonterminal ['s'], .terminal ['x']]⟩, ⟨[.terminal ['x']]⟩]⟩,
  ⟨.nonterminal ['a'], [⟨[.terminal []]⟩]⟩]⟩
set_option maxRecDepth 100000 in
example : ∃ it t it', Opened gPadded (.nonterminal ['s']) ['x', 'x'] it ∧ Next it (some t) it' ∧ 1 + nodesCount t.rhs = 8 :=
  ⟨_, _, _, .deprecatedStarting rfl, ⟨500, by rfl⟩, by rfl⟩
example : Acyclic gPadded := acyclic_of_check [['a']] [['s'], ['a']] (by decide) (by decide)

end Bnf.Props
