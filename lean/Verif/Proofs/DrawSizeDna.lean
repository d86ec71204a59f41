import Verif.Proofs.DrawSize
import Verif.Proofs.TestGrammars

/-! # The tree of a DNA sequence: lemmas -/

set_option autoImplicit false

namespace Bnf
open Spec Samples

theorem dnaRight_sums : ∀ (c : Char) (s : Str), nodesCount (dnaRight c s) = 3 * s.length + 2 ∧
    2 * depthsSum (dnaRight c s) = 3 * (s.length + 1) * (s.length + 2) ∧
    labelsSum (dnaRight c s) = 14 * s.length + 9 ∧ innersCount (dnaRight c s) = 2 * s.length + 1
  | c, [] => by
    simp [dnaRight, nodesCount, nodeCount, depthsSum, depthSum, labelsSum, labelSum, innersCount, innerCount, nodeLabel, Term.display]
  | c, d :: s => by
    obtain ⟨h1, h2, h3, h4⟩ := dnaRight_sums d s
    simp only [dnaRight, nodesCount, nodeCount, depthsSum, depthSum, labelsSum, labelSum, innersCount, innerCount, nodeLabel,
      Term.display, List.length_cons, h1, h3, h4]
    refine ⟨by omega, by nlinarith, by simp; omega, by omega⟩

theorem dnaRight_names : ∀ (c : Char) (s : Str) (i : Nat), AllInnerNonterminals (dnaRight c s) ∧
    ∀ x ∈ preorderKids i (dnaRight c s), x.2.length ≤ 4
  | c, [], i => by simp [dnaRight, AllInnerNonterminals, InnerNonterminals, preorderKids, preorder, nodeName]
  | c, d :: s, i => by
    obtain ⟨h1, h2⟩ := dnaRight_names d s 0
    refine ⟨by simp [dnaRight, AllInnerNonterminals, InnerNonterminals, h1], fun x hx => ?_⟩
    simp only [dnaRight, preorderKids, preorder, nodeName, List.map_cons, List.map_nil, List.append_nil, List.mem_append, List.mem_cons,
      List.not_mem_nil, or_false, List.mem_map] at hx
    rcases hx with (rfl | rfl) | rfl | ⟨y, hy, rfl⟩
    · simp
    · simp
    · simp
    · exact h2 y hy

end Bnf
