import Verif.Proofs.DrawSizeDna
import Verif.Props.Display
import Verif.Props.TestGrammars

/-! # Property C120: how long printed trees are -/

set_option autoImplicit false

namespace Bnf.Props
open Bnf Spec Samples

/-- C120: the exact length of the text of a tree: four columns for each step from the root to a node, each label twice (on its own line and on
that of its parent), `" ::="` for each production, a line break and a space for each node; the root has no parent. -/
theorem C120_exact (t : ParseTree) : t.display.length + (t.lhs.display.length + 1) =
    4 * depthSum (.nonterminal t.lhs t.rhs) + 2 * labelSum (.nonterminal t.lhs t.rhs) +
    4 * innerCount (.nonterminal t.lhs t.rhs) + 2 * nodeCount (.nonterminal t.lhs t.rhs) := by
  rw [(C42_display_draws t).1]
  exact draw_size (.nonterminal t.lhs t.rhs)

/-- The text of `tDraw` has 94 characters. -/
example : tDraw.display.length = 94 ∧ depthSum (.nonterminal tDraw.lhs tDraw.rhs) = 8 ∧ labelSum (.nonterminal tDraw.lhs tDraw.rhs) = 19 := by
  refine ⟨?_, by decide +kernel, by decide +kernel⟩
  have h := C120_exact tDraw
  have e : 4 * depthSum (.nonterminal tDraw.lhs tDraw.rhs) + 2 * labelSum (.nonterminal tDraw.lhs tDraw.rhs) +
    4 * innerCount (.nonterminal tDraw.lhs tDraw.rhs) + 2 * nodeCount (.nonterminal tDraw.lhs tDraw.rhs) = 94 + (tDraw.lhs.display.length + 1) := by
    decide +kernel
  omega

/-- C120: bounds by the height and the number of nodes: at most four columns per node and level, never more than quadratic in the number of
nodes, and at least quadratic in the height. -/
theorem C120_bounds (t : ParseTree) (n : ParseTreeNode) (hn : n = .nonterminal t.lhs t.rhs) :
    t.display.length ≤ 4 * treeHeight n * (nodeCount n - 1) + 2 * labelSum n + 6 * nodeCount n ∧
    t.display.length ≤ 2 * nodeCount n * (nodeCount n - 1) + 2 * labelSum n + 6 * nodeCount n ∧
    2 * treeHeight n * (treeHeight n + 1) ≤ t.display.length := by
  have h := C120_exact t
  rw [← hn] at h
  have h1 := depthSum_le_height n
  have h2 := depthSum_le_square n
  have h3 := innerCount_le n
  have h4 := height_le_depthSum n
  have h5 := nodeCount_pos n
  have h6 : t.lhs.display.length ≤ labelSum n := by rw [hn, labelSum, nodeLabel]; omega
  obtain ⟨m, hm⟩ : ∃ m, nodeCount n = m + 1 := ⟨nodeCount n - 1, by omega⟩
  rw [hm] at h h1 h2 h3
  have h7 : 1 ≤ innerCount n := by rw [hn, innerCount]; omega
  rw [hm, Nat.add_sub_cancel]
  refine ⟨?_, ?_, ?_⟩ <;> nlinarith

/-- C120: the Mermaid text, in contrast, grows with the number of nodes only: at most two numbers, two labels and 14 more characters for each
node but the root, if there are at most `10 ^ k` nodes and no name is longer than `L` (escaping makes it at most four times as long). -/
theorem C120_mermaid (t : ParseTree) (h : InnerNonterminals (.nonterminal t.lhs t.rhs)) (k L : Nat) (hk : 0 < k)
    (hN : nodeCount (.nonterminal t.lhs t.rhs) ≤ 10 ^ k) (hL : ∀ x ∈ preorder (.nonterminal t.lhs t.rhs), x.2.length ≤ L) :
    ∃ m, t.mermaid = some m ∧ m.length ≤ 13 + (nodeCount (.nonterminal t.lhs t.rhs) - 1) * (2 * k + 8 * L + 14) ∧
      13 + (nodeCount (.nonterminal t.lhs t.rhs) - 1) * 16 ≤ m.length := by
  obtain ⟨E, hm, hE, hp⟩ := C43_mermaid_edges t h
  refine ⟨_, hm, ?_⟩
  have hlen : E.length = nodeCount (.nonterminal t.lhs t.rhs) - 1 := by simpa using congrArg List.length hE
  have hlt : ∀ {i p}, (preorder (.nonterminal t.lhs t.rhs))[i]? = some p → i < 10 ^ k ∧ p.2.length ≤ L := by
    intro i p hi
    obtain ⟨h1, h2⟩ := List.getElem?_eq_some_iff.mp hi
    exact ⟨by rw [preorder_length] at h1; omega, hL _ (h2 ▸ List.getElem_mem h1)⟩
  have hb : ∀ e ∈ E, 16 ≤ (edgeLine (e.1.1, escapeMermaidLabel e.1.2) (e.2.1, escapeMermaidLabel e.2.2)).length ∧
      (edgeLine (e.1.1, escapeMermaidLabel e.1.2) (e.2.1, escapeMermaidLabel e.2.2)).length ≤ 2 * k + 8 * L + 14 := by
    intro e he
    obtain ⟨path, i, h1, h2⟩ := hp e he
    obtain ⟨a1, a2⟩ := hlt h1
    obtain ⟨b1, b2⟩ := hlt h2
    have := toString_length_le hk a1
    have := toString_length_le hk b1
    have := escape_length_le e.1.2
    have := escape_length_le e.2.2
    have := toString_length_pos e.1.1
    have := toString_length_pos e.2.1
    rw [edgeLine_length]
    dsimp only at *
    omega
  rw [List.length_append, show "flowchart TD\n".toList.length = 13 from rfl, ← hlen]
  clear hE hp hm hlen
  induction E with
  | nil => simp
  | cons e E ih =>
    have h1 := ih fun e' he' => hb e' (List.mem_cons_of_mem _ he')
    have h2 := hb e (List.mem_cons_self)
    rw [List.flatMap_cons, List.length_append, List.length_cons, Nat.add_mul, Nat.add_mul]
    omega

example : InnerNonterminals (.nonterminal tDraw.lhs tDraw.rhs) ∧ nodeCount (.nonterminal tDraw.lhs tDraw.rhs) ≤ 10 ^ 1 ∧
    ∀ x ∈ preorder (.nonterminal tDraw.lhs tDraw.rhs), x.2.length ≤ 2 := by
  refine ⟨?_, by decide +kernel, by decide +kernel⟩
  simp [tDraw, InnerNonterminals, AllInnerNonterminals]

/-- C120: the tree of `n` bases (tests `dna_right_recursive`, `parse_dna`; C113) has `3 n` nodes, is printed in exactly `6 n² + 48 n - 6`
characters, and its Mermaid text has at most
`13 + 3 n (2 k + 46)` characters if `3 n ≤ 10 ^ k`. -/
theorem C120_dna {c : Char} {s : Str} (hb : ∀ d ∈ c :: s, IsBase d) {it} (ho : Opened gramDnaRightRecursive (.nonterminal dna) (c :: s) it) :
    ∃ t, Collects it [t] ∧ nodeCount (.nonterminal t.lhs t.rhs) = 3 * (c :: s).length ∧
      t.display.length + 6 = 6 * (c :: s).length ^ 2 + 48 * (c :: s).length ∧
      ∀ k, 0 < k → 3 * (c :: s).length ≤ 10 ^ k → ∃ m, t.mermaid = some m ∧ m.length ≤ 13 + 3 * (c :: s).length * (2 * k + 46) := by
  have hn : nodeCount (.nonterminal (.nonterminal dna) (dnaRight c s)) = 3 * (c :: s).length := by
    obtain ⟨h1, _⟩ := dnaRight_sums c s
    rw [nodeCount, h1, List.length_cons]; omega
  refine ⟨_, (C113_dna_right ho).1 c s rfl hb, hn, ?_, ?_⟩
  · obtain ⟨h1, h2, h3, h4⟩ := dnaRight_sums c s
    have h := C120_exact ⟨.nonterminal dna, dnaRight c s⟩
    simp only [depthSum, labelSum, innerCount, nodeCount, h1, h3, h4, nodeLabel, Term.display] at h
    simp at h
    rw [List.length_cons]
    nlinarith
  · intro k hk h10
    obtain ⟨h1, h2⟩ := dnaRight_names c s 0
    obtain ⟨m, hm, hl, _⟩ := C120_mermaid ⟨.nonterminal dna, dnaRight c s⟩ (by rw [InnerNonterminals]; exact ⟨⟨_, rfl⟩, h1⟩) k 4 hk
      (by dsimp only; rw [hn]; exact h10) (by
        intro x hx
        rw [preorder, List.mem_cons] at hx
        rcases hx with rfl | hx
        · simp [nodeName]
        · exact h2 x hx)
    refine ⟨m, hm, hl.trans ?_⟩
    dsimp only
    rw [hn]
    exact Nat.add_le_add_left (Nat.mul_le_mul (Nat.sub_le _ _) (by omega)) _

/-- "GATTACA" is printed in 624 characters. -/
example : ∃ it, Opened gramDnaRightRecursive (.nonterminal dna) "GATTACA".toList it ∧ ∃ t, Collects it [t] ∧ t.display.length = 624 := by
  obtain ⟨it, ho⟩ := opened_of (g := gramDnaRightRecursive) (S := .nonterminal dna) (input := "GATTACA".toList) (by decide +kernel)
  obtain ⟨t, h1, _, h2, _⟩ := C120_dna (c := 'G') (s := "ATTACA".toList) (by decide) ho
  refine ⟨it, ho, t, h1, ?_⟩
  rw [show ('G' :: "ATTACA".toList).length = 7 from rfl] at h2
  omega

end Bnf.Props
