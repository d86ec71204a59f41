import Verif.Spec.DrawSize
import Verif.Proofs.Display
import Mathlib.Data.Nat.Digits.Defs
import Mathlib.Tactic.Ring
import Mathlib.Tactic.Linarith

/-! # How large drawings are: lemmas -/

set_option autoImplicit false

namespace Bnf
open Spec

theorem unlines_cons_length (l : Str) (ls : List Str) : (unlines (l :: ls)).length = l.length + 1 + (unlines ls).length := by
  simp [unlines]; omega

theorem unlines_append_length (a b : List Str) : (unlines (a ++ b)).length = (unlines a).length + (unlines b).length := by
  simp [unlines_append]

theorem unlines_map_length (o : Str) (ls : List Str) :
    (unlines (ls.map (o ++ ·))).length = (unlines ls).length + o.length * ls.length := by
  induction ls with
  | nil => rfl
  | cons l ls ih => rw [List.map_cons, unlines_cons_length, unlines_cons_length, ih, List.length_append, List.length_cons]; ring

theorem unlines_indent_length {f o : Str} (h : f.length = o.length) (ls : List Str) :
    (unlines (indent f o ls)).length = (unlines ls).length + o.length * ls.length := by
  cases ls with
  | nil => rfl
  | cons l ls =>
    rw [indent, unlines_cons_length, unlines_cons_length, unlines_map_length, List.length_append, List.length_cons, h]; ring

/-- The lengths of the labels on the line of the parent. -/
theorem rhs_length (kids : List ParseTreeNode) :
    (kids.flatMap fun k => " ".toList ++ nodeLabel k).length = (kids.map fun k => 1 + (nodeLabel k).length).sum := by
  induction kids with
  | nil => rfl
  | cons k ks ih => rw [List.flatMap_cons, List.length_append, ih, List.map_cons, List.sum_cons, List.length_append]; rfl

mutual
theorem draw_size : ∀ n : ParseTreeNode, (unlines (draw n)).length + (nodeLabel n).length + 1 =
    4 * depthSum n + 2 * labelSum n + 4 * innerCount n + 2 * nodeCount n
  | .terminal t => by
    simp only [draw, unlines_cons_length, depthSum, labelSum, innerCount, nodeCount, nodeLabel]
    simp [unlines]; omega
  | .nonterminal lhs kids => by
    have ih := drawKids_size kids
    rw [draw, unlines_cons_length, List.length_append, List.length_append, rhs_length, depthSum, labelSum, innerCount, nodeCount,
      nodeLabel, show " ::=".toList.length = 4 from rfl]
    omega
theorem drawKids_size : ∀ ks : List ParseTreeNode, (unlines (drawKids ks)).length + (ks.map fun k => 1 + (nodeLabel k).length).sum =
    4 * depthsSum ks + 2 * labelsSum ks + 4 * innersCount ks + 2 * nodesCount ks
  | [] => by simp [drawKids, unlines, depthsSum, labelsSum, innersCount, nodesCount]
  | [k] => by
    have ih := draw_size k
    rw [drawKids, unlines_indent_length (by decide), draw_length, show "    ".toList.length = 4 from rfl]
    simp only [depthsSum, labelsSum, innersCount, nodesCount, List.map_cons, List.map_nil, List.sum_cons, List.sum_nil]
    omega
  | k :: k' :: ks => by
    have ih := draw_size k
    have ih' := drawKids_size (k' :: ks)
    rw [drawKids, unlines_append_length, unlines_indent_length (by decide), draw_length, show "│   ".toList.length = 4 from rfl]
    rw [depthsSum, labelsSum, innersCount, nodesCount, List.map_cons, List.sum_cons]
    omega
end

mutual
theorem depthSum_le_height : ∀ n : ParseTreeNode, depthSum n + treeHeight n ≤ treeHeight n * nodeCount n
  | .terminal _ => by simp [depthSum, treeHeight]
  | .nonterminal _ kids => by
    have := depthsSum_le_height kids (treesHeight kids) le_rfl
    rw [depthSum, treeHeight, nodeCount]
    nlinarith
theorem depthsSum_le_height : ∀ (ks : List ParseTreeNode) (h : Nat), treesHeight ks ≤ h → depthsSum ks ≤ h * nodesCount ks
  | [], h, _ => by simp [depthsSum]
  | k :: ks, h, hh => by
    rw [treesHeight] at hh
    have h1 := depthSum_le_height k
    have h2 := depthsSum_le_height ks h (by omega)
    have h3 : (treeHeight k + 1) * nodeCount k ≤ h * nodeCount k := Nat.mul_le_mul_right _ (by omega)
    rw [depthsSum, nodesCount]
    nlinarith
end

theorem nodeCount_pos (n : ParseTreeNode) : 0 < nodeCount n := by cases n <;> simp [nodeCount]

mutual
theorem height_lt_nodeCount : ∀ n : ParseTreeNode, treeHeight n < nodeCount n
  | .terminal _ => by simp [treeHeight, nodeCount]
  | .nonterminal _ kids => by have := heights_le kids; rw [treeHeight, nodeCount]; omega
theorem heights_le : ∀ ks : List ParseTreeNode, treesHeight ks ≤ nodesCount ks
  | [] => by simp [treesHeight]
  | k :: ks => by
    have h1 := height_lt_nodeCount k
    have h2 := heights_le ks
    rw [treesHeight, nodesCount]; omega
end

mutual
theorem depthSum_le_square : ∀ n : ParseTreeNode, 2 * depthSum n + nodeCount n ≤ nodeCount n * nodeCount n
  | .terminal _ => by simp [depthSum, nodeCount]
  | .nonterminal _ kids => by
    have := depthsSum_le_square kids
    rw [depthSum, nodeCount]
    nlinarith
theorem depthsSum_le_square : ∀ ks : List ParseTreeNode, 2 * depthsSum ks ≤ nodesCount ks * nodesCount ks + nodesCount ks
  | [] => by simp [depthsSum]
  | k :: ks => by
    have h1 := depthSum_le_square k
    have h2 := depthsSum_le_square ks
    rw [depthsSum, nodesCount]
    nlinarith [Nat.zero_le (nodeCount k * nodesCount ks)]
end

mutual
theorem innerCount_le : ∀ n : ParseTreeNode, innerCount n ≤ nodeCount n
  | .terminal _ => by simp [innerCount]
  | .nonterminal _ kids => by have := innersCount_le kids; rw [innerCount, nodeCount]; omega
theorem innersCount_le : ∀ ks : List ParseTreeNode, innersCount ks ≤ nodesCount ks
  | [] => by simp [innersCount]
  | k :: ks => by have h1 := innerCount_le k; have h2 := innersCount_le ks; rw [innersCount, nodesCount]; omega
end

mutual
/-- The deepest node contributes its whole way to the root. -/
theorem height_le_depthSum : ∀ n : ParseTreeNode, treeHeight n * (treeHeight n + 1) ≤ 2 * depthSum n
  | .terminal _ => by simp [treeHeight]
  | .nonterminal _ kids => by rw [treeHeight, depthSum]; exact heights_le_depthsSum kids
theorem heights_le_depthsSum : ∀ ks : List ParseTreeNode, treesHeight ks * (treesHeight ks + 1) ≤ 2 * depthsSum ks
  | [] => by simp [treesHeight]
  | k :: ks => by
    have h1 := height_le_depthSum k
    have h2 := heights_le_depthsSum ks
    have h3 := height_lt_nodeCount k
    rw [treesHeight, depthsSum]
    rcases le_total (treesHeight ks) (treeHeight k + 1) with h | h
    · rw [max_eq_left h]; nlinarith
    · rw [max_eq_right h]; omega
end

/-! ## Mermaid -/

theorem toString_length_le {n k : Nat} (hk : 0 < k) (h : n < 10 ^ k) : (toString n).toList.length ≤ k := by
  have := Nat.toDigits_length 10 n k hk h
  simpa [Nat.repr] using this

theorem toString_length_pos (n : Nat) : 0 < (toString n).toList.length := by
  have : Nat.toDigits 10 n ≠ [] := Nat.toDigits_ne_nil
  simpa [Nat.repr, List.length_pos_iff] using this

theorem edgeLine_length (x y : Nat × Str) : (edgeLine x y).length =
    (toString x.1).toList.length + (toString y.1).toList.length + x.2.length + y.2.length + 14 := by
  simp only [edgeLine, List.length_append, show "[\"".toList.length = 2 from rfl, show "\"] --> ".toList.length = 7 from rfl,
    show "\"]\n".toList.length = 3 from rfl]
  omega

theorem escape_length_le : ∀ s : Str, (escapeMermaidLabel s).length ≤ 4 * s.length
  | [] => by simp [escapeMermaidLabel]
  | c :: cs => by
    have ih := escape_length_le cs
    rw [escapeMermaidLabel]
    split
    · rename_i h
      have hc : c ∈ mermaidEscapeChars := by simpa using h
      have hn : c.toNat < 10 ^ 2 := by
        have : ∀ d ∈ mermaidEscapeChars, d.toNat < 10 ^ 2 := by decide
        exact this c hc
      have := toString_length_le (by decide) hn
      simp only [List.length_append, List.length_cons, List.length_nil]
      omega
    · simp only [List.length_cons]; omega

theorem escape_length_ge : ∀ s : Str, s.length ≤ (escapeMermaidLabel s).length
  | [] => by simp
  | c :: cs => by
    have ih := escape_length_ge cs
    rw [escapeMermaidLabel]
    split <;> simp only [List.length_append, List.length_cons, List.length_nil] <;> omega

end Bnf
