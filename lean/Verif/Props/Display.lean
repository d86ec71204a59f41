import Verif.Proofs.Display
import Verif.Props.Parsing

/-! # Properties C42–C45 and C52: displaying parse trees -/

set_option autoImplicit false

namespace Bnf.Props
open Bnf Spec

/-- `<s> ::= <a> <s>` with children `<a> ::= "x" <b>`, `<b> ::= ` (no children) and `<s> ::= "y\""`. -/
def tDraw : ParseTree := ⟨.nonterminal ['s'],
  [.nonterminal (.nonterminal ['a']) [.terminal ['x'], .nonterminal (.nonterminal ['b']) []],
   .nonterminal (.nonterminal ['s']) [.terminal ['y', '"']]]⟩

/-- C42: the text of a parse tree is the drawing of its root, one line per node. -/
theorem C42_display_draws (t : ParseTree) : t.display = unlines (draw (.nonterminal t.lhs t.rhs)) ∧
    (draw (.nonterminal t.lhs t.rhs)).length = nodeCount (.nonterminal t.lhs t.rhs) :=
  ⟨display_eq t, draw_length _⟩

/-- A drawing, to be compared with `tests/snapshots`. -/
example : draw (.nonterminal tDraw.lhs tDraw.rhs) = ["<s> ::= <a> <s>".toList,
    "├── <a> ::= \"x\" <b>".toList,
    "│   ├── \"x\"".toList,
    "│   └── <b> ::=".toList,
    "└── <s> ::= \"y\"\"".toList,
    "    └── \"y\"\"".toList] := by
  simp [tDraw, draw, drawKids, indent, nodeLabel, Term.display]

/-- C42: hence, if the labels are free of line breaks, the text has one line break per node. -/
theorem C42_one_line_per_node (t : ParseTree) (h : CleanNode (.nonterminal t.lhs t.rhs)) :
    t.display.count '\n' = nodeCount (.nonterminal t.lhs t.rhs) := by
  rw [display_eq, ← draw_length]
  have hc := draw_clean _ h
  generalize draw (.nonterminal t.lhs t.rhs) = ls at hc
  induction ls with
  | nil => rfl
  | cons l ls ih =>
    rw [show unlines (l :: ls) = l ++ ['\n'] ++ unlines ls by simp [unlines], List.count_append, List.count_append,
      ih (fun x hx => hc x (by simp [hx])), List.count_eq_zero.2 (hc l (by simp))]
    simp; omega

example : CleanNode (.nonterminal tDraw.lhs tDraw.rhs) := by simp [tDraw, CleanNode, CleanNodes]

/-- C52: distinct trees have distinct texts, if labels are free of line breaks. -/
theorem C52_display_injective (t t' : ParseTree) (h : CleanNode (.nonterminal t.lhs t.rhs)) (h' : CleanNode (.nonterminal t'.lhs t'.rhs))
    (he : t.display = t'.display) : t = t' := by
  rw [display_eq, display_eq] at he
  have := draw_inj _ _ h h' (unlines_inj (draw_clean _ h) (draw_clean _ h') he)
  obtain ⟨l, r⟩ := t
  obtain ⟨l', r'⟩ := t'
  simp at this
  rw [this.1, this.2]

/-- C52: the condition is needed: a name can contain the drawing of a child. -/
theorem C52_line_break_witness : ∃ t t' : ParseTree, t ≠ t' ∧ t.display = t'.display :=
  ⟨⟨.nonterminal "a> ::= <b>\n└── <b".toList, []⟩, ⟨.nonterminal "a".toList, [.nonterminal (.nonterminal "b".toList) []]⟩, by simp, by decide⟩

/-- C43: the Mermaid rendering of a tree with nonterminals as inner nodes is a header and one line for each node but the root, in
preorder, where the line of a node connects its parent with it.  A node is named by its position in preorder, the names are escaped. -/
theorem C43_mermaid_edges (t : ParseTree) (h : InnerNonterminals (.nonterminal t.lhs t.rhs)) :
    ∃ E : List ((Nat × Str) × (Nat × Str)),
      t.mermaid = some ("flowchart TD\n".toList ++
        E.flatMap fun e => edgeLine (e.1.1, escapeMermaidLabel e.1.2) (e.2.1, escapeMermaidLabel e.2.2)) ∧
      E.map (fun e => e.2.1) = List.range' 1 (nodeCount (.nonterminal t.lhs t.rhs) - 1) ∧
      ∀ e ∈ E, ∃ path i, (preorder (.nonterminal t.lhs t.rhs))[e.1.1]? = some (path, e.1.2) ∧
        (preorder (.nonterminal t.lhs t.rhs))[e.2.1]? = some (path ++ [i], e.2.2) := by
  obtain ⟨lhs, rhs⟩ := t
  rw [InnerNonterminals] at h
  obtain ⟨⟨n, hn⟩, hk⟩ := h
  simp only at hn hk ⊢
  subst hn
  obtain ⟨E, h1, h2, h3⟩ := mermaidChildren_eq rhs hk n 0 0 0
  refine ⟨E, ?_, ?_, ?_⟩
  · rw [ParseTree.mermaid, mermaidTree]
    simp only [h1]
    simp [edgesText]
  · rw [h2, preorderKids_length]; simp [nodeCount]
  · intro e he
    obtain ⟨q, j, h4, h5⟩ := h3 e he
    have hmem : e.2.1 ∈ List.range' (0 + 1) (preorderKids 0 rhs).length := by rw [← h2]; exact List.mem_map.2 ⟨e, he, rfl⟩
    rw [List.mem_range'_1] at hmem
    refine ⟨q, j, ?_, ?_⟩
    · rcases h5 with ⟨h5, rfl⟩ | ⟨h5, h6⟩
      · rw [h5]; simp [preorder, nodeName]
      · rw [preorder, show e.1.1 = (e.1.1 - (0 + 1)) + 1 by omega, List.getElem?_cons_succ, h6]
    · rw [preorder, show e.2.1 = (e.2.1 - (0 + 1)) + 1 by omega, List.getElem?_cons_succ, h4]

example : InnerNonterminals (.nonterminal tDraw.lhs tDraw.rhs) := by simp [tDraw, InnerNonterminals, AllInnerNonterminals]
example : preorder (.nonterminal tDraw.lhs tDraw.rhs) =
    [([], ['s']), ([0], ['a']), ([0, 0], ['x']), ([0, 1], ['b']), ([1], ['s']), ([1, 0], ['y', '"'])] := rfl
example : tDraw.mermaid = some ("flowchart TD\n0[\"s\"] --> 1[\"a\"]\n1[\"a\"] --> 2[\"x\"]\n1[\"a\"] --> 3[\"b\"]\n" ++
    "0[\"s\"] --> 4[\"s\"]\n4[\"s\"] --> 5[\"y#34;\"]\n").toList := by
  simp [tDraw, ParseTree.mermaid, mermaidTree, mermaidChildren]
  decide

/-- The positions in preorder are named by distinct paths, so the parent in `C43_mermaid_edges` is unique. -/
theorem C43_preorder_paths_distinct (n : ParseTreeNode) : ((preorder n).map Prod.fst).Nodup := preorder_nodup n

/-- C44: decoding an escaped label gives the label back. -/
theorem C44_decode_escape (s : Str) : decodeEntities none (escapeMermaidLabel s) = s := decode_escape s

/-- C44: distinct labels stay distinct. -/
theorem C44_escape_injective {s s' : Str} (h : escapeMermaidLabel s = escapeMermaidLabel s') : s = s' := by
  rw [← decode_escape s, h, decode_escape]

/-- C44: none of the special characters is left, except '#' and ';'. -/
theorem C44_escape_safe (s : Str) : ∀ c ∈ "\"&<>[\\]\n\r".toList, c ∉ escapeMermaidLabel s := by
  intro c hc
  apply escape_safe c
  · revert c; decide
  · rintro rfl; revert hc; decide
  · rintro rfl; revert hc; decide

/-- C44: the other characters are kept: labels without special characters are not changed. -/
theorem C44_escape_plain (s : Str) (h : ∀ c ∈ s, c ∉ "\"&#<>[\\];\n\r".toList) : escapeMermaidLabel s = s := by
  induction s with
  | nil => rfl
  | cons c s ih =>
    rw [escape_cons, if_neg, ih (fun x hx => h x (by simp [hx]))]
    · rfl
    · exact h c (by simp)

example : escapeMermaidLabel "a#34;<é>".toList = "a#35;34#59;#60;é#62;".toList := by decide

/-- C45: a tree obtained by parsing with a nonterminal as starting term is rendered without panic. -/
theorem C45_mermaid_of_parse {g n input it ts it'} (ho : Opened g (.nonterminal n) input it) (hd : Draws it ts it') :
    ∀ t ∈ ts, ∃ text, t.mermaid = some text := by
  intro t ht
  have hp := C01_soundness ho hd t ht
  obtain ⟨e, _, hf⟩ := hp.tree
  obtain ⟨E, h, _⟩ := C43_mermaid_edges t (by
    rw [InnerNonterminals]
    exact ⟨⟨n, hp.root⟩, innerNonterminals_of_forest hf⟩)
  exact ⟨_, h⟩

example : ∃ it it', Opened gExp (.nonterminal ['e']) ['é', '+', 'y'] it ∧ Draws it [tExp] it' :=
  ⟨_, _, .deprecatedStarting rfl, .cons ⟨100, rfl⟩ .nil⟩

/-- C45: with a terminal as left-hand side of the first production the tree obtained cannot be rendered: `'x' ::= 'y'`. -/
theorem C45_terminal_start_panics : ∃ g S input it t it', g.startingTerm = some S ∧ Opened g S input it ∧ Draws it [t] it' ∧ t.mermaid = none :=
  ⟨⟨[⟨.terminal ['x'], [⟨[.terminal ['y']]⟩]⟩]⟩, .terminal ['x'], ['y'], _, _, _, rfl, .deprecatedStarting rfl, .cons ⟨100, rfl⟩ .nil,
    by simp [ParseTree.mermaid, mermaidTree]⟩

end Bnf.Props
