import Verif.Proofs.TreeEditing
import Verif.Props.EndToEnd

/-!
# C135: changing parse trees through `rhs_iter_mut()` and `lhs`
-/

set_option autoImplicit false

namespace Bnf.Props

open Spec TreeEditing

/-- C135: a change at the end of a path changes the node there, and no other: exactly one occurrence of it is replaced. -/
theorem C135_edit {t : ParseTree} {i path a} (f : ParseTreeNode → ParseTreeNode) (h : t.getAt i path = some a) :
    (t.editAt i path f).lhs = t.lhs ∧ Replaced a (f a) t.rhs (t.editAt i path f).rhs ∧ (t.editAt i path f).getAt i path = some (f a) := by
  refine ⟨rfl, replaced_tree h, ?_⟩
  have := getAt_same (f := f) (i :: path) (.nonterminal t.lhs t.rhs)
  have h' : ParseTreeNode.getAt (i :: path) (.nonterminal t.lhs t.rhs) = some a := h
  rw [h'] at this
  exact this

/-- C135: a path that leads nowhere changes nothing. -/
theorem C135_nowhere {t : ParseTree} {i path} (f : ParseTreeNode → ParseTreeNode) (h : t.getAt i path = none) : t.editAt i path f = t :=
  editTree_none h

/-- C135: what lies neither above nor below is as before. -/
theorem C135_elsewhere (t : ParseTree) {i path j other} (f : ParseTreeNode → ParseTreeNode) (h : ¬ (i :: path) <+: (j :: other))
    (h' : ¬ (j :: other) <+: (i :: path)) : (t.editAt i path f).getAt j other = t.getAt j other :=
  getAt_other (f := f) (i :: path) (j :: other) (.nonterminal t.lhs t.rhs) h h'

/-- C135: changes at places of which neither lies below the other can be made in any order. -/
theorem C135_order (t : ParseTree) {i path j other} (f f' : ParseTreeNode → ParseTreeNode) (h : ¬ (i :: path) <+: (j :: other))
    (h' : ¬ (j :: other) <+: (i :: path)) : (t.editAt i path f).editAt j other f' = (t.editAt j other f').editAt i path f := by
  have h := editAt_comm (f := f) (f' := f') (i :: path) (j :: other) (.nonterminal t.lhs t.rhs) h h'
  simp only [ParseTreeNode.editAt, ParseTreeNode.nonterminal.injEq, true_and] at h
  exact congrArg (ParseTree.mk t.lhs) h

/-- C135: of two changes at the same place the second one sees what the first one wrote. -/
theorem C135_twice (t : ParseTree) (i : Nat) (path : List Nat) (f f' : ParseTreeNode → ParseTreeNode) :
    (t.editAt i path f).editAt i path f' = t.editAt i path fun n => f' (f n) := by
  have h := editAt_twice (f := f) (f' := f') (i :: path) (.nonterminal t.lhs t.rhs)
  simp only [ParseTreeNode.editAt, ParseTreeNode.nonterminal.injEq, true_and] at h
  exact congrArg (ParseTree.mk t.lhs) h

/-- C135: the text that the tree spells changes only where the node was. -/
theorem C135_text {t : ParseTree} {i path a} (f : ParseTreeNode → ParseTreeNode) (h : t.getAt i path = some a) :
    ∃ before after, yield t.rhs = before ++ nodeYield a ++ after ∧ yield (t.editAt i path f).rhs = before ++ nodeYield (f a) ++ after :=
  replaced_yield (replaced_tree h)

/-- C135: if an inner node of a derivation tree gets other children, the result is a derivation tree exactly if the node with its new children is one. -/
theorem C135_valid_iff {g : Grammar} {t : ParseTree} (ht : IsTree g t) {i path l kids} (h : t.getAt i path = some (.nonterminal l kids))
    (kids' : List ParseTreeNode) : IsTree g (t.editAt i path fun _ => .nonterminal l kids') ↔ IsTree g ⟨l, kids'⟩ := by
  have hr := replaced_tree (f := fun _ => .nonterminal l kids') h
  constructor
  · rintro ⟨e, _, hf⟩
    exact nodeIn_isTree (replaced_nodeIn hr) hf
  · intro hk
    obtain ⟨e, ha, hf⟩ := ht
    exact ⟨e, ha, replaced_isForest hr hk hf⟩

/-- C135: then parsing the changed text returns the changed tree. -/
theorem C135_parsed {g S input it ts it'} (ho : Opened g S input it) (hd : Draws it ts it') {t} (ht : t ∈ ts) {i path l kids}
    (h : t.getAt i path = some (.nonterminal l kids)) {kids'} (hk : IsTree g ⟨l, kids'⟩) {jt}
    (hj : Opened g S (yield (t.editAt i path fun _ => .nonterminal l kids').rhs) jt) :
    ∃ us jt', Draws jt us jt' ∧ (t.editAt i path fun _ => .nonterminal l kids') ∈ us := by
  obtain ⟨hr, ht', _⟩ := C01_soundness ho hd t ht
  obtain ⟨us, jt', h1, h2⟩ := C03_completeness hj .nil (t := t.editAt i path fun _ => .nonterminal l kids') ⟨hr, (C135_valid_iff ht' h kids').mpr hk, rfl⟩
  exact ⟨us, jt', h1, by simpa using h2⟩

/-- C135: `mermaid()` of a tree, however it was changed, panics exactly if some inner node (or the root) carries a terminal. -/
theorem C135_mermaid (t : ParseTree) : t.mermaid = none ↔ ¬ InnerNonterminals (.nonterminal t.lhs t.rhs) := by
  rw [ParseTree.mermaid, Option.map_eq_none_iff]
  exact mermaidTree_none t.lhs t.rhs 0

/-- C135: in particular it does after a terminal is assigned to the field `lhs` of the root. -/
theorem C135_lhs (t : ParseTree) (s : Str) : (t.setLhs (.terminal s)).mermaid = none := by
  rw [C135_mermaid]
  simp [ParseTree.setLhs, InnerNonterminals]

-- The test `iterate_mut_parse_tree` (`src/grammar.rs` 1428-1446), for a tree of "é+y".
example : tExp.getAt 0 [] = some (.nonterminal (.nonterminal ['e']) [tyLeaf 'é']) := by rfl
example : (tExp.editAt 0 [] fun _ => .terminal ['Z']).rhs[0]? = some (.terminal ['Z']) := by rfl
example : yield (tExp.editAt 0 [] fun _ => .terminal ['Z']).rhs = ['Z', '+', 'y'] := by rfl
-- A change further down that keeps the tree a derivation.
example : ∃ it it', Opened gExp (.nonterminal ['e']) ['é', '+', 'y'] it ∧ Draws it [tExp] it' ∧
    (∃ kids, tExp.getAt 0 [0] = some (.nonterminal (.nonterminal ['t']) kids)) ∧ ¬ (0 :: [0]) <+: (2 :: []) ∧ ¬ (2 :: []) <+: (0 :: [0]) :=
  ⟨_, _, .deprecatedStarting rfl, .cons ⟨100, rfl⟩ .nil, ⟨_, by rfl⟩, by decide, by decide⟩

theorem yLeaf_tree : IsTree gExp ⟨.nonterminal ['t'], [.terminal ['y']]⟩ :=
  ⟨⟨[.terminal ['y']]⟩, ⟨_, List.mem_cons_of_mem _ List.mem_cons_self, rfl, by simp⟩, .terminal .nil⟩

example : ∃ us jt jt', Opened gExp (.nonterminal ['e']) ['y', '+', 'y'] jt ∧ Draws jt us jt' ∧
    (tExp.editAt 0 [0] fun _ => .nonterminal (.nonterminal ['t']) [.terminal ['y']]) ∈ us := by
  have h0 : ∃ it it', Opened gExp (.nonterminal ['e']) ['é', '+', 'y'] it ∧ Draws it [tExp] it' :=
    ⟨_, _, .deprecatedStarting rfl, .cons ⟨100, rfl⟩ .nil⟩
  obtain ⟨it, it', h1, h2⟩ := h0
  obtain ⟨jt, ho⟩ : ∃ jt, Opened gExp (.nonterminal ['e']) ['y', '+', 'y'] jt := ⟨_, .deprecatedStarting rfl⟩
  have h3 : tExp.getAt 0 [0] = some (.nonterminal (.nonterminal ['t']) [.terminal ['é']]) := by rfl
  obtain ⟨us, jt', h⟩ := C135_parsed h1 h2 List.mem_cons_self h3 yLeaf_tree ho
  exact ⟨us, jt, jt', ho, h⟩

/-- C135: nothing is checked: the change made in the crate's own test leaves a tree that is no derivation (here for the grammar `gExp`). -/
theorem C135_unchecked_witness : IsTree gExp tExp ∧ ¬ IsTree gExp (tExp.editAt 0 [] fun _ => .terminal ['Z']) := by
  constructor
  · exact ⟨⟨[.nonterminal ['e'], .terminal ['+'], .nonterminal ['t']]⟩, ⟨_, List.mem_cons_self, rfl, by simp⟩,
      .nonterminal (e := ⟨[.nonterminal ['t']]⟩) ⟨_, List.mem_cons_self, rfl, by simp⟩
        (.nonterminal (e := ⟨[.terminal ['é']]⟩) ⟨_, List.mem_cons_of_mem _ List.mem_cons_self, rfl, by simp⟩ (.terminal .nil) .nil)
        (.terminal (.nonterminal (e := ⟨[.terminal ['y']]⟩) ⟨_, List.mem_cons_of_mem _ List.mem_cons_self, rfl, by simp⟩ (.terminal .nil) .nil))⟩
  · rintro ⟨e, ⟨p, hp, hl, he⟩, hf⟩
    have hz : ∃ ts, e.terms = .terminal ['Z'] :: ts := by
      generalize e.terms = ts at hf
      cases hf with
      | terminal _ => exact ⟨_, rfl⟩
    obtain ⟨ts, hz⟩ := hz
    simp only [gExp, List.mem_cons, List.not_mem_nil, or_false] at hp
    rcases hp with rfl | rfl
    · simp only [List.mem_cons, List.not_mem_nil, or_false] at he
      rcases he with rfl | rfl <;> simp at hz
    · simp only [List.mem_cons, List.not_mem_nil, or_false] at he
      rcases he with rfl | rfl <;> simp at hz

end Bnf.Props
