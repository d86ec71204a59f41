import Verif.Proofs.Mermaid
import Verif.Props.Display
import Verif.Props.Text

/-! # Property C61: the Mermaid text determines the tree -/

set_option autoImplicit false

namespace Bnf.Props
open Bnf Spec

/-- C61: trees whose inner nodes carry nonterminals and have children have different Mermaid texts if they are different (no condition on the
characters in labels, unlike C52). -/
theorem C61_mermaid_injective {t t' : ParseTree} (h : InnerNonterminals (.nonterminal t.lhs t.rhs))
    (h' : InnerNonterminals (.nonterminal t'.lhs t'.rhs)) (hb : Branching (.nonterminal t.lhs t.rhs))
    (hb' : Branching (.nonterminal t'.lhs t'.rhs)) (he : t.mermaid = t'.mermaid) : t = t' :=
  mermaid_injective h h' hb hb' he

/-- C61: in particular for trees returned by parsing with grammars read from a text. -/
theorem C61_parses_of_texts {F : Format} (hF : Supported F) {s g} (hg : Grammar.parseFrom F s = some (.ok g)) {n n' input input' it it' ts ts' it1 it1'}
    (ho : Opened g (.nonterminal n) input it) (hd : Draws it ts it1) (ho' : Opened g (.nonterminal n') input' it') (hd' : Draws it' ts' it1')
    {t t'} (ht : t ∈ ts) (ht' : t' ∈ ts') (he : t.mermaid = t'.mermaid) : t = t' := by
  have hne : ∀ l e, HasAlt g l e → e.terms ≠ [] := fun l e ⟨p, hp, _, he⟩ => ((C25_well_formed hF hg).2 p hp).2.2 e he
  have key : ∀ {n input t}, IsParse g (.nonterminal n) input t →
      InnerNonterminals (.nonterminal t.lhs t.rhs) ∧ Branching (.nonterminal t.lhs t.rhs) := by
    intro n input t hp
    obtain ⟨e, ha, hf⟩ := hp.tree
    have hb := branching_of_forest hne hf
    rw [InnerNonterminals, Branching]
    exact ⟨⟨⟨n, hp.root⟩, innerNonterminals_of_forest hf⟩, hb.2 (hne _ _ ha), hb.1⟩
  have k1 := key (C01_soundness ho hd t ht)
  have k2 := key (C01_soundness ho' hd' t' ht')
  exact C61_mermaid_injective k1.1 k2.1 k1.2 k2.2 he

example : InnerNonterminals (.nonterminal tExp.lhs tExp.rhs) ∧ Branching (.nonterminal tExp.lhs tExp.rhs) := by
  simp [tExp, tyLeaf, InnerNonterminals, AllInnerNonterminals, Branching, AllBranching]

/-- C61: without the condition on children it fails: a childless node looks like a terminal. -/
theorem C61_childless_witness : ∃ t t' : ParseTree, t ≠ t' ∧ InnerNonterminals (.nonterminal t.lhs t.rhs) ∧
    InnerNonterminals (.nonterminal t'.lhs t'.rhs) ∧ t.mermaid ≠ none ∧ t.mermaid = t'.mermaid :=
  ⟨⟨.nonterminal ['a'], [.nonterminal (.nonterminal ['b']) []]⟩, ⟨.nonterminal ['a'], [.terminal ['b']]⟩, by simp,
    by simp [InnerNonterminals, AllInnerNonterminals], by simp [InnerNonterminals, AllInnerNonterminals],
    by simp [ParseTree.mermaid, mermaidTree, mermaidChildren], by simp [ParseTree.mermaid, mermaidTree, mermaidChildren]⟩

end Bnf.Props
