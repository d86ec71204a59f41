import Verif.Proofs.Rename
import Verif.Props.Parsing

/-! # Properties C62, C63: renaming and mirroring -/

set_option autoImplicit false

namespace Bnf.Props
open Bnf Spec

/-- The trees an iterator returns sooner or later are the derivation trees of the input (C01 and C03). -/
theorem drawn_iff {g S input it} (ho : Opened g S input it) (t : ParseTree) :
    (∃ ts it', Draws it ts it' ∧ t ∈ ts) ↔ IsParse g S input t := by
  constructor
  · rintro ⟨ts, it', hd, ht⟩; exact C01_soundness ho hd t ht
  · intro h
    obtain ⟨more, it'', hd, hm⟩ := C03_completeness ho .nil h
    exact ⟨more, it'', hd, by simpa using hm⟩

/-- C62: if nonterminals (by `f`) and characters (by `c`) are renamed in the grammar and in the input, without identifying any two, then exactly
the renamed trees are returned. -/
theorem C62_renaming {f : Str → Str} {c : Char → Char} (hf : Function.Injective f) (hc : Function.Injective c) {g S input it it₁}
    (ho : Opened g S input it) (ho₁ : Opened (renGrammar f c g) (renTerm f c S) (input.map c) it₁) (t' : ParseTree) :
    (∃ ts it', Draws it₁ ts it' ∧ t' ∈ ts) ↔ ∃ t, t' = renTree f c t ∧ ∃ ts it', Draws it ts it' ∧ t ∈ ts := by
  simp only [drawn_iff ho, drawn_iff ho₁]
  constructor
  · exact isParse_unren hf hc
  · rintro ⟨t, rfl, h⟩; exact isParse_ren f c h

/-- C62: distinct trees stay distinct. -/
theorem C62_distinct {f : Str → Str} {c : Char → Char} (hf : Function.Injective f) (hc : Function.Injective c) :
    Function.Injective (renTree f c) := renTree_inj hf hc

/-- C62: with a renaming that identifies nonterminals or characters, the renamed trees are among the trees returned. -/
theorem C62_identifying (f : Str → Str) (c : Char → Char) {g S input it it₁ ts it'}
    (ho : Opened g S input it) (ho₁ : Opened (renGrammar f c g) (renTerm f c S) (input.map c) it₁) (hd : Draws it ts it') :
    ∃ ts₁ it₁', Draws it₁ ts₁ it₁' ∧ ∀ t ∈ ts, renTree f c t ∈ ts₁ := by
  have hp := C01_soundness ho hd
  clear hd
  induction ts with
  | nil => exact ⟨[], it₁, .nil, by simp⟩
  | cons t ts ih =>
    obtain ⟨ts₁, it₂, h1, h2⟩ := ih (fun t ht => hp t (by simp [ht]))
    obtain ⟨more, it₃, h3, h4⟩ := C03_completeness ho₁ h1 (isParse_ren f c (hp t (by simp)))
    refine ⟨ts₁ ++ more, it₃, h1.append h3, fun u hu => ?_⟩
    rcases List.mem_cons.mp hu with rfl | hu
    · exact h4
    · exact List.mem_append_left _ (h2 u hu)

/-- C63: the grammar with all alternatives and terminals reversed returns, on the reversed input, exactly the mirrored trees. -/
theorem C63_mirror {g S input it it₁} (ho : Opened g S input it) (ho₁ : Opened (mirGrammar g) S input.reverse it₁) (t : ParseTree) :
    (∃ ts it', Draws it₁ ts it' ∧ mirTree t ∈ ts) ↔ ∃ ts it', Draws it ts it' ∧ t ∈ ts := by
  simp only [drawn_iff ho, drawn_iff ho₁]
  exact isParse_mir_iff

/-- C63: every tree is the mirror image of its mirror image, so all trees on the reversed side are covered by `C63_mirror`. -/
theorem C63_all (t : ParseTree) : ∃ u, t = mirTree u := ⟨mirTree t, (mirTree_mirTree t).symm⟩

/-- Exchange `y` with `→`, which has another UTF-8 length. -/
def swapY (c : Char) : Char := if c = 'y' then '→' else if c = '→' then 'y' else c

theorem swapY_swapY (c : Char) : swapY (swapY c) = c := by
  unfold swapY
  by_cases h1 : c = 'y'
  · subst h1; decide
  · by_cases h2 : c = '→'
    · subst h2; decide
    · simp [h1, h2]

/-- `gExp` with the names changed and `y` exchanged with `→`, and `gExp` mirrored: the tree `tExp` is returned first in its renamed and
mirrored form. -/
example : Function.Injective ('x' :: · : Str → Str) ∧ Function.Injective swapY ∧
    (∃ it it', Opened (renGrammar ('x' :: ·) swapY gExp) (renTerm ('x' :: ·) swapY (.nonterminal ['e'])) (['é', '+', 'y'].map swapY) it ∧
      Draws it [renTree ('x' :: ·) swapY tExp] it') ∧
    ∃ it it', Opened (mirGrammar gExp) (.nonterminal ['e']) ['é', '+', 'y'].reverse it ∧ Draws it [mirTree tExp] it' := by
  refine ⟨fun a b h => by simpa using h, fun a b h => by rw [← swapY_swapY a, h, swapY_swapY], ?_, ?_⟩
  · have e : renTree ('x' :: ·) swapY tExp = ⟨.nonterminal ['x', 'e'],
        [.nonterminal (.nonterminal ['x', 'e']) [.nonterminal (.nonterminal ['x', 't']) [.terminal ['é']]], .terminal ['+'],
          .nonterminal (.nonterminal ['x', 't']) [.terminal ['→']]]⟩ := by
      simp [renTree, renNodes, renNode, renTerm, tExp, tyLeaf, swapY]
    rw [e]
    exact ⟨_, _, .deprecatedStarting rfl, .cons ⟨100, rfl⟩ .nil⟩
  · have e : mirTree tExp = ⟨.nonterminal ['e'],
        [tyLeaf 'y', .terminal ['+'], .nonterminal (.nonterminal ['e']) [tyLeaf 'é']]⟩ := by
      simp [mirTree, mirNodes, mirNode, tExp, tyLeaf]
    rw [e]
    exact ⟨_, _, .deprecatedStarting rfl, .cons ⟨100, rfl⟩ .nil⟩

end Bnf.Props
