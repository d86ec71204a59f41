import Verif.Proofs.ChartMap
import Verif.Props.Work
import Verif.Props.Rename

/-! # Properties C80–C82: the list of results, as a function of grammar and input -/

set_option autoImplicit false

namespace Bnf.Props
open Bnf Spec

/-- C80: what calls of `next()` can return, one after the other, are the beginnings of the lists `found g S input h`. -/
theorem C80_results {g S input it} (ho : Opened g S input it) (ts : List ParseTree) :
    (∃ it', Draws it ts it') ↔ ∃ h, ts <+: found g S input h := by
  constructor
  · rintro ⟨it', hd⟩
    obtain ⟨h, _, rfl⟩ := draws_found ho hd
    exact ⟨h, List.prefix_refl _⟩
  · rintro ⟨h, hp⟩
    obtain ⟨it', hd⟩ := found_draws ho h
    exact draws_prefix hd hp

/-- C80: the iterator ends exactly if all items of some list have been treated; then it has returned the derivations found there, in that order. -/
theorem C80_end {g S input it} (ho : Opened g S input it) (ts : List ParseTree) :
    (∃ it' it'', Draws it ts it' ∧ Next it' none it'') ↔ ∃ h, (chart g S input h).length ≤ h ∧ ts = found g S input h := by
  constructor
  · rintro ⟨it', it'', hd, hn⟩
    exact (ended_iff ho hd).mp ⟨it'', hn⟩
  · rintro ⟨h, hl, rfl⟩
    obtain ⟨it', hd⟩ := found_draws ho h
    obtain ⟨it'', hn⟩ := (ended_iff ho hd).mpr ⟨h, hl, rfl⟩
    exact ⟨it', it'', hd, hn⟩

/-- C80: draining takes exactly one round for every item of the complete list, and one more; also with repeated alternatives. -/
theorem C80_rounds {g S input it} (ho : Opened g S input it) (ts : List ParseTree) (n : Nat) :
    (∃ it', DrainsIn it ts n it') ↔
      ∃ h, (chart g S input h).length ≤ h ∧ ts = found g S input h ∧ n = (chart g S input h).length + 1 := by
  have key : ∀ {ts n it'}, DrainsIn it ts n it' →
      ∃ h, (chart g S input h).length ≤ h ∧ ts = found g S input h ∧ n = (chart g S input h).length + 1 := by
    intro ts n it' hd
    obtain ⟨it1, h1, h2⟩ := drainsIn_draws hd
    obtain ⟨_, _, hi1, _⟩ := h1.rounds ho.inv.1
    obtain ⟨h0, hs0, hts⟩ := draws_found ho h1
    obtain ⟨hr, _, hq, _⟩ := Next.none_rounds hi1 h2
    obtain ⟨h', ts', _, hs, he, hf⟩ := hs0.rounds hr
    cases hf
    refine ⟨h', Nat.le_of_eq (hs.queue_nil.mp hq), by rw [he, List.append_nil, hts], ?_⟩
    rw [hs.len]
    exact C65_rounds ho hd
  constructor
  · rintro ⟨it', hd⟩
    exact key hd
  · rintro ⟨h, hl, rfl, rfl⟩
    obtain ⟨it1, it2, h1, h2⟩ := (C80_end ho (found g S input h)).mpr ⟨h, hl, rfl⟩
    obtain ⟨n, hd⟩ := drainsIn_of_draws ho.inv.1 h1 h2
    obtain ⟨h', hl', _, rfl⟩ := key hd
    refine ⟨it2, ?_⟩
    rw [← (chart_end hl' (Nat.le_max_left h' h)).1, (chart_end hl (Nat.le_max_right h' h)).1] at hd
    exact hd

/-- `<e> ::= <e> '+' <e> | 'a'`. -/
def gSum : Grammar := ⟨[⟨.nonterminal ['e'], [⟨[.nonterminal ['e'], .terminal ['+'], .nonterminal ['e']]⟩, ⟨[.terminal ['a']]⟩]⟩]⟩

def eLeaf : ParseTreeNode := .nonterminal (.nonterminal ['e']) [.terminal ['a']]

/-- `gSum` on `a+a+a`: 23 items, two trees, the one nested to the left first. -/
example : (chart gSum (.nonterminal ['e']) ['a', '+', 'a', '+', 'a'] 23).length = 23 ∧
    found gSum (.nonterminal ['e']) ['a', '+', 'a', '+', 'a'] 23 =
      [⟨.nonterminal ['e'], [.nonterminal (.nonterminal ['e']) [eLeaf, .terminal ['+'], eLeaf], .terminal ['+'], eLeaf]⟩,
       ⟨.nonterminal ['e'], [eLeaf, .terminal ['+'], .nonterminal (.nonterminal ['e']) [eLeaf, .terminal ['+'], eLeaf]]⟩] ∧
    ∃ it, Opened gSum (.nonterminal ['e']) ['a', '+', 'a', '+', 'a'] it :=
  ⟨by decide, rfl, opened_of (by simp [gSum])⟩

/-- `gDup` on `x`: the repeated alternative gives two items more, and the tree twice. -/
example : (chart gDup (.nonterminal ['a']) ['x'] 4).length = 4 ∧
    found gDup (.nonterminal ['a']) ['x'] 4 = [⟨.nonterminal ['a'], [.terminal ['x']]⟩, ⟨.nonterminal ['a'], [.terminal ['x']]⟩] :=
  ⟨by decide, rfl⟩

/-- C81: renaming nonterminals and characters, without identifying any two, renames the trees and keeps their order and the moment at which
the iterator ends. -/
theorem C81_order {f : Str → Str} {c : Char → Char} (hf : Function.Injective f) (hc : Function.Injective c) {g S input it it₁}
    (ho : Opened g S input it) (ho₁ : Opened (renGrammar f c g) (renTerm f c S) (input.map c) it₁) (ts : List ParseTree) :
    ((∃ it', Draws it ts it') ↔ ∃ it', Draws it₁ (ts.map (renTree f c)) it') ∧
    ((∃ it' it'', Draws it ts it' ∧ Next it' none it'') ↔
      ∃ it' it'', Draws it₁ (ts.map (renTree f c)) it' ∧ Next it' none it'') := by
  have hinj : Function.Injective (List.map (renTree f c)) := List.map_injective_iff.mpr (renTree_inj hf hc)
  rw [C80_results ho, C80_results ho₁, C80_end ho, C80_end ho₁]
  simp only [found_ren hf hc, chart_ren hf hc, List.length_map, List.prefix_map_iff_of_injective (renTree_inj hf hc), hinj.eq_iff, and_self]

/-- C81: nothing but renamed trees is returned by the renamed grammar, and draining takes the same number of rounds. -/
theorem C81_all {f : Str → Str} {c : Char → Char} (hf : Function.Injective f) (hc : Function.Injective c) {g S input it it₁}
    (ho : Opened g S input it) (ho₁ : Opened (renGrammar f c g) (renTerm f c S) (input.map c) it₁) :
    (∀ ts₁ it₁', Draws it₁ ts₁ it₁' → ∃ ts it', ts₁ = ts.map (renTree f c) ∧ Draws it ts it') ∧
    ∀ ts n, (∃ it', DrainsIn it ts n it') ↔ ∃ it', DrainsIn it₁ (ts.map (renTree f c)) n it' := by
  constructor
  · intro ts₁ it₁' hd
    obtain ⟨h, hp⟩ := (C80_results ho₁ ts₁).mp ⟨it₁', hd⟩
    rw [found_ren hf hc] at hp
    obtain ⟨ts, hts, rfl⟩ := List.prefix_map_iff.mp hp
    obtain ⟨it', hd'⟩ := (C80_results ho ts).mpr ⟨h, hts⟩
    exact ⟨ts, it', rfl, hd'⟩
  · intro ts n
    have hinj : Function.Injective (List.map (renTree f c)) := List.map_injective_iff.mpr (renTree_inj hf hc)
    rw [C80_rounds ho, C80_rounds ho₁]
    simp only [found_ren hf hc, chart_ren hf hc, List.length_map, hinj.eq_iff]

/-- The two trees of `gSum`, renamed. -/
example : Function.Injective ('x' :: · : Str → Str) ∧ Function.Injective (swapY) ∧
    (∃ it, Opened (renGrammar ('x' :: ·) swapY gSum) (renTerm ('x' :: ·) swapY (.nonterminal ['e'])) (['a', '+', 'a'].map swapY) it) :=
  ⟨fun a b h => by simpa using h, fun a b h => by rw [← swapY_swapY a, h, swapY_swapY], opened_of (by simp [renGrammar, gSum])⟩

/-- C82: two grammars that list the same alternatives, in the same order, for each term that a parse from `S` can need, return the same trees
in the same order, end alike and take the same number of rounds. -/
theorem C82_same_alternatives {g g' S input it it₁} (h : ∀ T, Needed g S T → listed g T = listed g' T)
    (ho : Opened g S input it) (ho₁ : Opened g' S input it₁) (ts : List ParseTree) :
    ((∃ it', Draws it ts it') ↔ ∃ it', Draws it₁ ts it') ∧
    ((∃ it' it'', Draws it ts it' ∧ Next it' none it'') ↔ ∃ it' it'', Draws it₁ ts it' ∧ Next it' none it'') ∧
    ∀ n, (∃ it', DrainsIn it ts n it') ↔ ∃ it', DrainsIn it₁ ts n it' := by
  rw [C80_results ho, C80_results ho₁, C80_end ho, C80_end ho₁]
  simp only [C80_rounds ho, C80_rounds ho₁, found_needed h, (chart_needed h _).1, implies_true, and_self]

/-- C82: the order of productions with different left-hand sides does not matter. -/
theorem C82_swap {xs ys : List Production} {p q : Production} (hpq : p.lhs ≠ q.lhs) {S input it it₁}
    (ho : Opened ⟨xs ++ p :: q :: ys⟩ S input it) (ho₁ : Opened ⟨xs ++ q :: p :: ys⟩ S input it₁) (ts : List ParseTree) :
    ((∃ it', Draws it ts it') ↔ ∃ it', Draws it₁ ts it') ∧
    ((∃ it' it'', Draws it ts it' ∧ Next it' none it'') ↔ ∃ it' it'', Draws it₁ ts it' ∧ Next it' none it'') ∧
    ∀ n, (∃ it', DrainsIn it ts n it') ↔ ∃ it', DrainsIn it₁ ts n it' := by
  refine C82_same_alternatives (fun T _ => ?_) ho ho₁ ts
  simp only [listed, List.filter_append, List.filter_cons]
  by_cases h1 : p.lhs = T
  · have h2 : q.lhs ≠ T := fun h => hpq (h1.trans h.symm)
    simp [h1, h2]
  · by_cases h2 : q.lhs = T <;> simp [h1, h2]

/-- C82: one production with all alternatives, or several with some of them each, make no difference. -/
theorem C82_merge {xs ys : List Production} {l : Term} {a b : List Expression} {S input it it₁}
    (ho : Opened ⟨xs ++ ⟨l, a⟩ :: ⟨l, b⟩ :: ys⟩ S input it) (ho₁ : Opened ⟨xs ++ ⟨l, a ++ b⟩ :: ys⟩ S input it₁) (ts : List ParseTree) :
    ((∃ it', Draws it ts it') ↔ ∃ it', Draws it₁ ts it') ∧
    ((∃ it' it'', Draws it ts it' ∧ Next it' none it'') ↔ ∃ it' it'', Draws it₁ ts it' ∧ Next it' none it'') ∧
    ∀ n, (∃ it', DrainsIn it ts n it') ↔ ∃ it', DrainsIn it₁ ts n it' := by
  refine C82_same_alternatives (fun T _ => ?_) ho ho₁ ts
  simp only [listed, List.filter_append, List.filter_cons]
  by_cases h : l = T <;> simp [h]

/-- C82: productions that no parse from `S` can need do not change anything, wherever they stand. -/
theorem C82_unneeded {xs ys : List Production} {p : Production} {S input it it₁} (hp : ¬ Needed ⟨xs ++ ys⟩ S p.lhs)
    (ho : Opened ⟨xs ++ ys⟩ S input it) (ho₁ : Opened ⟨xs ++ p :: ys⟩ S input it₁) (ts : List ParseTree) :
    ((∃ it', Draws it ts it') ↔ ∃ it', Draws it₁ ts it') ∧
    ((∃ it' it'', Draws it ts it' ∧ Next it' none it'') ↔ ∃ it' it'', Draws it₁ ts it' ∧ Next it' none it'') ∧
    ∀ n, (∃ it', DrainsIn it ts n it') ↔ ∃ it', DrainsIn it₁ ts n it' := by
  refine C82_same_alternatives (fun T hT => ?_) ho ho₁ ts
  have : p.lhs ≠ T := fun h => hp (h ▸ hT)
  simp only [listed, List.filter_append, List.filter_cons]
  simp [this]

/-- `gExp` from `<e>`: its productions exchanged, its alternatives spread over productions, and a production more; the tree is the same. -/
example : (∃ it it', Opened gExp (.nonterminal ['e']) ['é', '+', 'y'] it ∧ Draws it [tExp] it') ∧
    (∃ it it', Opened ⟨[] ++ ⟨.nonterminal ['t'], [⟨[.terminal ['é']]⟩, ⟨[.terminal ['y']]⟩]⟩ ::
        ⟨.nonterminal ['e'], [⟨[.nonterminal ['e'], .terminal ['+'], .nonterminal ['t']]⟩, ⟨[.nonterminal ['t']]⟩]⟩ :: []⟩
      (.nonterminal ['e']) ['é', '+', 'y'] it ∧ Draws it [tExp] it') ∧
    (∃ it it', Opened ⟨gExp.productions ++ ⟨.nonterminal ['u'], [⟨[.terminal ['é']]⟩]⟩ :: []⟩ (.nonterminal ['e']) ['é', '+', 'y'] it ∧
      Draws it [tExp] it') ∧
    ¬ Needed ⟨gExp.productions ++ []⟩ (.nonterminal ['e']) (.nonterminal ['u']) := by
  refine ⟨⟨_, _, .deprecatedStarting rfl, .cons ⟨100, rfl⟩ .nil⟩, ⟨_, _, .deprecatedStarting rfl, .cons ⟨100, rfl⟩ .nil⟩,
    ⟨_, _, .deprecatedStarting rfl, .cons ⟨100, rfl⟩ .nil⟩, ?_⟩
  have key : ∀ T, Needed ⟨gExp.productions ++ []⟩ (.nonterminal ['e']) T → T = .nonterminal ['e'] ∨ T = .nonterminal ['t'] := by
    intro T h
    induction h with
    | start => exact .inl rfl
    | @used T e n _ he hn ih =>
      rcases ih with rfl | rfl
      · simp [listed, gExp] at he
        rcases he with rfl | rfl <;> simp at hn <;> simp [hn]
      · simp [listed, gExp] at he
        rcases he with rfl | rfl <;> simp at hn
  intro h
  rcases key _ h with h | h <;> cases h

end Bnf.Props
