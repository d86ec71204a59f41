import Verif.Proofs.TreeChance
import Verif.Props.Chance
import Verif.Props.Copies
import Verif.Props.Chart
import Verif.Props.Work
import Mathlib.Tactic.NormNum

/-!
# Property C107: the probability of a sentence is the sum of the probabilities of its parse trees

What the parser finds for a sentence and how probable it is that the generator makes that sentence.
-/

set_option autoImplicit false

namespace Bnf.Props
open Bnf Spec

theorem starts_declared {g : Grammar} {x : Str} (h : Starts g x) : ∃ q ∈ g.productions, q.lhs = .nonterminal x := by
  obtain ⟨_, p, ps, h1, h2⟩ := h
  exact ⟨p, by rw [h1]; exact List.mem_cons_self, h2⟩

/-- The trees of an exhausted iterator. -/
theorem exhausted_sum {g : Grammar} {alts : Nat → Production → List Expression} (hd : AllDeclared g) (ha : FromRhs alts) (n : Nat) {x : Str}
    (hx : ∃ q ∈ g.productions, q.lhs = .nonterminal x) {w : Str} {it ts it1 it2} (hn : (alternatives g).Nodup)
    (ho : Opened g (.nonterminal x) w it) (hdr : Spec.Draws it ts it1) (he : Next it1 none it2) :
    (dist g alts n 0 x).mass (· == w) = (ts.map fun t => if treeNesting t ≤ n then treeChance g alts t else 0).sum :=
  dist_trees hd ha n hx (C04_no_duplicates hn ho hdr) fun t => C05_exhausted_exact ho hdr he t

/-- C107: the random walk makes the sentence `w`, within `n` nested expansions, with a probability that is the sum over the trees that the parser finds for `w` and
that are nested at most `n` deep, where the probability of a tree is the product over its inner nodes of the share of the alternative used there. -/
theorem C107_random_walk {g : Grammar} {x w : Str} {it ts it1 it2} (h : Starts g x) (hd : AllDeclared g) (hn : (alternatives g).Nodup)
    (ho : Opened g (.nonterminal x) w it) (hdr : Spec.Draws it ts it1) (he : Next it1 none it2) (n : Nat) :
    HasChance (fun st => g.generateSeededWithStrategy (RandomWalk tapeRng) n st) (· == w)
      (ts.map fun t => if treeNesting t ≤ n then treeChance g uniformAlts t else 0).sum := by
  rw [← exhausted_sum hd uniformAlts_from n (starts_declared h) hn ho hdr he]
  exact C78_random_walk h n _

/-- C107: the same for the depth-bounded strategy, with its shares. -/
theorem C107_depth_bounded {g : Grammar} {x w : Str} {it ts it1 it2} (h : Starts g x) (hd : AllDeclared g) (hn : (alternatives g).Nodup)
    (ho : Opened g (.nonterminal x) w it) (hdr : Spec.Draws it ts it1) (he : Next it1 none it2) (m n : Nat) :
    HasChance (fun st => g.generateSeededWithStrategy (DepthBounded tapeRng m) n st) (· == w)
      (ts.map fun t => if treeNesting t ≤ n then treeChance g (boundedAlts m) t else 0).sum := by
  rw [← exhausted_sum hd (boundedAlts_from m) n (starts_declared h) hn ho hdr he]
  exact C78_depth_bounded h m n _

/-- C107: and for the weighted strategy. -/
theorem C107_weighted {g : Grammar} {x w : Str} {it ts it1 it2} (h : Starts g x) (hd : AllDeclared g) (hn : (alternatives g).Nodup)
    (ho : Opened g (.nonterminal x) w it) (hdr : Spec.Draws it ts it1) (he : Next it1 none it2) (checked : Bool) (a b : Nat)
    (hfit : ∀ p ∈ g.productions, (p.rhs.map fun e => if p.lhs ∈ e.terms then a else b).sum < 2 ^ 32) (n : Nat) :
    HasChance (fun st => g.generateSeededWithStrategy (Weighted tapeRng checked a b) n st) (· == w)
      (ts.map fun t => if treeNesting t ≤ n then treeChance g (weightedAlts a b) t else 0).sum := by
  rw [← exhausted_sum hd (weightedAlts_from a b) n (starts_declared h) hn ho hdr he]
  exact C78_weighted h checked a b hfit n _

open scoped Classical in
/-- C107: with repeated alternatives the parser returns a tree once for each way to read it (C04), and this is what the random walk needs: the sum over the returned trees,
with repetitions, of the product of `1 / k` over the inner nodes, where `k` is the number of alternatives listed for the nonterminal. -/
theorem C107_repeated {g : Grammar} {x w : Str} {it ts it1 it2} (h : Starts g x) (hd : AllDeclared g) (hg : Tidy g)
    (ho : Opened g (.nonterminal x) w it) (hdr : Spec.Draws it ts it1) (he : Next it1 none it2) (n : Nat) :
    HasChance (fun st => g.generateSeededWithStrategy (RandomWalk tapeRng) n st) (· == w)
      (ts.map fun t => if treeNesting t ≤ n then treeFair g t else 0).sum := by
  have hs : (dist g uniformAlts n 0 x).mass (· == w) = (ts.map fun t => if treeNesting t ≤ n then treeFair g t else 0).sum := by
    rw [dist_trees hd uniformAlts_from n (starts_declared h) (L := ts.toFinset.toList) (Finset.nodup_toList _)
      (fun t => by rw [Finset.mem_toList, List.mem_toFinset]; exact C05_exhausted_exact ho hdr he t)]
    rw [Finset.sum_list_map_count ts, ← Finset.sum_map_toList]
    congr 1
    refine List.map_congr_left fun t ht => ?_
    rw [Finset.mem_toList, List.mem_toFinset] at ht
    have hp := C01_soundness ho hdr t ht
    rw [C04_copies_exact ho hdr he t, if_pos hp, treeChance_uniform hg]
    split
    · simp
    · simp
  rw [← hs]
  exact C78_random_walk h n _

/-- C107: with enough room, the bound on the nesting does not matter. -/
theorem C107_enough_room {g : Grammar} {x w : Str} {it ts it1 it2} (h : Starts g x) (hd : AllDeclared g) (hn : (alternatives g).Nodup)
    (ho : Opened g (.nonterminal x) w it) (hdr : Spec.Draws it ts it1) (he : Next it1 none it2) {n : Nat} (hr : ∀ t ∈ ts, treeNesting t ≤ n) :
    HasChance (fun st => g.generateSeededWithStrategy (RandomWalk tapeRng) n st) (· == w) (ts.map (treeChance g uniformAlts)).sum := by
  have := C107_random_walk h hd hn ho hdr he n
  have h2 : (ts.map fun t => if treeNesting t ≤ n then treeChance g uniformAlts t else 0) = ts.map (treeChance g uniformAlts) :=
    List.map_congr_left fun t ht => if_pos (hr t ht)
  rwa [h2] at this

/-- C107: for an unambiguous grammar it is the probability of the one tree. -/
theorem C107_unambiguous {g : Grammar} {x w : Str} {t : ParseTree} (h : Starts g x) (hd : AllDeclared g) (hu : Unambiguous g)
    (ht : IsParse g (.nonterminal x) w t) {n : Nat} (hr : treeNesting t ≤ n) :
    HasChance (fun st => g.generateSeededWithStrategy (RandomWalk tapeRng) n st) (· == w) (treeChance g uniformAlts t) := by
  have := dist_trees (alts := uniformAlts) hd uniformAlts_from n (starts_declared h) (L := [t]) (List.nodup_singleton _)
    (fun t' => by rw [List.mem_singleton]; exact ⟨fun he => he ▸ ht, fun h' => hu _ _ _ _ h' ht⟩)
  simp only [List.map_cons, List.map_nil, List.sum_cons, List.sum_nil, add_zero, if_pos hr] at this
  rw [← this]
  exact C78_random_walk h n _

/-- C107: also when the parser has not come to its end, or never does, the trees returned so far give a lower bound. -/
theorem C107_so_far {g : Grammar} {x w : Str} {it ts it1} (h : Starts g x) (hd : AllDeclared g) (hn : (alternatives g).Nodup)
    (ho : Opened g (.nonterminal x) w it) (hdr : Spec.Draws it ts it1) (n : Nat) :
    ∃ p, HasChance (fun st => g.generateSeededWithStrategy (RandomWalk tapeRng) n st) (· == w) p ∧
      (ts.map fun t => if treeNesting t ≤ n then treeChance g uniformAlts t else 0).sum ≤ p :=
  ⟨_, C78_random_walk h n _, dist_trees_ge hd uniformAlts_from n (starts_declared h) (C04_no_duplicates hn ho hdr) fun t ht => C01_soundness ho hdr t ht⟩

/-- A sum of three has two trees, each with probability (1/2)^5. -/
example : Starts gSum ['e'] := ⟨by rfl, _, _, rfl, rfl⟩

theorem gSum_declared : AllDeclared gSum := by
  intro p hp e he x hx
  simp only [gSum, List.mem_singleton] at hp
  subst hp
  simp only [List.mem_cons, List.not_mem_nil, or_false] at he
  rcases he with rfl | rfl <;> simp at hx
  exact ⟨_, List.mem_singleton_self _, by rw [hx]⟩

theorem gSum_tidy : Tidy gSum where
  once := by simp [gSum]
  names p hp := by simp only [gSum, List.mem_singleton] at hp; subst hp; exact ⟨_, rfl⟩
  choice p hp := by simp only [gSum, List.mem_singleton] at hp; subst hp; simp [Barren]

example : (alternatives gSum).Nodup := by decide

example : treeChance gSum uniformAlts ⟨.nonterminal ['e'], [.nonterminal (.nonterminal ['e']) [eLeaf, .terminal ['+'], eLeaf], .terminal ['+'], eLeaf]⟩ = 1 / 32 ∧
    treeNesting ⟨.nonterminal ['e'], [.nonterminal (.nonterminal ['e']) [eLeaf, .terminal ['+'], eLeaf], .terminal ['+'], eLeaf]⟩ = 3 := by
  constructor
  · simp [treeChance, nodeChance, kidsChance, share, firstOf, gSum, eLeaf, Barren, uniformAlts, rootTerm]; norm_num
  · simp [treeNesting, nodeNesting, kidsNesting, eLeaf]

/-- The random walk makes `a+a+a` with probability 1/16. -/
example : HasChance (fun st => gSum.generateSeededWithStrategy (RandomWalk tapeRng) 3 st) (· == ['a', '+', 'a', '+', 'a']) (1 / 16) := by
  have h1 : Starts gSum ['e'] := ⟨by rfl, _, _, rfl, rfl⟩
  have := C107_random_walk (ts := [⟨.nonterminal ['e'], [.nonterminal (.nonterminal ['e']) [eLeaf, .terminal ['+'], eLeaf], .terminal ['+'], eLeaf]⟩,
    ⟨.nonterminal ['e'], [eLeaf, .terminal ['+'], .nonterminal (.nonterminal ['e']) [eLeaf, .terminal ['+'], eLeaf]]⟩])
    (w := ['a', '+', 'a', '+', 'a']) h1 gSum_declared (by decide) (.deprecatedStarting rfl)
    (.cons ⟨100, rfl⟩ (.cons ⟨100, rfl⟩ .nil)) ⟨100, rfl⟩ 3
  convert this using 1
  simp [treeChance, nodeChance, kidsChance, share, firstOf, gSum, eLeaf, Barren, uniformAlts, rootTerm, treeNesting, nodeNesting, kidsNesting]
  norm_num

/-- Repeated alternatives: `<a> ::= 'x' | 'x'` has the tree of "x" twice, and 1/2 + 1/2 = 1. -/
example : Starts gDup ['a'] ∧ Tidy gDup ∧ AllDeclared gDup ∧ treeFair gDup ⟨.nonterminal ['a'], [.terminal ['x']]⟩ = 1 / 2 := by
  refine ⟨⟨by rfl, _, _, rfl, rfl⟩, ⟨by simp [gDup], fun p hp => ?_, fun p hp => ?_⟩, ?_, ?_⟩
  · simp only [gDup, List.mem_singleton] at hp; subst hp; exact ⟨_, rfl⟩
  · simp only [gDup, List.mem_singleton] at hp; subst hp; simp [Barren]
  · intro p hp e he x hx
    simp only [gDup, List.mem_singleton] at hp
    subst hp
    simp only [List.mem_cons, List.not_mem_nil, or_false, or_self] at he
    subst he
    simp at hx
  · simp [treeFair, nodeFair, kidsFair, choices, gDup]

/-- An unambiguous grammar: "a" has probability 1/4 in `<s> ::= <s> 'a' | ''`. -/
example : HasChance (fun st => gLeft.generateSeededWithStrategy (RandomWalk tapeRng) 2 st) (· == ['a']) (1 / 4) := by
  have hp : IsParse gLeft (.nonterminal ['s']) ['a'] ⟨.nonterminal ['s'], [.nonterminal (.nonterminal ['s']) [.terminal []], .terminal ['a']]⟩ :=
    ⟨rfl, ⟨_, gLeft_alt1, .nonterminal gLeft_alt2 (.terminal .nil) (.terminal .nil)⟩, by simp [Spec.yield, nodeYield]⟩
  have := C107_unambiguous (g := gLeft) (n := 2) ⟨by rfl, _, _, rfl, rfl⟩ (by
    intro p hp e he x hx
    simp only [gLeft, List.mem_singleton] at hp
    subst hp
    simp only [List.mem_cons, List.not_mem_nil, or_false] at he
    rcases he with rfl | rfl <;> simp at hx
    exact ⟨_, List.mem_singleton_self _, by rw [hx]⟩) gLeft_unambiguous hp (by simp [treeNesting, nodeNesting, kidsNesting])
  convert this using 1
  simp [treeChance, nodeChance, kidsChance, share, firstOf, gLeft, Barren, uniformAlts, rootTerm]
  norm_num

/-- `<s> ::= 'a' | <b>`, where `<b>` has no production. -/
def gOpenB : Grammar := ⟨[⟨.nonterminal ['s'], [⟨[.terminal ['a']]⟩, ⟨[.nonterminal ['b']]⟩]⟩]⟩

/-- C107: the assumption that every nonterminal has a production is needed: for one without, its name is made as text (with probability 1/2 here), which has no tree. -/
theorem C107_undeclared_witness : Starts gOpenB ['s'] ∧ (alternatives gOpenB).Nodup ∧
    HasChance (fun st => gOpenB.generateSeededWithStrategy (RandomWalk tapeRng) 2 st) (· == ['b']) (1 / 2) ∧ ¬ Derives gOpenB (.nonterminal ['s']) ['b'] := by
  have h1 : Starts gOpenB ['s'] := ⟨by rfl, _, _, rfl, rfl⟩
  refine ⟨h1, by decide, ?_, ?_⟩
  · have := C78_random_walk h1 2 (· == ['b'])
    convert this using 1
    simp [dist, firstOf, gOpenB, Barren, uniformAlts, distTerms, Dist.mass]
  · rintro ⟨⟨l, ns⟩, rfl, ⟨e, ⟨p, hp, _, he⟩, hf⟩, hy⟩
    simp only [gOpenB, List.mem_singleton] at hp
    subst hp
    simp only [List.mem_cons, List.not_mem_nil, or_false] at he
    simp only at hf hy
    rcases he with rfl | rfl
    · cases hf with
      | terminal h =>
        cases h
        simp [Spec.yield, nodeYield] at hy
    · cases hf with
      | nonterminal ha _ _ =>
        obtain ⟨p, hp, hl, _⟩ := ha
        simp only [gOpenB, List.mem_singleton] at hp
        subst hp
        simp at hl

end Bnf.Props
