import Verif.Proofs.Mean
import Verif.Proofs.TreeChance

/-!
# The expected value of a number that belongs to the generated sentence, from the derivation trees

Helper lemmas for C116.
-/

set_option autoImplicit false

namespace Bnf
open Spec

/-- The mean of `f` over the outcomes. -/
def meanOver (D : Dist) (f : Str → ℚ) : ℚ := (D.map fun o => o.2 * f o.1).sum

section
variable {g : Grammar} {alts : Nat → Production → List Expression}
variable {G : Production → Prop} (hG : ∀ p ∈ g.productions, G p) {S : Strategy (List Nat × ℚ)}

include hG in
theorem mean_of_dist (hS : Draws G S alts) (f : Str → ℚ) (n d : Nat) (x : Str) :
    HasMean (fun st => traverse g S (acceptAll _) n x d st) (fun w _ => f w) (meanOver (dist g alts n d x) f) := by
  refine ⟨(runs g alts n d x).map (·.1), runs_nodup hG hS n d x, fun t ht => ?_, ?_⟩
  · cases hx : traverse g S (acceptAll _) n x d (t, 1) with
    | fuel => simp only [hx, weightOf] at ht; exact absurd rfl ht
    | panic => simp only [hx, weightOf] at ht; exact absurd rfl ht
    | done r st =>
      obtain ⟨t', v'⟩ := st
      cases r with
      | error e => simp only [hx, weightOf] at ht; exact absurd rfl ht
      | ok s =>
        cases t' with
        | cons a as => simp only [hx, weightOf] at ht; exact absurd rfl ht
        | nil =>
          simp only [hx, weightOf, if_true] at ht
          obtain ⟨r, h1, _, h2, _⟩ := runs_complete hG hS n d x t 1 s [] v' hx ht
          rw [List.append_nil] at h2
          exact List.mem_map.mpr ⟨r, h1, h2.symm⟩
  · rw [List.map_map, meanOver, ← runs_dist, List.map_map]
    congr 1
    apply List.map_congr_left
    intro r hr
    have := runs_sound (g := g) hG hS n d x r hr [] 1
    rw [List.append_nil] at this
    simp only [Function.comp_apply, this, meanPart, one_mul]

end

/-- Regrouping a mean by outcomes. -/
theorem mean_regroup {α : Type} (D : List (α × ℚ)) (F : α → ℚ) (L : List α) (hL : L.Nodup) (h : ∀ o ∈ D, o.1 ∈ L) :
    (D.map fun o => o.2 * F o.1).sum = (L.map fun a => massAt D a * F a).sum := by
  have h1 := sum_regroup (D.map fun o => (o.1, o.2 * F o.1)) (fun _ => True) L hL
    (fun o ho _ => by obtain ⟨o', ho', rfl⟩ := List.mem_map.mp ho; exact h o' ho') (fun _ _ => trivial)
  simp only [if_true, List.map_map] at h1
  have h2 : (D.map ((fun o : α × ℚ => o.2) ∘ fun o => (o.1, o.2 * F o.1))) = D.map fun o => o.2 * F o.1 := rfl
  rw [h2] at h1
  rw [h1]
  congr 1
  refine List.map_congr_left fun a _ => ?_
  clear h1 h2 h
  unfold massAt
  rw [List.map_map, ← List.sum_map_mul_right]
  congr 1
  refine List.map_congr_left fun o _ => ?_
  simp only [Function.comp]
  split
  · next he => rw [he]
  · rw [zero_mul]

/-- The mean, from all trees that contribute. -/
theorem mean_trees {g : Grammar} {alts : Nat → Production → List Expression} (hd : AllDeclared g) (ha : FromRhs alts) (n : Nat) {x : Str}
    (hx : ∃ q ∈ g.productions, q.lhs = .nonterminal x) (f : Str → ℚ) {L : List ParseTree} (hL : L.Nodup) (hroot : ∀ t ∈ L, t.lhs = .nonterminal x)
    (hm : ∀ w t, IsParse g (.nonterminal x) w t → treeNesting t ≤ n → treeChance g alts t ≠ 0 → t ∈ L) :
    meanOver (dist g alts n 0 x) f = (L.map fun t => (if treeNesting t ≤ n then treeChance g alts t else 0) * f (Spec.yield t.rhs)).sum := by
  classical
  rw [treeDist_spelled hd ha n 0 x hx]
  unfold meanOver spelled
  rw [List.map_map]
  have hnod : (L.map ParseTree.rhs).Nodup := by
    refine (List.nodup_map_iff_inj_on hL).mpr fun t ht t' ht' he => ?_
    have h1 := hroot t ht
    have h2 := hroot t' ht'
    cases t; cases t'
    simp only at h1 h2 he
    rw [h1, h2, he]
  have hall : ∀ o ∈ treeDist g alts n 0 x, o.1 ∈ L.map ParseTree.rhs ++ (((treeDist g alts n 0 x).map (·.1)).filter fun k => k ∉ L.map ParseTree.rhs).dedup := by
    intro o ho
    by_cases hk : o.1 ∈ L.map ParseTree.rhs
    · exact List.mem_append_left _ hk
    · refine List.mem_append_right _ (List.mem_dedup.mpr (List.mem_filter.mpr ⟨List.mem_map_of_mem ho, ?_⟩))
      rw [decide_eq_true_eq]
      exact hk
  have h1 := mean_regroup (treeDist g alts n 0 x) (fun k => f (Spec.yield k)) _ (by
      refine List.Nodup.append hnod (List.nodup_dedup _) fun k h1 h2 => ?_
      rw [List.mem_dedup, List.mem_filter, decide_eq_true_eq] at h2
      exact h2.2 h1) hall
  have h2 : (treeDist g alts n 0 x).map ((fun o : Str × ℚ => o.2 * f o.1) ∘ fun o => (Spec.yield o.1, o.2)) =
      (treeDist g alts n 0 x).map fun o => o.2 * f (Spec.yield o.1) := rfl
  rw [h2, h1, List.map_append, List.sum_append, List.map_map]
  have h3 : ((((treeDist g alts n 0 x).map (·.1)).filter fun k => k ∉ L.map ParseTree.rhs).dedup.map
      fun a => massAt (treeDist g alts n 0 x) a * f (Spec.yield a)).sum = 0 := by
    refine List.sum_eq_zero fun q hq => ?_
    obtain ⟨k, hk, rfl⟩ := List.mem_map.mp hq
    rw [List.mem_dedup, List.mem_filter, decide_eq_true_eq, List.mem_map] at hk
    obtain ⟨⟨o, ho, rfl⟩, hk⟩ := hk
    rw [treeDist_mass]
    split
    · next hn =>
      obtain ⟨e, he, hf⟩ := treeDist_tree ha n 0 x o ho
      by_cases hz : nodeChance g alts 0 (.nonterminal (.nonterminal x) o.1) = 0
      · rw [hz, zero_mul]
      · exact absurd (List.mem_map.mpr ⟨(⟨.nonterminal x, o.1⟩ : ParseTree), hm _ ⟨.nonterminal x, o.1⟩ ⟨rfl, ⟨e, he, hf⟩, rfl⟩ (by simpa [treeNesting, nodeNesting] using hn) hz, rfl⟩) hk
    · rw [zero_mul]
  rw [h3, add_zero]
  congr 1
  refine List.map_congr_left fun t ht => ?_
  simp only [Function.comp, treeDist_mass, treeNesting, nodeNesting, treeChance, hroot t ht]

/-- A lower bound from some of the trees. -/
theorem mean_trees_ge {g : Grammar} {alts : Nat → Production → List Expression} (hd : AllDeclared g) (ha : FromRhs alts) (n : Nat) {x : Str}
    (hx : ∃ q ∈ g.productions, q.lhs = .nonterminal x) {f : Str → ℚ} (hf : ∀ w, 0 ≤ f w) {L : List ParseTree} (hL : L.Nodup)
    (hroot : ∀ t ∈ L, t.lhs = .nonterminal x) :
    (L.map fun t => (if treeNesting t ≤ n then treeChance g alts t else 0) * f (Spec.yield t.rhs)).sum ≤ meanOver (dist g alts n 0 x) f := by
  classical
  have h := mean_trees hd ha n hx f
    (L := L ++ (((treeDist g alts n 0 x).map fun o => (⟨.nonterminal x, o.1⟩ : ParseTree)).filter fun t => t ∉ L).dedup) ?_ ?_ ?_
  · rw [h, List.map_append, List.sum_append]
    refine le_add_of_nonneg_right (List.sum_nonneg fun q hq => ?_)
    obtain ⟨t, _, rfl⟩ := List.mem_map.mp hq
    refine mul_nonneg ?_ (hf _)
    split
    · exact nodeChance_nonneg _ _ _ _
    · rfl
  · refine List.Nodup.append hL (List.nodup_dedup _) fun k h1 h2 => ?_
    rw [List.mem_dedup, List.mem_filter, decide_eq_true_eq] at h2
    exact h2.2 h1
  · intro t ht
    rcases List.mem_append.mp ht with ht | ht
    · exact hroot t ht
    · rw [List.mem_dedup, List.mem_filter, List.mem_map] at ht
      obtain ⟨⟨o, _, rfl⟩, _⟩ := ht
      rfl
  · intro w t ht hn hz
    by_cases hk : t ∈ L
    · exact List.mem_append_left _ hk
    · refine List.mem_append_right _ (List.mem_dedup.mpr (List.mem_filter.mpr ⟨?_, by rwa [decide_eq_true_eq]⟩))
      by_contra hno
      have h0 : massAt (treeDist g alts n 0 x) t.rhs = 0 := massAt_zero fun o ho he => hno (List.mem_map.mpr ⟨o, ho, by
        have := ht.root
        cases t
        simp only at this he
        rw [this, he]⟩)
      rw [treeDist_mass, if_pos (by simpa [treeNesting, nodeNesting] using hn)] at h0
      apply hz
      rw [treeChance, ht.root]
      exact h0

end Bnf
