import Mathlib.Data.Rat.BigOperators
import Mathlib.Topology.Algebra.InfiniteSum.Real
import Mathlib.Topology.Algebra.InfiniteSum.Order
import Mathlib.Topology.Instances.Real.Lemmas
import Verif.Spec.Overall
import Verif.Spec.Extinction
import Verif.Proofs.TreeChance
import Verif.Proofs.Extinction
import Verif.Proofs.Relations

/-! # Proofs: probabilities without a bound on the nesting -/

set_option autoImplicit false

namespace Bnf
open Spec

section
variable {g : Grammar} {alts : Nat → Production → List Expression}

/-- The probability of an event, from all trees that contribute (and possibly others). -/
theorem dist_event (hd : AllDeclared g) (ha : FromRhs alts) (n : Nat) {x : Str} (hx : ∃ q ∈ g.productions, q.lhs = .nonterminal x) (P : Str → Bool)
    (K : List (List ParseTreeNode)) (hK : K.Nodup) (h : ∀ o ∈ treeDist g alts n 0 x, P (Spec.yield o.1) = true → o.1 ∈ K) (hP : ∀ k ∈ K, P (Spec.yield k) = true) :
    (Spec.dist g alts n 0 x).mass P = (K.map fun k => if kidsNesting k + 1 ≤ n then nodeChance g alts 0 (.nonterminal (.nonterminal x) k) else 0).sum := by
  rw [treeDist_spelled hd ha n 0 x hx]
  unfold Dist.mass spelled
  rw [List.map_map]
  have h1 := sum_regroup (treeDist g alts n 0 x) (fun k => P (Spec.yield k) = true) K hK h hP
  have h2 : K.map (massAt (treeDist g alts n 0 x)) =
      K.map fun k => if kidsNesting k + 1 ≤ n then nodeChance g alts 0 (.nonterminal (.nonterminal x) k) else 0 :=
    List.map_congr_left fun k _ => treeDist_mass g alts n 0 x k
  rw [← h2, ← h1]
  rfl

theorem treesOf_rhs {x : Str} {P : Str → Bool} {F : Finset (TreesOf g x P)} : ((F.toList.map Subtype.val).map ParseTree.rhs).Nodup := by
  refine (List.nodup_map_iff_inj_on ((List.nodup_map_iff Subtype.val_injective).mpr F.nodup_toList)).mpr fun t ht t' ht' he => ?_
  obtain ⟨u, _, rfl⟩ := List.mem_map.mp ht
  obtain ⟨u', _, rfl⟩ := List.mem_map.mp ht'
  obtain ⟨⟨l, r⟩, h⟩ := u
  obtain ⟨⟨l', r'⟩, h'⟩ := u'
  have h1 : l = .nonterminal x := h.1
  have h2 : l' = .nonterminal x := h'.1
  subst h1; subst h2
  simp only at he
  subst he
  rfl

/-- A finite set of trees has at most the probability of the event. -/
theorem finset_le_mass (hd : AllDeclared g) (ha : FromRhs alts) {x : Str} (hx : ∃ q ∈ g.productions, q.lhs = .nonterminal x) (P : Str → Bool)
    (F : Finset (TreesOf g x P)) : ∃ n, (∑ t ∈ F, treeChance g alts t.1) ≤ (Spec.dist g alts n 0 x).mass P := by
  classical
  refine ⟨F.sup fun t => treeNesting t.1, ?_⟩
  generalize hn : (F.sup fun t => treeNesting t.1) = n
  have hle : ∀ t ∈ F, treeNesting t.1 ≤ n := fun t ht => hn ▸ Finset.le_sup (f := fun t : TreesOf g x P => treeNesting t.1) ht
  have h1 := dist_event hd ha n hx P
    ((F.toList.map Subtype.val).map ParseTree.rhs ++
      (((treeDist g alts n 0 x).map (·.1)).filter fun k => P (Spec.yield k) = true ∧ k ∉ (F.toList.map Subtype.val).map ParseTree.rhs).dedup)
    (by
      refine List.Nodup.append treesOf_rhs (List.nodup_dedup _) fun k h1 h2 => ?_
      rw [List.mem_dedup, List.mem_filter, decide_eq_true_eq] at h2
      exact h2.2.2 h1)
    (by
      intro o ho hp
      by_cases hk : o.1 ∈ (F.toList.map Subtype.val).map ParseTree.rhs
      · exact List.mem_append_left _ hk
      · refine List.mem_append_right _ (List.mem_dedup.mpr (List.mem_filter.mpr ⟨List.mem_map_of_mem ho, ?_⟩))
        rw [decide_eq_true_eq]
        exact ⟨hp, hk⟩)
    (by
      intro k hk
      rcases List.mem_append.mp hk with hk | hk
      · obtain ⟨t, ht, rfl⟩ := List.mem_map.mp hk
        obtain ⟨u, _, rfl⟩ := List.mem_map.mp ht
        exact u.2.2.2
      · rw [List.mem_dedup, List.mem_filter, decide_eq_true_eq] at hk
        exact hk.2.1)
  rw [h1, List.map_append, List.sum_append, List.map_map, List.map_map, ← Finset.sum_map_toList]
  have h2 : F.toList.map (((fun k => if kidsNesting k + 1 ≤ n then nodeChance g alts 0 (.nonterminal (.nonterminal x) k) else 0) ∘ ParseTree.rhs) ∘ Subtype.val) =
      F.toList.map fun t => treeChance g alts t.1 := by
    refine List.map_congr_left fun t ht => ?_
    have h3 := hle t (Finset.mem_toList.mp ht)
    simp only [treeNesting, nodeNesting] at h3
    simp only [Function.comp, if_pos h3, treeChance, t.2.1]
  rw [h2]
  refine le_add_of_nonneg_right (List.sum_nonneg fun q hq => ?_)
  obtain ⟨k, _, rfl⟩ := List.mem_map.mp hq
  split
  · exact nodeChance_nonneg _ _ _ _
  · rfl

/-- The probability of the event within `n` expansions is at most that of some finite set of trees. -/
theorem mass_le_finset (hd : AllDeclared g) (ha : FromRhs alts) {x : Str} (hx : ∃ q ∈ g.productions, q.lhs = .nonterminal x) (P : Str → Bool) (n : Nat) :
    ∃ F : Finset (TreesOf g x P), (Spec.dist g alts n 0 x).mass P ≤ ∑ t ∈ F, treeChance g alts t.1 := by
  classical
  let K := (((treeDist g alts n 0 x).map (·.1)).filter fun k => P (Spec.yield k) = true).dedup
  have hK : ∀ k ∈ K, (⟨.nonterminal x, k⟩ : ParseTree) ∈ TreesOf g x P := by
    intro k hk
    rw [List.mem_dedup, List.mem_filter, decide_eq_true_eq] at hk
    obtain ⟨o, ho, rfl⟩ := List.mem_map.mp hk.1
    obtain ⟨e, he, hf⟩ := treeDist_tree ha n 0 x o ho
    exact ⟨rfl, ⟨e, he, hf⟩, hk.2⟩
  have h1 := dist_event hd ha n hx P K (List.nodup_dedup _)
    (fun o ho hp => List.mem_dedup.mpr (List.mem_filter.mpr ⟨List.mem_map_of_mem ho, by rw [decide_eq_true_eq]; exact hp⟩)) (fun k hk => (hK k hk).2.2)
  let L : List (TreesOf g x P) := K.attach.map fun k => ⟨⟨.nonterminal x, k.1⟩, hK k.1 k.2⟩
  have hL : L.Nodup := by
    refine (List.nodup_map_iff ?_).mpr (List.nodup_attach.mpr (List.nodup_dedup _))
    intro a b hab
    simp only [Subtype.mk.injEq, ParseTree.mk.injEq, true_and] at hab
    exact Subtype.ext hab
  refine ⟨L.toFinset, ?_⟩
  rw [h1, List.sum_toFinset _ hL, List.map_map]
  have h2 : (K.map fun k => if kidsNesting k + 1 ≤ n then nodeChance g alts 0 (.nonterminal (.nonterminal x) k) else 0) =
      K.attach.map fun k => if kidsNesting k.1 + 1 ≤ n then nodeChance g alts 0 (.nonterminal (.nonterminal x) k.1) else 0 := by
    conv_lhs => rw [← List.attach_map_subtype_val K]
    rw [List.map_map]
    rfl
  rw [h2]
  refine List.sum_le_sum fun k _ => ?_
  simp only [Function.comp, treeChance]
  split
  · exact le_refl _
  · exact nodeChance_nonneg _ _ _ _

theorem treeChance_nonneg (t : ParseTree) : 0 ≤ treeChance g alts t := nodeChance_nonneg _ _ _ _

theorem mass_bound (n d : Nat) (x : Str) (P : Str → Bool) : (Spec.dist g alts n d x).mass P ≤ 1 := by
  have h1 : (Spec.dist g alts n d x).mass P ≤ (Spec.dist g alts n d x).mass (fun _ => true) := by
    unfold Dist.mass
    refine List.sum_le_sum fun o ho => ?_
    have := dist_nonneg' n d x o ho
    by_cases h : P o.1 = true <;> simp [h, this]
  rw [dist_mass] at h1
  have h2 := (endChance_bounds (g := g) (alts := alts) n d x).2
  exact le_trans h1 (by exact_mod_cast h2)

/-- The least upper bound of the probabilities is the sum over the trees. -/
theorem lub_iff_hasSum (hd : AllDeclared g) (ha : FromRhs alts) {x : Str} (hx : ∃ q ∈ g.productions, q.lhs = .nonterminal x) (P : Str → Bool) (q : ℝ) :
    IsLUB (Set.range fun n => (((Spec.dist g alts n 0 x).mass P : ℚ) : ℝ)) q ↔ HasSum (fun t : TreesOf g x P => ((treeChance g alts t.1 : ℚ) : ℝ)) q := by
  have key : IsLUB (Set.range fun n => (((Spec.dist g alts n 0 x).mass P : ℚ) : ℝ)) q ↔
      IsLUB (Set.range fun F : Finset (TreesOf g x P) => ∑ t ∈ F, ((treeChance g alts t.1 : ℚ) : ℝ)) q := by
    have hub : upperBounds (Set.range fun n => (((Spec.dist g alts n 0 x).mass P : ℚ) : ℝ)) =
        upperBounds (Set.range fun F : Finset (TreesOf g x P) => ∑ t ∈ F, ((treeChance g alts t.1 : ℚ) : ℝ)) := by
      ext b
      constructor
      · rintro hb _ ⟨F, rfl⟩
        obtain ⟨n, hn⟩ := finset_le_mass hd ha hx P F
        refine le_trans ?_ (hb ⟨n, rfl⟩)
        have h1 : (((∑ t ∈ F, treeChance g alts t.1 : ℚ)) : ℝ) ≤ (((Spec.dist g alts n 0 x).mass P : ℚ) : ℝ) := Rat.cast_le.mpr hn
        rw [Rat.cast_sum] at h1
        exact h1
      · rintro hb _ ⟨n, rfl⟩
        obtain ⟨F, hF⟩ := mass_le_finset hd ha hx P n
        refine le_trans ?_ (hb ⟨F, rfl⟩)
        have h1 : (((Spec.dist g alts n 0 x).mass P : ℚ) : ℝ) ≤ (((∑ t ∈ F, treeChance g alts t.1 : ℚ)) : ℝ) := Rat.cast_le.mpr hF
        rw [Rat.cast_sum] at h1
        exact h1
    unfold IsLUB
    rw [hub]
  rw [key]
  have hnn : ∀ t : TreesOf g x P, 0 ≤ ((treeChance g alts t.1 : ℚ) : ℝ) := fun t => by exact_mod_cast treeChance_nonneg t.1
  constructor
  · intro h; exact hasSum_of_isLUB_of_nonneg q hnn h
  · intro h; exact isLUB_hasSum hnn h

/-- The sentence of a tree. -/
def spell {x : Str} {P : Str → Bool} (t : TreesOf g x P) : {w : Str // P w = true} := ⟨Spec.yield t.1.rhs, t.2.2.2⟩

theorem spell_eq {x : Str} {P : Str → Bool} {t : TreesOf g x P} {w : {w : Str // P w = true}} (h : spell t = w) : (Spec.yield t.1.rhs == w.1) = true := by
  rw [← h, beq_iff_eq]; rfl

theorem spell_back {x : Str} {P : Str → Bool} {w : {w : Str // P w = true}} (t : TreesOf g x (· == w.1)) : t.1 ∈ TreesOf g x P := by
  obtain ⟨t, h1, h2, h3⟩ := t
  have h : Spec.yield t.rhs = w.1 := beq_iff_eq.mp h3
  exact ⟨h1, h2, by rw [h]; exact w.2⟩

/-- The trees of one sentence. -/
def fibre {x : Str} {P : Str → Bool} (w : {w : Str // P w = true}) : {t : TreesOf g x P // spell t = w} ≃ TreesOf g x (· == w.1) where
  toFun t := ⟨t.1.1, t.1.2.1, t.1.2.2.1, spell_eq t.2⟩
  invFun t := ⟨⟨t.1, spell_back t⟩, Subtype.ext (beq_iff_eq.mp t.2.2.2)⟩
  left_inv _ := Subtype.ext (Subtype.ext rfl)
  right_inv _ := Subtype.ext rfl

/-- The trees with `P`, by the sentences they spell. -/
theorem hasSum_sentences {x : Str} {P : Str → Bool} {f : ParseTree → ℝ} {r : ℝ} {q : Str → ℝ}
    (hr : HasSum (fun t : TreesOf g x P => f t.1) r) (hq : ∀ w, HasSum (fun t : TreesOf g x (· == w) => f t.1) (q w)) :
    HasSum (fun w : {w : Str // P w = true} => q w.1) r := by
  have h1 := (Equiv.sigmaFiberEquiv (spell (g := g) (x := x) (P := P))).hasSum_iff.mpr hr
  refine h1.sigma fun w => ?_
  have h2 := (fibre (g := g) (x := x) w).hasSum_iff.mpr (hq w.1)
  have h3 : ((fun t : TreesOf g x (· == w.1) => f t.1) ∘ (fibre (g := g) (x := x) w)) =
      fun c => ((fun t : TreesOf g x P => f t.1) ∘ (Equiv.sigmaFiberEquiv (spell (g := g) (x := x) (P := P)))) ⟨w, c⟩ := by
    funext c
    rfl
  rw [h3] at h2
  exact h2

end

end Bnf
