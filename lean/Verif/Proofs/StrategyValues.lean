import Verif.Proofs.Callback
import Verif.Model.Strategies

/-! # The strategies with their buffers refine the strategies without -/

set_option autoImplicit false

namespace Bnf

variable {ρ Seed : Type}

theorem pushEligible_eq : ∀ (es : List Expression) (i : Nat) (buf : List Nat),
    pushEligible es i buf = buf ++ indicesWhere (fun _ e => expressionAllTerminals e) es i
  | [], i, buf => by simp [pushEligible, indicesWhere]
  | e :: es, i, buf => by
    rw [pushEligible, pushEligible_eq es, indicesWhere]
    by_cases h : expressionAllTerminals e = true <;> simp [h]

theorem pushUncovered_eq (seen : List (Nat × Nat)) (lhs : Nat) : ∀ (n i : Nat) (buf : List Nat),
    pushUncovered seen lhs n i buf = buf ++ (List.range' i n).filter fun i => !seen.contains (lhs, i)
  | 0, i, buf => by simp [pushUncovered]
  | n + 1, i, buf => by
    rw [pushUncovered, pushUncovered_eq seen lhs n, List.range'_succ, List.filter_cons]
    cases h : seen.contains (lhs, i) <;> simp

theorem pushWeights_eq (v w : Nat) (lhs : Term) : ∀ (es : List Expression) (buf : List Nat),
    pushWeights v w lhs es buf = buf ++ es.map fun e => if expressionContains e lhs then v else w
  | [], buf => by simp [pushWeights]
  | e :: es, buf => by rw [pushWeights, pushWeights_eq v w lhs es]; simp

theorem chooseFromBuf_eq (R : Rng ρ Seed) (rng : ρ) (buf : List Nat) (len : Nat) : chooseFromBuf R rng buf len = pickFrom R rng buf len := by
  unfold chooseFromBuf pickFrom
  by_cases h : buf.isEmpty = true
  · simp [h]
  · rw [if_neg h, if_neg h]
    cases hr : randomIndex R rng buf.length with
    | mk i r => cases i <;> simp

theorem randomWalkValue_choose (R : Rng ρ Seed) (v : RandomWalkValue ρ) (a : Nat) (p : Production) (d : Nat) :
    (RandomWalk R).choose v.rng a p d =
      (((RandomWalkValue.strategy R).choose v a p d).1, ((RandomWalkValue.strategy R).choose v a p d).2.rng) := by
  simp only [RandomWalk, RandomWalkValue.strategy]
  cases hr : randomIndex R v.rng p.rhs.length with
  | mk i r => cases i <;> rfl

theorem depthBoundedValue_choose (R : Rng ρ Seed) (v : DepthBoundedValue ρ) (a : Nat) (p : Production) (d : Nat) :
    (DepthBounded R v.maxDepth).choose v.rng a p d =
        (((DepthBoundedValue.strategy R).choose v a p d).1, ((DepthBoundedValue.strategy R).choose v a p d).2.rng) ∧
      ((DepthBoundedValue.strategy R).choose v a p d).2.maxDepth = v.maxDepth := by
  have hb : (v.fill p d).eligibleBuf = (if v.maxDepth ≤ d then indicesWhere (fun _ e => expressionAllTerminals e) p.rhs 0
      else List.range p.rhs.length) ∧ (v.fill p d).rng = v.rng ∧ (v.fill p d).maxDepth = v.maxDepth := by
    unfold DepthBoundedValue.fill
    by_cases h : v.maxDepth ≤ d <;> simp [h, vecClear, pushEligible_eq]
  simp only [DepthBounded, DepthBoundedValue.strategy, chooseFromBuf_eq, hb.1, hb.2.1]
  cases hr : pickFrom R v.rng (if v.maxDepth ≤ d then indicesWhere (fun _ e => expressionAllTerminals e) p.rhs 0
      else List.range p.rhs.length) p.rhs.length with
  | mk i r => cases i <;> exact ⟨rfl, hb.2.2⟩

theorem coverageGuidedValue_choose (R : Rng ρ Seed) (v : CoverageGuidedValue ρ) (a : Nat) (p : Production) (d : Nat) :
    (CoverageGuided R).choose (v.seen, v.rng) a p d = (((CoverageGuidedValue.strategy R).choose v a p d).1,
      ((CoverageGuidedValue.strategy R).choose v a p d).2.seen, ((CoverageGuidedValue.strategy R).choose v a p d).2.rng) := by
  simp only [CoverageGuided, CoverageGuidedValue.strategy, chooseFromBuf_eq, pushUncovered_eq, vecClear, List.nil_append,
    List.range_eq_range']
  cases hr : pickFrom R v.rng ((List.range' 0 p.rhs.length).filter fun i => !v.seen.contains (a, i)) p.rhs.length with
  | mk i r => cases i <;> rfl

theorem weightedValue_choose (R : Rng ρ Seed) (c : Bool) (v : WeightedValue ρ) (a : Nat) (p : Production) (d : Nat) :
    (Weighted R c v.recursiveWeight v.nonRecursiveWeight).choose v.rng a p d =
        (((WeightedValue.strategy R c).choose v a p d).1, ((WeightedValue.strategy R c).choose v a p d).2.rng) ∧
      ((WeightedValue.strategy R c).choose v a p d).2.recursiveWeight = v.recursiveWeight ∧
      ((WeightedValue.strategy R c).choose v a p d).2.nonRecursiveWeight = v.nonRecursiveWeight := by
  have hb : pushWeights v.recursiveWeight v.nonRecursiveWeight p.lhs p.rhs (vecClear v.weightsBuf) =
      fillWeights v.recursiveWeight v.nonRecursiveWeight p := by
    rw [pushWeights_eq, vecClear, List.nil_append]; rfl
  simp only [Weighted, WeightedValue.strategy, hb]
  cases hr : weightedRandomIndex R c v.rng (fillWeights v.recursiveWeight v.nonRecursiveWeight p) p.rhs.length with
  | mk i r => cases i <;> exact ⟨rfl, rfl, rfl⟩

/-! ## Addresses -/

theorem findProduction_lt {id : Str} : ∀ {ps : List Production} {i a : Nat} {p : Production}, findProduction id ps i = some (a, p) →
    i ≤ a ∧ a < i + ps.length
  | [], _, _, _, h => by simp [findProduction] at h
  | q :: ps, i, a, p, h => by
    rw [findProduction] at h
    by_cases hq : q.lhs = .nonterminal id
    · rw [if_pos hq] at h; simp at h; simp; omega
    · rw [if_neg hq] at h
      have := findProduction_lt h
      simp; omega

end Bnf
