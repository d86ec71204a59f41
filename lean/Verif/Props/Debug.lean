import Verif.Proofs.Debug
import Verif.Props.Generate

/-!
# C71: the assertion of debug builds
-/

set_option autoImplicit false

namespace Bnf.Props
open Bnf Bnf.Spec

/-- C71: for every strategy, a debug build gives what a release build gives, or panics. -/
theorem C71_agree_or_panic {σ : Type} (g : Grammar) (S : RefStrategy σ) (f : Callback σ) (fuel : Nat) (st : σ) :
    g.generateWithDebug S f fuel st = g.generateWith S.values f fuel st ∨ g.generateWithDebug S f fuel st = .panic := by
  rcases generateWithDebug_cases (g := g) (S := S) (f := f) fuel st with h | ⟨nt, h1, h2⟩
  · exact .inl h
  · rw [h1, h2]; exact traverseDebug_agree _ _ _ _

/-- C71: if the strategy only returns references into the productions it is given, the assertion never fails: debug and release builds
give the same. -/
theorem C71_own_references {σ : Type} (g : Grammar) (S : RefStrategy σ)
    (hS : ∀ st a p d e, p ∈ g.productions → (S.choose st a p d).1 ≠ .foreign e) (f : Callback σ) (fuel : Nat) (st : σ) :
    g.generateWithDebug S f fuel st = g.generateWith S.values f fuel st := by
  rcases generateWithDebug_cases (g := g) (S := S) (f := f) fuel st with h | ⟨nt, h1, h2⟩
  · exact h
  · rw [h1, h2]; exact traverseDebug_eq hS _ _ _ _

/-- C71: so the assertion never fails with one of the four built-in strategies; `Model.Generate`, which leaves it out, is right about both
builds. -/
theorem C71_builtin {ρ Seed : Type} (R : Rng ρ Seed) (m : Nat) (c : Bool) (x y : Nat) (g : Grammar) (fuel : Nat) :
    (∀ f st, g.generateWithDebug (RandomWalkRef R) f fuel st = g.generateWith (RandomWalk R) f fuel st) ∧
    (∀ f st, g.generateWithDebug (DepthBoundedRef R m) f fuel st = g.generateWith (DepthBounded R m) f fuel st) ∧
    (∀ f st, g.generateWithDebug (CoverageGuidedRef R) f fuel st = g.generateWith (CoverageGuided R) f fuel st) ∧
    (∀ f st, g.generateWithDebug (WeightedRef R c x y) f fuel st = g.generateWith (Weighted R c x y) f fuel st) := by
  refine ⟨fun f st => ?_, fun f st => ?_, fun f st => ?_, fun f st => ?_⟩
  · rw [C71_own_references]
    · congr 1
      unfold RefStrategy.values RandomWalkRef RandomWalk
      congr
      funext st a p d
      simp only
      generalize randomIndex R st p.rhs.length = r
      obtain ⟨_ | i, r⟩ := r
      · rfl
      · simp only [getExpressionRef_value]
    · intro st a p d e _
      simp only [RandomWalkRef]
      split <;> simp [getExpressionRef_ne]
  · rw [C71_own_references]
    · congr 1
      unfold RefStrategy.values DepthBoundedRef DepthBounded
      congr
      funext st a p d
      simp only
      generalize pickFrom R st _ p.rhs.length = r
      obtain ⟨_ | i, r⟩ := r
      · rfl
      · simp only [getExpressionRef_value]
    · intro st a p d e _
      simp only [DepthBoundedRef]
      split <;> simp [getExpressionRef_ne]
  · rw [C71_own_references]
    · congr 1
      unfold RefStrategy.values CoverageGuidedRef CoverageGuided
      congr
      funext st a p d
      simp only
      generalize pickFrom R st.2 _ p.rhs.length = r
      obtain ⟨_ | i, r⟩ := r
      · rfl
      · simp only [getExpressionRef_value]
    · intro st a p d e _
      simp only [CoverageGuidedRef]
      split <;> simp [getExpressionRef_ne]
  · rw [C71_own_references]
    · congr 1
      unfold RefStrategy.values WeightedRef Weighted
      congr
      funext st a p d
      simp only
      generalize weightedRandomIndex R c st _ p.rhs.length = r
      obtain ⟨_ | i, r⟩ := r
      · rfl
      · simp only [getExpressionRef_value]
    · intro st a p d e _
      simp only [WeightedRef]
      split <;> simp [getExpressionRef_ne]

/-- A strategy that always returns the same expression from elsewhere. -/
def elsewhere (e : Expression) : RefStrategy Unit := ⟨fun st _ _ _ => (.foreign e, st)⟩

/-- C71: with another strategy the builds differ.  A debug build panics even if the expression is equal to the alternative of the production; a
release build accepts every expression, and returns a sentence that does not belong to the language. -/
theorem C71_foreign_witness :
    (∃ g : Grammar, ∃ e, (∃ p ∈ g.productions, e ∈ p.rhs) ∧
      g.generateWithDebug (elsewhere e) (fun st _ _ => (true, st)) 5 () = .panic ∧
      g.generateWith (elsewhere e).values (fun st _ _ => (true, st)) 5 () = .done (.ok ['x']) ()) ∧
    (∃ g : Grammar, ∃ e, g.generateWith (elsewhere e).values (fun st _ _ => (true, st)) 5 () = .done (.ok ['y']) () ∧
      g.startingTerm = some (.nonterminal ['a']) ∧ ¬ Derives g (.nonterminal ['a']) ['y']) := by
  refine ⟨⟨⟨[⟨.nonterminal ['a'], [⟨[.terminal ['x']]⟩]⟩]⟩, ⟨[.terminal ['x']]⟩, ⟨_, List.mem_singleton.2 rfl, List.mem_singleton.2 rfl⟩, ?_, ?_⟩,
    ⟨⟨[⟨.nonterminal ['a'], [⟨[.terminal ['x']]⟩]⟩]⟩, ⟨[.terminal ['y']]⟩, ?_, rfl, ?_⟩⟩
  · rfl
  · rfl
  · rfl
  · rintro ⟨⟨lhs, rhs⟩, h1, ⟨e, ⟨p, hp, hl, he⟩, hf⟩, h3⟩
    simp only [List.mem_singleton] at hp
    subst hp
    simp only [List.mem_singleton] at he
    subst he
    cases hf with
    | terminal h =>
      cases h
      revert h3
      simp [yield, nodeYield]

/-- The hypothesis of `C71_own_references` is met by a strategy that is not built in: always the first alternative. -/
example : ∀ (st : Unit) (a : Nat) (p : Production) (d : Nat) (e : Expression),
    ((⟨fun st _ p _ => (getExpressionRef p 0, st)⟩ : RefStrategy Unit).choose st a p d).1 ≠ .foreign e :=
  fun _ _ p _ e => getExpressionRef_ne p 0 e

end Bnf.Props
