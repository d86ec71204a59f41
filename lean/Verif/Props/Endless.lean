import Verif.Proofs.Endless
import Verif.Props.Generate

/-! # Property C59: exactly when generation need not end -/

set_option autoImplicit false

namespace Bnf.Props
open Bnf Spec

/-- C59: the random walk can run forever, for some random source, exactly if there is an infinite path from the starting nonterminal
on which each nonterminal occurs in an alternative of the first production of the one before, after nonterminals that can be
turned into text. -/
theorem C59_random_walk (g : Grammar) :
    (∃ (ρ Seed : Type) (R : Rng ρ Seed) (st : ρ), ∀ fuel, g.generateSeededWithStrategy (RandomWalk R) fuel st = .fuel) ↔
      StartEndless g anyAlternative :=
  ⟨fun ⟨_, _, _, _, h⟩ => generate_diverges randomWalk_obeys h,
    fun h => have ⟨st, h⟩ := diverging_generate randomWalk_steerable h; ⟨_, _, _, st, h⟩⟩

/-- C59: the same for `generate_seeded`. -/
theorem C59_generate_seeded (g : Grammar) :
    (∃ (ρ Seed : Type) (R : Rng ρ Seed) (rng : ρ), ∀ fuel, (g.generateSeeded R fuel rng).1 = .fuel) ↔
      StartEndless g anyAlternative :=
  ⟨fun ⟨_, _, _, _, h⟩ => generate_diverges randomWalk_obeys h,
    fun h => have ⟨st, h⟩ := diverging_generate randomWalk_steerable h; ⟨_, _, seqRng, st, h⟩⟩

/-- C59: the depth-bounded strategy can run forever, for some random source, exactly if there is such a path on which, from depth
`max_depth` on, only alternatives made of terminals are used where there are any (so the path goes through nonterminals that have
none). -/
theorem C59_depth_bounded (g : Grammar) (m : Nat) :
    (∃ (ρ Seed : Type) (R : Rng ρ Seed) (st : ρ), ∀ fuel, g.generateSeededWithStrategy (DepthBounded R m) fuel st = .fuel) ↔
      StartEndless g (depthAllowance m) :=
  ⟨fun ⟨_, _, _, _, h⟩ => generate_diverges (depthBounded_obeys m) h,
    fun h => have ⟨st, h⟩ := diverging_generate (depthBounded_steerable m) h; ⟨_, _, _, st, h⟩⟩

/-- C59: the weighted strategy, if no sum of weights overflows: only alternatives of positive weight count, if there are any. -/
theorem C59_weighted (g : Grammar) (checked : Bool) (x y : Nat)
    (hs : ∀ p ∈ g.productions, (p.rhs.map (altWeight x y p)).sum < 2 ^ 32) :
    (∃ (ρ Seed : Type) (R : Rng ρ Seed) (st : ρ), ∀ fuel, g.generateSeededWithStrategy (Weighted R checked x y) fuel st = .fuel) ↔
      StartEndless g (weightAllowance x y) :=
  ⟨fun ⟨_, _, _, _, h⟩ => generate_diverges (weighted_obeys hs) h,
    fun h => have ⟨st, h⟩ := diverging_generate (weighted_steerable hs) h; ⟨_, _, _, st, h⟩⟩

/-- C59: otherwise the depth of the recursion is bounded, by the same bound for all random sources. -/
theorem C59_otherwise_bounded (g : Grammar) :
    (¬ StartEndless g anyAlternative → ∃ fuel, ∀ (ρ Seed : Type) (R : Rng ρ Seed) (st : ρ), ∃ r st',
      g.generateSeededWithStrategy (RandomWalk R) fuel st = .done r st') ∧
    (∀ m, ¬ StartEndless g (depthAllowance m) → ∃ fuel, ∀ (ρ Seed : Type) (R : Rng ρ Seed) (st : ρ), ∃ r st',
      g.generateSeededWithStrategy (DepthBounded R m) fuel st = .done r st') ∧
    (∀ x y, (∀ p ∈ g.productions, (p.rhs.map (altWeight x y p)).sum < 2 ^ 32) → ¬ StartEndless g (weightAllowance x y) →
      ∃ fuel, ∀ (ρ Seed : Type) (R : Rng ρ Seed) (checked : Bool) (st : ρ), ∃ r st',
        g.generateSeededWithStrategy (Weighted R checked x y) fuel st = .done r st') := by
  refine ⟨fun h => ?_, fun m h => ?_, fun x y hs h => ?_⟩
  · obtain ⟨fuel, hf⟩ := generate_bounded (A := anyAlternative) id h
    exact ⟨fuel, fun ρ Seed R st => hf _ _ randomWalk_obeys st⟩
  · obtain ⟨fuel, hf⟩ := generate_bounded (A := depthAllowance m) (fun h => h.1) h
    exact ⟨fuel, fun ρ Seed R st => hf _ _ (depthBounded_obeys m) st⟩
  · obtain ⟨fuel, hf⟩ := generate_bounded (A := weightAllowance x y) (fun h => h.1) h
    exact ⟨fuel, fun ρ Seed R checked st => hf _ _ (weighted_obeys hs) st⟩

/-- C59, in the usual case that every nonterminal can be expanded to a sentence: `generate` can run forever, for some random source,
exactly if a nonterminal that refers to itself (directly or not) can be reached from the starting nonterminal. -/
theorem C59_recursion {g : Grammar} (hfin : ∀ n, ∃ w L, Expansion g [.nonterminal n] w L) {start : Str}
    (hs : g.startingTerm = some (.nonterminal start)) {w : Str} (hd : Derives g (.nonterminal start) w) :
    (∃ (ρ Seed : Type) (R : Rng ρ Seed) (rng : ρ), ∀ fuel, (g.generateSeeded R fuel rng).1 = .fuel) ↔
      ∃ c, Relation.ReflTransGen (Refers g) start c ∧ Relation.TransGen (Refers g) c c := by
  rw [C59_generate_seeded, ← endless_iff_recursion hfin]
  constructor
  · rintro ⟨s', _, h1, _, h2⟩
    rw [hs] at h1; injection h1 with h1; injection h1 with h1; subst h1
    exact h2
  · intro h; exact ⟨start, w, hs, hd, h⟩

/-- `gStuck` is endless for every `max_depth` (compare `C38_witness`). -/
example (m : Nat) : StartEndless gStuck (depthAllowance m) := by
  refine ⟨['s'], ['x'], rfl, ?_, fun _ => ['s'], rfl, fun i => ?_⟩
  · exact ⟨⟨.nonterminal ['s'], [.nonterminal (.nonterminal ['b']) [.terminal ['x']]]⟩, rfl,
      ⟨⟨[.nonterminal ['b']]⟩, ⟨gStuck.productions[0], by simp [gStuck], rfl, by simp [gStuck]⟩,
        .nonterminal (e := ⟨[.terminal ['x']]⟩) ⟨gStuck.productions[1], by simp [gStuck], rfl, by simp [gStuck]⟩ (.terminal .nil) .nil⟩, rfl⟩
  · refine ⟨gStuck.productions[0], ⟨[.nonterminal ['s'], .nonterminal ['b']]⟩, [], [.nonterminal ['b']],
      ⟨[], [gStuck.productions[1]], rfl, rfl, by simp⟩, by simp [NoChoice, gStuck], ⟨by simp [gStuck], fun _ => .inr ?_⟩, rfl, by simp⟩
    intro e he ha
    simp [gStuck] at he
    rcases he with rfl | rfl <;> obtain ⟨s, hs⟩ := ha (.nonterminal ['b']) (by simp) <;> cases hs

/-- `gOpen` is not endless: only the undeclared `<u>` occurs in it. -/
example : ¬ StartEndless gOpen anyAlternative := by
  rintro ⟨start, w, hs, _, ns, rfl, h⟩
  have key : ∀ n m d, Leads gOpen anyAlternative d n m → n = ['s'] ∧ m = ['u'] := by
    rintro n m d ⟨p, e, b, af, hp, _, hA, he, _⟩
    have hp' := isFirst_mem hp
    simp [gOpen] at hp'
    subst hp'
    obtain ⟨_, _, _, hl, _⟩ := hp
    simp at hl
    simp [anyAlternative] at hA
    refine ⟨hl.symm, ?_⟩
    have hm : Term.nonterminal m ∈ e.terms := by rw [he]; simp
    rcases hA with rfl | rfl <;> simp at hm
    exact hm
  have h1 := (key _ _ _ (h 0)).2
  have h2 := (key _ _ _ (h 1)).1
  rw [show 0 + 1 = 1 from rfl, h2] at h1
  cases h1

/-- In `gExp` every nonterminal can be expanded, and `<e>` refers to itself. -/
example : (∀ n, ∃ w L, Expansion gExp [.nonterminal n] w L) ∧ Relation.TransGen (Refers gExp) ['e'] ['e'] := by
  have ht : ∀ ts w L, Expansion gExp ts w L → Expansion gExp (.nonterminal ['t'] :: ts) (['y'] ++ w) ([] ++ (['t'], ['y']) :: L) :=
    fun ts w L h => .nonterminal (p := gExp.productions[1]) (e := ⟨[.terminal ['y']]⟩)
      ⟨[gExp.productions[0]], [], rfl, rfl, by simp [gExp]⟩ (by simp [NoChoice, gExp]) (by simp [gExp]) (.terminal .nil) h
  refine ⟨fun n => ?_, .single ⟨gExp.productions[0], ⟨[], [gExp.productions[1]], rfl, rfl, by simp⟩, ?_⟩⟩
  · by_cases he : n = ['e']
    · subst he
      exact ⟨_, _, .nonterminal (p := gExp.productions[0]) (e := ⟨[.nonterminal ['t']]⟩)
        ⟨[], [gExp.productions[1]], rfl, rfl, by simp⟩ (by simp [NoChoice, gExp]) (by simp [gExp]) (ht _ _ _ .nil) .nil⟩
    · by_cases ht' : n = ['t']
      · subst ht'; exact ⟨_, _, ht _ _ _ .nil⟩
      · refine ⟨_, _, .undeclared ?_ .nil⟩
        rintro ⟨p, hp, hl⟩
        simp [gExp] at hp
        rcases hp with rfl | rfl
        · simp at hl; exact he hl.symm
        · simp at hl; exact ht' hl.symm
  · exact ⟨⟨[.nonterminal ['e'], .terminal ['+'], .nonterminal ['t']]⟩, by simp [gExp], by simp⟩

end Bnf.Props
