import Mathlib.Analysis.SpecificLimits.Basic
import Verif.Props.TreeChance
import Verif.Props.Nesting
import Verif.Props.Extinction
import Verif.Proofs.Overall

/-! # C111: the probability of an event is the sum over all derivation trees -/

set_option autoImplicit false

namespace Bnf.Props
open Bnf Spec

theorem overall_iff {run : Nat → List Nat × ℚ → GenRes (List Nat × ℚ)} {P : Str → Bool} {c : Nat → ℚ} (h : ∀ n, HasChance (run n) P (c n)) (q : ℝ) :
    OverallChance run P q ↔ IsLUB (Set.range fun n => (c n : ℝ)) q := by
  have : {p : ℝ | ∃ n, ∃ r : ℚ, HasChance (run n) P r ∧ (r : ℝ) = p} = Set.range fun n => (c n : ℝ) := by
    ext p
    constructor
    · rintro ⟨n, r, hr, rfl⟩
      exact ⟨n, by simp only; rw [C78_well_defined hr (h n)]⟩
    · rintro ⟨n, rfl⟩
      exact ⟨n, c n, h n, rfl⟩
  unfold OverallChance
  rw [this]

/-- The random walk: the probability of returning a sentence with `P`, without a bound on the nesting, is the sum over all derivation trees (there may be
infinitely many) of sentences with `P`. -/
theorem C111_random_walk {g : Grammar} {x : Str} (h : Starts g x) (hd : AllDeclared g) (P : Str → Bool) (q : ℝ) :
    OverallChance (fun n st => g.generateSeededWithStrategy (RandomWalk tapeRng) n st) P q ↔
      HasSum (fun t : TreesOf g x P => ((treeChance g uniformAlts t.1 : ℚ) : ℝ)) q := by
  rw [overall_iff (fun n => C78_random_walk h n P), lub_iff_hasSum hd uniformAlts_from (starts_declared h)]

/-- The same for the depth-bounded strategy. -/
theorem C111_depth_bounded {g : Grammar} {x : Str} (h : Starts g x) (hd : AllDeclared g) (m : Nat) (P : Str → Bool) (q : ℝ) :
    OverallChance (fun n st => g.generateSeededWithStrategy (DepthBounded tapeRng m) n st) P q ↔
      HasSum (fun t : TreesOf g x P => ((treeChance g (boundedAlts m) t.1 : ℚ) : ℝ)) q := by
  rw [overall_iff (fun n => C78_depth_bounded h m n P), lub_iff_hasSum hd (boundedAlts_from m) (starts_declared h)]

/-- The same for the weighted strategy. -/
theorem C111_weighted {g : Grammar} {x : Str} (h : Starts g x) (hd : AllDeclared g) (checked : Bool) (a b : Nat)
    (hfit : ∀ p ∈ g.productions, (p.rhs.map fun e => if p.lhs ∈ e.terms then a else b).sum < 2 ^ 32) (P : Str → Bool) (q : ℝ) :
    OverallChance (fun n st => g.generateSeededWithStrategy (Weighted tapeRng checked a b) n st) P q ↔
      HasSum (fun t : TreesOf g x P => ((treeChance g (weightedAlts a b) t.1 : ℚ) : ℝ)) q := by
  rw [overall_iff (fun n => C78_weighted h checked a b hfit n P), lub_iff_hasSum hd (weightedAlts_from a b) (starts_declared h)]

theorem mass_bound_real {g : Grammar} {alts : Nat → Production → List Expression} (n : Nat) (x : Str) (P : Str → Bool) :
    (((Spec.dist g alts n 0 x).mass P : ℚ) : ℝ) ≤ 1 := by
  exact_mod_cast mass_bound (g := g) (alts := alts) n 0 x P

/-- There is such a probability, between 0 and 1, and the probabilities with bounds on the nesting tend to it. -/
theorem C111_limit {g : Grammar} {x : Str} (h : Starts g x) (P : Str → Bool) :
    ∃ (q : ℝ) (c : Nat → ℚ), OverallChance (fun n st => g.generateSeededWithStrategy (RandomWalk tapeRng) n st) P q ∧ 0 ≤ q ∧ q ≤ 1 ∧
      (∀ n, HasChance (fun st => g.generateSeededWithStrategy (RandomWalk tapeRng) n st) P (c n)) ∧
      Filter.Tendsto (fun n => (c n : ℝ)) Filter.atTop (nhds q) := by
  have hmono : Monotone fun n => (((Spec.dist g uniformAlts n 0 x).mass P : ℚ) : ℝ) := fun n m hnm => Rat.cast_le.mpr (mass_more hnm 0 x P)
  have hb : BddAbove (Set.range fun n => (((Spec.dist g uniformAlts n 0 x).mass P : ℚ) : ℝ)) :=
    ⟨1, by rintro _ ⟨n, rfl⟩; exact mass_bound_real n x P⟩
  have hl := isLUB_ciSup hb
  refine ⟨_, fun n => (Spec.dist g uniformAlts n 0 x).mass P, (overall_iff (fun n => C78_random_walk h n P) _).mpr hl, ?_, ?_,
    fun n => C78_random_walk h n P, tendsto_atTop_ciSup hmono hb⟩
  · exact le_trans (by simp [Spec.dist, Dist.mass]) (hl.1 ⟨0, rfl⟩)
  · exact hl.2 (by rintro _ ⟨n, rfl⟩; exact mass_bound_real n x P)

/-- The probabilities of the single sentences with `P` add up to the probability of `P`; in particular those of all sentences add up to the probability of
returning a sentence at all. -/
theorem C111_sentences {g : Grammar} {x : Str} (h : Starts g x) (hd : AllDeclared g) (P : Str → Bool) {r : ℝ} {q : Str → ℝ}
    (hr : OverallChance (fun n st => g.generateSeededWithStrategy (RandomWalk tapeRng) n st) P r)
    (hq : ∀ w, OverallChance (fun n st => g.generateSeededWithStrategy (RandomWalk tapeRng) n st) (· == w) (q w)) :
    HasSum (fun w : {w : Str // P w = true} => q w.1) r :=
  hasSum_sentences (f := fun t => ((treeChance g uniformAlts t : ℚ) : ℝ)) ((C111_random_walk h hd P r).mp hr) fun w => (C111_random_walk h hd _ _).mp (hq w)

/-- The call returns a sentence with probability 1 if and only if the probabilities of all derivation trees add up to 1. -/
theorem C111_proper {g : Grammar} {x : Str} (h : Starts g x) (hd : AllDeclared g) :
    AlmostSurely (fun n st => g.generateSeededWithStrategy (RandomWalk tapeRng) n st) ↔
      HasSum (fun t : TreesOf g x (fun _ => true) => ((treeChance g uniformAlts t.1 : ℚ) : ℝ)) 1 := by
  rw [← C111_random_walk h hd, overall_iff (fun n => C78_random_walk h n _)]
  constructor
  · intro ha
    refine ⟨?_, fun b hb => ?_⟩
    · rintro _ ⟨n, rfl⟩; exact mass_bound_real n x _
    · by_contra hlt
      rw [not_le] at hlt
      obtain ⟨ε, h1, h2⟩ := exists_rat_btwn (sub_pos.mpr hlt)
      obtain ⟨n, q, hq, hle⟩ := ha ε (by exact_mod_cast h1)
      have h3 := hb ⟨n, rfl⟩
      simp only at h3
      rw [C78_well_defined (C78_random_walk h n _) hq] at h3
      have h4 : ((1 - ε : ℚ) : ℝ) ≤ (q : ℝ) := Rat.cast_le.mpr hle
      push_cast at h4
      linarith
  · intro hl ε hε
    by_contra hc
    have hub : (1 - ε : ℝ) ∈ upperBounds (Set.range fun n => (((Spec.dist g uniformAlts n 0 x).mass (fun _ => true) : ℚ) : ℝ)) := by
      rintro _ ⟨n, rfl⟩
      by_contra hn
      rw [not_le] at hn
      refine hc ⟨n, _, C78_random_walk h n _, ?_⟩
      have h1 : ((1 - ε : ℚ) : ℝ) < (((Spec.dist g uniformAlts n 0 x).mass (fun _ => true) : ℚ) : ℝ) := by push_cast; exact hn
      exact le_of_lt (by exact_mod_cast h1)
    have h1 := hl.2 hub
    have h2 : (0 : ℝ) < ε := by exact_mod_cast hε
    linarith

/-- The probability of a sentence whose parse trees the parser lists completely. -/
theorem C111_exhausted {g : Grammar} {x w : Str} {it ts it1 it2} (h : Starts g x) (hd : AllDeclared g) (hn : (alternatives g).Nodup)
    (ho : Opened g (.nonterminal x) w it) (hdr : Spec.Draws it ts it1) (he : Next it1 none it2) :
    OverallChance (fun n st => g.generateSeededWithStrategy (RandomWalk tapeRng) n st) (· == w) (((ts.map (treeChance g uniformAlts)).sum : ℚ) : ℝ) := by
  rw [overall_iff (fun n => C107_random_walk h hd hn ho hdr he n)]
  have hle : ∀ n, (ts.map fun t => if treeNesting t ≤ n then treeChance g uniformAlts t else 0).sum ≤ (ts.map (treeChance g uniformAlts)).sum := fun n =>
    List.sum_le_sum fun t _ => by
      split
      · exact le_refl _
      · exact treeChance_nonneg t
  refine ⟨by rintro _ ⟨n, rfl⟩; exact Rat.cast_le.mpr (hle n), fun b hb => le_trans (le_of_eq ?_) (hb ⟨(ts.map treeNesting).sum, rfl⟩)⟩
  simp only
  congr 2
  refine List.map_congr_left fun t ht => ?_
  rw [if_pos]
  exact List.single_le_sum (by simp) _ (List.mem_map_of_mem ht)

/-! ## A sentence with infinitely many trees -/

theorem gXSelf_step (n d : Nat) : (Spec.dist gXSelf uniformAlts (n + 1) d ['s']).mass (· == ['x']) =
    1 / 2 + (Spec.dist gXSelf uniformAlts n (d + 1) ['s']).mass (· == ['x']) / 2 := by
  have h1 : Spec.dist gXSelf uniformAlts (n + 1) d ['s'] =
      ((distTerms (Spec.dist gXSelf uniformAlts n (d + 1)) [.nonterminal ['s']]).map fun o => (o.1, o.2 / 2)) ++ [(['x'], 1 / 2)] := by
    conv_lhs => unfold Spec.dist
    have hf : firstOf gXSelf ['s'] = some ⟨.nonterminal ['s'], [⟨[.nonterminal ['s']]⟩, ⟨[.terminal ['x']]⟩]⟩ := rfl
    rw [hf]
    have hb : ¬ Barren ⟨.nonterminal ['s'], [⟨[.nonterminal ['s']]⟩, ⟨[.terminal ['x']]⟩]⟩ := by simp [Barren]
    simp only [if_neg hb, uniformAlts, List.flatMap_cons, List.flatMap_nil, List.length_cons, List.length_nil]
    norm_num [distTerms]
  rw [h1]
  generalize Spec.dist gXSelf uniformAlts n (d + 1) = D
  simp only [Dist.mass, distTerms, List.map_append, List.sum_append]
  have h2 : ((((D ['s']).flatMap fun o => ([([], 1)] : Dist).map fun o' => (o.1 ++ o'.1, o.2 * o'.2)).map fun o => (o.1, o.2 / 2)).map
      fun o : Str × ℚ => if (o.1 == ['x']) = true then o.2 else 0).sum = ((D ['s']).map fun o => if (o.1 == ['x']) = true then o.2 else 0).sum / 2 := by
    induction D ['s'] with
    | nil => simp
    | cons o l ih =>
      rw [List.flatMap_cons, List.map_append, List.map_append, List.sum_append, ih]
      simp only [List.map_cons, List.map_nil, List.sum_cons, List.sum_nil, List.append_nil,
        mul_one, add_zero]
      by_cases h : (o.1 == ['x']) = true
      · simp only [h, if_true]; ring
      · simp only [h]; simp
  rw [h2]
  simp
  ring

theorem gXSelf_mass (n d : Nat) : (Spec.dist gXSelf uniformAlts n d ['s']).mass (· == ['x']) = 1 - (1 / 2) ^ n := by
  induction n generalizing d with
  | zero => simp [Spec.dist, Dist.mass]
  | succ n ih => rw [gXSelf_step, ih, pow_succ]; ring

/-- For `<s> ::= <s> | 'x'` the input `x` has infinitely many trees, which the parser never finishes listing; their probabilities add up to 1. -/
theorem C111_infinite_witness : Starts gXSelf ['s'] ∧ AllDeclared gXSelf ∧ (TreesOf gXSelf ['s'] (· == ['x'])).Infinite ∧
    HasSum (fun t : TreesOf gXSelf ['s'] (· == ['x']) => ((treeChance gXSelf uniformAlts t.1 : ℚ) : ℝ)) 1 := by
  have h1 : Starts gXSelf ['s'] := ⟨by rfl, _, _, rfl, rfl⟩
  have h2 : AllDeclared gXSelf := by
    intro p hp e he
    simp only [gXSelf, List.mem_singleton] at hp
    subst hp
    simp only [List.mem_cons, List.not_mem_nil, or_false] at he
    rcases he with rfl | rfl <;> simp [gXSelf]
  refine ⟨h1, h2, ?_, ?_⟩
  · choose f hf hn using C110_cyclic_witness
    refine Set.infinite_of_injective_forall_mem (f := f) (fun a b hab => ?_) fun n => ⟨(hf n).root, (hf n).tree, by rw [(hf n).spells]; simp⟩
    have h3 := hn a
    rw [hab, hn b] at h3
    omega
  · rw [← C111_random_walk h1 h2, overall_iff (fun n => C78_random_walk h1 n _)]
    have hm : (fun n => (((Spec.dist gXSelf uniformAlts n 0 ['s']).mass (· == ['x']) : ℚ) : ℝ)) = fun n => 1 - (1 / 2 : ℝ) ^ n := by
      funext n
      rw [gXSelf_mass]
      push_cast
      ring
    rw [hm]
    refine isLUB_of_tendsto_atTop (fun a b hab => ?_) ?_
    · have := pow_le_pow_of_le_one (by norm_num : (0 : ℝ) ≤ 1 / 2) (by norm_num) hab
      linarith
    · have := tendsto_pow_atTop_nhds_zero_of_lt_one (by norm_num : (0 : ℝ) ≤ 1 / 2) (by norm_num : (1 / 2 : ℝ) < 1)
      simpa using this.const_sub 1

-- the hypotheses hold for a grammar with sentences of every length, which ends with probability 1
example : Starts gXs ['s'] ∧ AllDeclared gXs ∧ ∃ q, OverallChance (fun n st => gXs.generateSeededWithStrategy (RandomWalk tapeRng) n st) (· == ['x', 'x']) q := by
  have h : Starts gXs ['s'] := ⟨by rfl, _, _, rfl, rfl⟩
  obtain ⟨q, _, hq, _⟩ := C111_limit h (· == ['x', 'x'])
  refine ⟨h, ?_, q, hq⟩
  intro p hp e he
  simp only [gXs, List.mem_singleton] at hp
  subst hp
  simp only [List.mem_cons, List.not_mem_nil, or_false] at he
  rcases he with rfl | rfl <;> simp [gXs]

end Bnf.Props
