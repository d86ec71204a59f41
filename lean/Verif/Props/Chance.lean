import Verif.Proofs.Chance

/-!
# Properties C78 and C79: probabilities of generated sentences, and of ending at all

The random source is ideal here (`Spec.Chance`).
-/

set_option autoImplicit false

namespace Bnf.Props
open Bnf Spec

/-- `generate…` comes to the traversal. -/
def Starts (g : Grammar) (start : Str) : Prop := g.terminates = some true ∧ ∃ p ps, g.productions = p :: ps ∧ p.lhs = .nonterminal start

theorem generate_starts {g : Grammar} {start : Str} (h : Starts g start) (S : Strategy (List Nat × ℚ)) (n : Nat) :
    (fun st => g.generateSeededWithStrategy S n st) = fun st => traverse g S (acceptAll _) n start 0 st := by
  obtain ⟨h1, p, ps, h2, h3⟩ := h
  funext st
  simp only [Grammar.generateSeededWithStrategy, Grammar.generateWith, h1, h2, h3]
  rfl

/-! ## C78 -/

/-- C78: the probability of an event is well defined. -/
theorem C78_well_defined {run : List Nat × ℚ → GenRes (List Nat × ℚ)} {P : Str → Bool} {p q : ℚ} (h : HasChance run P p) (h' : HasChance run P q) :
    p = q := hasChance_unique h h'

/-- C78: the random walk: at each expansion all alternatives have the same probability, and expansions are independent: the probability that a
sentence with `P` is returned within `n` nested expansions is that of `dist`. -/
theorem C78_random_walk {g : Grammar} {start : Str} (h : Starts g start) (n : Nat) (P : Str → Bool) :
    HasChance (fun st => g.generateSeededWithStrategy (RandomWalk tapeRng) n st) P ((dist g uniformAlts n 0 start).mass P) := by
  rw [generate_starts h]
  exact chance_of_runs (G := fun _ => True) (fun _ _ => trivial) draws_randomWalk n 0 start P

/-- C78: the depth-bounded strategy: from `max_depth` on, all alternatives without nonterminals have the same probability if there are any. -/
theorem C78_depth_bounded {g : Grammar} {start : Str} (h : Starts g start) (m n : Nat) (P : Str → Bool) :
    HasChance (fun st => g.generateSeededWithStrategy (DepthBounded tapeRng m) n st) P ((dist g (boundedAlts m) n 0 start).mass P) := by
  rw [generate_starts h]
  exact chance_of_runs (G := fun _ => True) (fun _ _ => trivial) (draws_depthBounded m) n 0 start P

/-- C78: the weighted strategy: the probabilities of the alternatives are proportional to their weights, as long as the sums fit into a `u32`. -/
theorem C78_weighted {g : Grammar} {start : Str} (h : Starts g start) (checked : Bool) (x y : Nat)
    (hfit : ∀ p ∈ g.productions, (p.rhs.map fun e => if p.lhs ∈ e.terms then x else y).sum < 2 ^ 32) (n : Nat) (P : Str → Bool) :
    HasChance (fun st => g.generateSeededWithStrategy (Weighted tapeRng checked x y) n st) P ((dist g (weightedAlts x y) n 0 start).mass P) := by
  rw [generate_starts h]
  exact chance_of_runs hfit (draws_weighted checked x y) n 0 start P

/-- C78: the probability that any sentence is returned follows the iteration for the extinction of a branching process. -/
theorem C78_ending (g : Grammar) (alts : Nat → Production → List Expression) (n d : Nat) (x : Str) :
    (dist g alts n d x).mass (fun _ => true) = endChance g alts n d x := dist_mass g alts n d x

/-- `<s> ::= 'x' | 'y' <s>`. -/
def gList : Grammar := ⟨[⟨.nonterminal ['s'], [⟨[.terminal ['x']]⟩, ⟨[.terminal ['y'], .nonterminal ['s']]⟩]⟩]⟩

/-- With three nested expansions: `x` with probability 1/2, `yx` with 1/4, `yyx` with 1/8. -/
example : Starts gList ['s'] := ⟨by rfl, _, _, rfl, rfl⟩
example : dist gList uniformAlts 3 0 ['s'] = [(['x'], 1 / 2), (['y', 'x'], 1 / 4), (['y', 'y', 'x'], 1 / 8)] := by
  simp [dist, firstOf, gList, Barren, uniformAlts, distTerms]; norm_num
/-- The same for a run of the model: the tape 1, 0 leads to `yx`, with probability 1/4. -/
example : weightOf (· == ['y', 'x']) (gList.generateSeededWithStrategy (RandomWalk tapeRng) 3 ([1, 0], 1)) = 1 / 4 := by
  rw [show gList.generateSeededWithStrategy (RandomWalk tapeRng) 3 ([1, 0], 1) = .done (.ok ['y', 'x']) ([], 1 / (2 : Nat) / (2 : Nat)) from rfl]
  simp [weightOf]; norm_num

/-! ## C79 -/

/-- C79: if expanding a nonterminal leaves, on average over its alternatives, less than `m < 1` times its weight in nonterminals (for some weights of
at least 1, for example all 1), then the probability that the random walk has not returned a sentence within `n` nested expansions is at most
`m ^ n` times the weight of the starting nonterminal. -/
theorem C79_ends {g : Grammar} {start : Str} (h : Starts g start) {m : ℚ} (hm : 0 ≤ m) {v : Str → ℚ} (hv : ∀ x, 1 ≤ v x)
    (hb : ∀ p ∈ g.productions, ¬ Barren p)
    (hav : ∀ p ∈ g.productions, ∀ x, p.lhs = .nonterminal x → (p.rhs.map (offspring v)).sum ≤ m * v x * p.rhs.length) (n : Nat) :
    ∃ q, HasChance (fun st => g.generateSeededWithStrategy (RandomWalk tapeRng) n st) (fun _ => true) q ∧ 1 - m ^ n * v start ≤ q := by
  refine ⟨_, C78_random_walk h n _, ?_⟩
  rw [C78_ending]
  exact endChance_subcritical hm hv hb (fun p hp _ h0 => hb p hp (.inl h0)) (fun p hp _ x hx => hav p hp x hx) n 0 start

/-- C79: the same for the weighted strategy, with the average weighted accordingly. -/
theorem C79_ends_weighted {g : Grammar} {start : Str} (h : Starts g start) (checked : Bool) (x y : Nat)
    (hfit : ∀ p ∈ g.productions, (p.rhs.map fun e => if p.lhs ∈ e.terms then x else y).sum < 2 ^ 32) {m : ℚ} (hm : 0 ≤ m) {v : Str → ℚ}
    (hv : ∀ x, 1 ≤ v x) (hb : ∀ p ∈ g.productions, ¬ Barren p)
    (hav : ∀ p ∈ g.productions, ∀ z, p.lhs = .nonterminal z →
      ((weightedAlts x y 0 p).map (offspring v)).sum ≤ m * v z * (weightedAlts x y 0 p).length) (n : Nat) :
    ∃ q, HasChance (fun st => g.generateSeededWithStrategy (Weighted tapeRng checked x y) n st) (fun _ => true) q ∧ 1 - m ^ n * v start ≤ q := by
  refine ⟨_, C78_weighted h checked x y hfit n _, ?_⟩
  rw [C78_ending]
  refine endChance_subcritical hm hv hb (fun p hp d h0 => ?_) (fun p hp _ z hz => hav p hp z hz) n 0 start
  simp only [weightedAlts] at h0
  split at h0
  · exact hb p hp (.inl h0)
  · contradiction

/-- `<s> ::= 'x' | <s> <s> <s>`. -/
def gTriple : Grammar := ⟨[⟨.nonterminal ['s'], [⟨[.terminal ['x']]⟩, ⟨[.nonterminal ['s'], .nonterminal ['s'], .nonterminal ['s']]⟩]⟩]⟩

/-- `<s> ::= 'x' | <s> <s>`. -/
def gPair : Grammar := ⟨[⟨.nonterminal ['s'], [⟨[.terminal ['x']]⟩, ⟨[.nonterminal ['s'], .nonterminal ['s']]⟩]⟩]⟩

theorem gTriple_starts : Starts gTriple ['s'] := ⟨by rfl, _, _, rfl, rfl⟩
theorem gPair_starts : Starts gPair ['s'] := ⟨by rfl, _, _, rfl, rfl⟩

/-- C79: but a grammar for which `terminates()` returns true can keep `generate()` from returning with a probability of more than one third: for
`<s> ::= 'x' | <s> <s> <s>`, whatever the number of nested expansions, the probability of having returned is at most 0.62. -/
theorem C79_random_walk_witness : gTriple.terminates = some true ∧ ∀ n q,
    HasChance (fun st => gTriple.generateSeededWithStrategy (RandomWalk tapeRng) n st) (fun _ => true) q → q ≤ 62 / 100 := by
  refine ⟨by rfl, fun n q hq => ?_⟩
  rw [hasChance_unique hq (C78_random_walk gTriple_starts n _), C78_ending]
  have : ∀ n d, 0 ≤ endChance gTriple uniformAlts n d ['s'] ∧ endChance gTriple uniformAlts n d ['s'] ≤ 62 / 100 := by
    intro n
    induction n with
    | zero => intro d; norm_num [endChance]
    | succ n ih =>
      intro d
      obtain ⟨h1, h2⟩ := ih (d + 1)
      have h3 : endChance gTriple uniformAlts (n + 1) d ['s'] = (1 + endChance gTriple uniformAlts n (d + 1) ['s'] ^ 3) / 2 := by
        conv_lhs => unfold endChance
        simp [firstOf, gTriple, Barren, uniformAlts, termChance]
        ring
      rw [h3]
      have h4 : endChance gTriple uniformAlts n (d + 1) ['s'] ^ 3 ≤ (62 / 100) ^ 3 := pow_le_pow_left₀ h1 h2 3
      constructor
      · have := pow_nonneg h1 3; linarith
      · norm_num at h4 ⊢; linarith
  exact (this n 0).2

/-- C79: with the default weights of `Weighted` (100 for alternatives that contain the nonterminal itself, 1 for the others), `<s> ::= 'x' | <s> <s>`
is finished with a probability of at most 1 in 100. -/
theorem C79_weighted_witness (checked : Bool) : gPair.terminates = some true ∧ ∀ n q,
    HasChance (fun st => gPair.generateSeededWithStrategy (Weighted tapeRng checked 100 1) n st) (fun _ => true) q → q ≤ 1 / 100 := by
  refine ⟨by rfl, fun n q hq => ?_⟩
  rw [hasChance_unique hq (C78_weighted gPair_starts checked 100 1 (by simp [gPair]) n _), C78_ending]
  have : ∀ n d, 0 ≤ endChance gPair (weightedAlts 100 1) n d ['s'] ∧ endChance gPair (weightedAlts 100 1) n d ['s'] ≤ 1 / 100 := by
    intro n
    induction n with
    | zero => intro d; norm_num [endChance]
    | succ n ih =>
      intro d
      obtain ⟨h1, h2⟩ := ih (d + 1)
      have h3 : endChance gPair (weightedAlts 100 1) (n + 1) d ['s'] = (1 + 100 * endChance gPair (weightedAlts 100 1) n (d + 1) ['s'] ^ 2) / 101 := by
        conv_lhs => unfold endChance
        simp [firstOf, gPair, Barren, weightedAlts, termChance]
        ring
      rw [h3]
      have h4 : endChance gPair (weightedAlts 100 1) n (d + 1) ['s'] ^ 2 ≤ (1 / 100) ^ 2 := pow_le_pow_left₀ h1 h2 2
      constructor
      · have := pow_nonneg h1 2; linarith
      · norm_num at h4 ⊢; linarith
  exact (this n 0).2

/-- `<s> ::= <a> | <s> <s> <s>`, `<a> ::= 'x'`: no alternative of `<s>` consists of terminals only. -/
def gTripleA : Grammar := ⟨[⟨.nonterminal ['s'], [⟨[.nonterminal ['a']]⟩, ⟨[.nonterminal ['s'], .nonterminal ['s'], .nonterminal ['s']]⟩]⟩,
  ⟨.nonterminal ['a'], [⟨[.terminal ['x']]⟩]⟩]⟩

theorem gTripleA_starts : Starts gTripleA ['s'] := ⟨by rfl, _, _, rfl, rfl⟩

/-- C79: the depth-bounded strategy does not help here, whatever the bound: the probability of having returned is at most 0.62, for any number of
nested expansions. -/
theorem C79_depth_bounded_witness (m : Nat) : gTripleA.terminates = some true ∧ ∀ n q,
    HasChance (fun st => gTripleA.generateSeededWithStrategy (DepthBounded tapeRng m) n st) (fun _ => true) q → q ≤ 62 / 100 := by
  refine ⟨by rfl, fun n q hq => ?_⟩
  rw [hasChance_unique hq (C78_depth_bounded gTripleA_starts m n _), C78_ending]
  have : ∀ n d, 0 ≤ endChance gTripleA (boundedAlts m) n d ['s'] ∧ endChance gTripleA (boundedAlts m) n d ['s'] ≤ 62 / 100 := by
    intro n
    induction n with
    | zero => intro d; norm_num [endChance]
    | succ n ih =>
      intro d
      obtain ⟨h1, h2⟩ := ih (d + 1)
      have h3 : endChance gTripleA (boundedAlts m) (n + 1) d ['s'] =
          (endChance gTripleA (boundedAlts m) n (d + 1) ['a'] + endChance gTripleA (boundedAlts m) n (d + 1) ['s'] ^ 3) / 2 := by
        conv_lhs => unfold endChance
        simp [firstOf, gTripleA, Barren, boundedAlts, termChance, isTerminal]
        ring
      rw [h3]
      have h4 : endChance gTripleA (boundedAlts m) n (d + 1) ['s'] ^ 3 ≤ (62 / 100) ^ 3 := pow_le_pow_left₀ h1 h2 3
      have h5 := endChance_nonneg gTripleA (boundedAlts m) n (d + 1) ['a']
      have h6 := pow_nonneg h1 3
      norm_num at h4 ⊢
      constructor <;> linarith [h5.1, h5.2]
  exact (this n 0).2

/-- The hypotheses of `C79_ends` for a list of items, `<s> ::= <i> | <i> <s>`, `<i> ::= 'x' | 'y'`: with weight 10 for `s` and 1 for `i`, `m = 6/10`. -/
example : ∃ q, HasChance (fun st => (⟨[⟨.nonterminal ['s'], [⟨[.nonterminal ['i']]⟩, ⟨[.nonterminal ['i'], .nonterminal ['s']]⟩]⟩,
    ⟨.nonterminal ['i'], [⟨[.terminal ['x']]⟩, ⟨[.terminal ['y']]⟩]⟩]⟩ : Grammar).generateSeededWithStrategy (RandomWalk tapeRng) 20 st) (fun _ => true) q ∧
    999 / 1000 ≤ q := by
  obtain ⟨q, h1, h2⟩ := C79_ends (g := ⟨[⟨.nonterminal ['s'], [⟨[.nonterminal ['i']]⟩, ⟨[.nonterminal ['i'], .nonterminal ['s']]⟩]⟩,
    ⟨.nonterminal ['i'], [⟨[.terminal ['x']]⟩, ⟨[.terminal ['y']]⟩]⟩]⟩) (start := ['s']) ⟨by rfl, _, _, rfl, rfl⟩ (m := 6 / 10) (by norm_num)
    (v := fun x => if x = ['s'] then 10 else 1) (fun x => by split <;> norm_num) (by simp [Barren]) (by
      intro p hp x hx
      simp only [List.mem_cons, List.not_mem_nil, or_false] at hp
      rcases hp with rfl | rfl <;> (simp only [Term.nonterminal.injEq] at hx; subst hx; simp [offspring, termWeight]; try norm_num)) 20
  refine ⟨q, h1, le_trans ?_ h2⟩
  norm_num

end Bnf.Props
