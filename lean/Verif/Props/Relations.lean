import Verif.Proofs.Relations
import Verif.Props.Extinction

/-!
# Property C109: how the strategies relate

The random source is ideal where probabilities are meant (as in C78), and arbitrary in `C109_same_sentence`.
-/

set_option autoImplicit false

namespace Bnf.Props
open Bnf Spec

variable {g : Grammar} {start : Str} {ρ Seed : Type}

/-- C109: with the same random source and callback, a random walk and a depth-bounded generation do exactly the same (the same result, panic or
running out of steps, and the same state afterwards) as long as the number `n` of nested expansions and repetitions allowed does not exceed
`max_depth`. -/
theorem C109_same_runs (R : Rng ρ Seed) (f : Callback ρ) {n m : Nat} (h : n ≤ m) (st : ρ) :
    g.generateWith (DepthBounded R m) f n st = g.generateWith (RandomWalk R) f n st := by
  have := fun x => traverse_alike (g := g) (S := DepthBounded R m) (S' := RandomWalk R) (m := m)
    (fun st a p d hd => depthBounded_early R hd st a p) f n 0 x st (by omega)
  unfold Grammar.generateWith
  simp only [this]

/-- C109: so a sentence (or error) that the random walk returns within `n ≤ max_depth` nested expansions is what the depth-bounded strategy returns
from the same seed, with as many nested expansions as it likes. -/
theorem C109_same_sentence (R : Rng ρ Seed) {n m : Nat} (h : n ≤ m) {st st' : ρ} {r : Except Error Str}
    (hr : g.generateSeededWithStrategy (RandomWalk R) n st = .done r st') (n' : Nat) (hn : n ≤ n') :
    g.generateSeededWithStrategy (DepthBounded R m) n' st = .done r st' := by
  unfold Grammar.generateSeededWithStrategy at hr ⊢
  rw [← C109_same_runs (g := g) R _ h st] at hr
  unfold Grammar.generateWith at hr ⊢
  cases ht : g.terminates with
  | none => rw [ht] at hr; cases hr
  | some b =>
    rw [ht] at hr
    cases b with
    | false => exact hr
    | true =>
      cases hp : g.productions with
      | nil => simp only [hp] at hr ⊢; exact hr
      | cons p ps =>
        cases hl : p.lhs with
        | terminal u => simp only [hp, hl] at hr ⊢; exact hr
        | nonterminal x =>
          simp only [hp, hl] at hr ⊢
          rw [traverse_more hn (by rw [hr]; simp), hr]

/-- C109: within `max_depth` nested expansions the probabilities are those of the random walk. -/
theorem C109_same_chance {n m : Nat} (h : n ≤ m) {P : Str → Bool} {q : ℚ}
    (hq : HasChance (fun st => g.generateSeededWithStrategy (RandomWalk tapeRng) n st) P q) :
    HasChance (fun st => g.generateSeededWithStrategy (DepthBounded tapeRng m) n st) P q := by
  have : (fun st => g.generateSeededWithStrategy (DepthBounded tapeRng m) n st) =
      fun st => g.generateSeededWithStrategy (RandomWalk tapeRng) n st := funext fun st => C109_same_runs tapeRng _ h st
  rw [this]
  exact hq

/-- C109: with more nested expansions the probability of any event differs from that for the random walk with `max_depth` nested expansions by
at most the probability that the latter does not end. -/
theorem C109_close (h : Starts g start) {n m : Nat} (hn : m ≤ n) {P : Str → Bool} {q q' e : ℚ}
    (hq : HasChance (fun st => g.generateSeededWithStrategy (RandomWalk tapeRng) m st) P q)
    (he : HasChance (fun st => g.generateSeededWithStrategy (RandomWalk tapeRng) m st) (fun _ => true) e)
    (hq' : HasChance (fun st => g.generateSeededWithStrategy (DepthBounded tapeRng m) n st) P q') : q ≤ q' ∧ q' ≤ q + (1 - e) := by
  have h1 := C109_same_chance (le_refl m) hq
  have h2 := C109_same_chance (le_refl m) he
  rw [hasChance_unique hq' (C78_depth_bounded h m n P), hasChance_unique h1 (C78_depth_bounded h m m P),
    hasChance_unique h2 (C78_depth_bounded h m m _)]
  have h3 := mass_more (g := g) (alts := boundedAlts m) hn 0 start P
  have h4 := mass_more (g := g) (alts := boundedAlts m) hn 0 start fun s => !P s
  have h5 := mass_split (Spec.dist g (boundedAlts m) n 0 start) P
  have h6 := mass_split (Spec.dist g (boundedAlts m) m 0 start) P
  have h7 := (endChance_nonneg g (boundedAlts m) n 0 start).2
  rw [← dist_mass] at h7
  exact ⟨h3, by linarith⟩

/-- C109: a smaller `max_depth` never makes it less likely to end within `n` nested expansions. -/
theorem C109_smaller_bound (h : Starts g start) {m m' : Nat} (hm : m ≤ m') (n : Nat) {q q' : ℚ}
    (hq : HasChance (fun st => g.generateSeededWithStrategy (DepthBounded tapeRng m) n st) (fun _ => true) q)
    (hq' : HasChance (fun st => g.generateSeededWithStrategy (DepthBounded tapeRng m') n st) (fun _ => true) q') : q' ≤ q := by
  rw [hasChance_unique hq (C78_depth_bounded h m n _), hasChance_unique hq' (C78_depth_bounded h m' n _), dist_mass, dist_mass]
  exact endChance_bound (boundedAlts_smaller hm) n 0 start

/-- C109: nor does a bound at all. -/
theorem C109_any_bound (h : Starts g start) (m n : Nat) {q q' : ℚ}
    (hq : HasChance (fun st => g.generateSeededWithStrategy (DepthBounded tapeRng m) n st) (fun _ => true) q)
    (hq' : HasChance (fun st => g.generateSeededWithStrategy (RandomWalk tapeRng) n st) (fun _ => true) q') : q' ≤ q := by
  rw [hasChance_unique hq (C78_depth_bounded h m n _), hasChance_unique hq' (C78_random_walk h n _), dist_mass, dist_mass]
  exact endChance_bound (fun _ _ => .inl rfl) n 0 start

/-- The sums of the weights fit into a `u32`. -/
def Fits (g : Grammar) (x y : Nat) : Prop := ∀ p ∈ g.productions, (p.rhs.map fun e => if p.lhs ∈ e.terms then x else y).sum < 2 ^ 32

/-- C109: only the ratio of the weights matters. -/
theorem C109_scaled_weights (h : Starts g start) (checked checked' : Bool) {c x y : Nat} (hc : 0 < c) (hx : Fits g x y) (hcx : Fits g (c * x) (c * y))
    (n : Nat) {P : Str → Bool} {q : ℚ} (hq : HasChance (fun st => g.generateSeededWithStrategy (Weighted tapeRng checked x y) n st) P q) :
    HasChance (fun st => g.generateSeededWithStrategy (Weighted tapeRng checked' (c * x) (c * y)) n st) P q := by
  rw [hasChance_unique hq (C78_weighted h checked x y hx n P)]
  convert C78_weighted h checked' (c * x) (c * y) hcx n P using 1
  rw [mass_expect, mass_expect]
  refine expect_alike (m := n) (fun p _ d _ F => ?_) n 0 start _ (by omega)
  rw [mean_weighted, mean_weighted, Nat.cast_mul, Nat.cast_mul, blend_scale (by exact_mod_cast hc.ne')]

/-- C109: with equal weights (also if both are 0) the probabilities are those of the random walk. -/
theorem C109_equal_weights (h : Starts g start) (checked : Bool) {x : Nat} (hx : Fits g x x)
    (n : Nat) {P : Str → Bool} {q : ℚ} (hq : HasChance (fun st => g.generateSeededWithStrategy (RandomWalk tapeRng) n st) P q) :
    HasChance (fun st => g.generateSeededWithStrategy (Weighted tapeRng checked x x) n st) P q := by
  rw [hasChance_unique hq (C78_random_walk h n P)]
  convert C78_weighted h checked x x hx n P using 1
  rw [mass_expect, mass_expect]
  refine expect_alike (m := n) (fun p _ d _ F => ?_) n 0 start _ (by omega)
  show mean p.rhs F = _
  rw [mean_weighted, mean_rhs]
  rcases Nat.eq_zero_or_pos x with rfl | hx
  · unfold blend
    simp
  · rw [← blend_scale (c := (x : ℚ)) (by exact_mod_cast hx.ne') 1 1, mul_one]

/-- C109: a larger weight of the recursive alternatives, or a smaller one of the others, never makes it more likely to end within `n` nested
expansions. -/
theorem C109_weights (h : Starts g start) (checked checked' : Bool) {x y x' y' : Nat} (hx : x ≤ x') (hy : y' ≤ y) (hf : Fits g x y) (hf' : Fits g x' y')
    (n : Nat) {q q' : ℚ} (hq : HasChance (fun st => g.generateSeededWithStrategy (Weighted tapeRng checked x y) n st) (fun _ => true) q)
    (hq' : HasChance (fun st => g.generateSeededWithStrategy (Weighted tapeRng checked' x' y') n st) (fun _ => true) q') : q' ≤ q := by
  rw [hasChance_unique hq (C78_weighted h checked x y hf n _), hasChance_unique hq' (C78_weighted h checked' x' y' hf' n _), dist_mass, dist_mass]
  exact endChance_weights hx hy n 0 start

/-- C109: with a recursive weight below the other one, ending is at least as likely as for the random walk, with one above it at most as likely.
(The default weights are 100 and 1.) -/
theorem C109_compared_to_random_walk (h : Starts g start) (checked : Bool) {x y : Nat} (hf : Fits g x y) (n : Nat) {q q' : ℚ}
    (hq : HasChance (fun st => g.generateSeededWithStrategy (Weighted tapeRng checked x y) n st) (fun _ => true) q)
    (hq' : HasChance (fun st => g.generateSeededWithStrategy (RandomWalk tapeRng) n st) (fun _ => true) q') :
    (x ≤ y → q' ≤ q) ∧ (y ≤ x → q ≤ q') := by
  have key : ∀ z, endChance g (weightedAlts z z) n 0 start = endChance g uniformAlts n 0 start := by
    intro z
    rw [← dist_mass, ← dist_mass, mass_expect, mass_expect]
    refine expect_alike (m := n) (fun p _ d _ F => ?_) n 0 start _ (by omega)
    show _ = mean p.rhs F
    rw [mean_weighted, mean_rhs]
    rcases Nat.eq_zero_or_pos z with rfl | hz
    · unfold blend
      simp
    · rw [← blend_scale (c := (z : ℚ)) (by exact_mod_cast hz.ne') 1 1, mul_one]
  rw [hasChance_unique hq (C78_weighted h checked x y hf n _), hasChance_unique hq' (C78_random_walk h n _), dist_mass, dist_mass]
  refine ⟨fun hxy => ?_, fun hxy => ?_⟩
  · rw [← key y]
    exact endChance_weights hxy (le_refl _) n 0 start
  · rw [← key y]
    exact endChance_weights hxy (le_refl _) n 0 start

/-! ### Cases -/

/-- For `<s> ::= 'x' | <s> <s>`: within two nested expansions the random walk ends with probability 5/8, with weights 3 and 1 with 19/64. -/
example : Starts gPair ['s'] ∧ Fits gPair 3 1 ∧ Fits gPair 6 2 := ⟨gPair_starts, by simp [Fits, gPair], by simp [Fits, gPair]⟩
example : endChance gPair uniformAlts 2 0 ['s'] = 5 / 8 ∧ endChance gPair (weightedAlts 3 1) 2 0 ['s'] = 19 / 64 ∧
    endChance gPair (boundedAlts 1) 2 0 ['s'] = 1 := by
  refine ⟨?_, ?_, ?_⟩ <;> simp [endChance, firstOf, gPair, Barren, uniformAlts, weightedAlts, boundedAlts, termChance, isTerminal, List.replicate] <;> norm_num

/-- The order is strict there. -/
theorem C109_strict_witness : ∃ q q', HasChance (fun st => gPair.generateSeededWithStrategy (Weighted tapeRng true 3 1) 2 st) (fun _ => true) q ∧
    HasChance (fun st => gPair.generateSeededWithStrategy (RandomWalk tapeRng) 2 st) (fun _ => true) q' ∧ q < q' := by
  refine ⟨_, _, C78_weighted gPair_starts true 3 1 (by simp [gPair]) 2 _, C78_random_walk gPair_starts 2 _, ?_⟩
  rw [dist_mass, dist_mass]
  simp [endChance, firstOf, gPair, Barren, uniformAlts, weightedAlts, termChance, List.replicate]
  norm_num

/-- C109: however large the bound, the limits differ: `<s> ::= 'x' | <s> <s> <s>` always ends with a depth bound, but not without one. -/
theorem C109_gap_witness : (∀ m, AlmostSurely fun n st => gTriple.generateSeededWithStrategy (DepthBounded tapeRng m) n st) ∧
    ¬ AlmostSurely fun n st => gTriple.generateSeededWithStrategy (RandomWalk tapeRng) n st := by
  refine ⟨fun m ε hε => ?_, ?_⟩
  · have : ∀ k d, d + k = m → endChance gTriple (boundedAlts m) (k + 1) d ['s'] = 1 := by
      intro k
      induction k with
      | zero =>
        intro d hd
        have : m ≤ d := by omega
        unfold endChance
        simp [firstOf, gTriple, Barren, boundedAlts, termChance, isTerminal, this]
      | succ k ih =>
        intro d hd
        have h1 := ih (d + 1) (by omega)
        have h2 : ¬ m ≤ d := by omega
        have h3 : endChance gTriple (boundedAlts m) (k + 1 + 1) d ['s'] =
            (1 + endChance gTriple (boundedAlts m) (k + 1) (d + 1) ['s'] ^ 3) / 2 := by
          conv_lhs => unfold endChance
          simp [firstOf, gTriple, Barren, boundedAlts, termChance, isTerminal, h2]
          ring
        rw [h3, h1]
        norm_num
    refine ⟨m + 1, _, C78_depth_bounded gTriple_starts m _ _, ?_⟩
    rw [dist_mass, this m 0 (by omega)]
    linarith
  · intro hs
    obtain ⟨n, q, h1, h2⟩ := hs (1 / 10) (by norm_num)
    have := C79_random_walk_witness.2 n q h1
    norm_num at h2 this
    linarith

end Bnf.Props
