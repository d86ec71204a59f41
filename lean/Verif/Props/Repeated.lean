import Mathlib.Analysis.SpecificLimits.Basic
import Mathlib.Data.List.Perm.Subperm
import Verif.Proofs.Repeated
import Verif.Props.Chance
import Verif.Props.Generate

/-!
# Property C121: several calls of generation in a row

The random source is ideal, as in C78, except for the coverage-guided strategy, where it is arbitrary.
-/

set_option autoImplicit false

namespace Bnf.Props
open Bnf Spec

/-- C121: the probability of an event over several calls is well defined. -/
theorem C121_well_defined {run : List Nat × ℚ → GenRes (List Nat × ℚ)} {k : Nat} {Q : List Str → Prop} [DecidablePred Q] {p q : ℚ}
    (h : HasRowChance run k Q p) (h' : HasRowChance run k Q q) : p = q := hasRowChance_unique h h'

theorem independent_of {run : List Nat × ℚ → GenRes (List Nat × ℚ)} {D : Dist} (h1 : ∀ P, HasChance run P (D.mass P))
    (h2 : ∀ (Ps : List (Str → Bool)), HasRowChance run Ps.length (fun ss => ∀ x ∈ Ps.zip ss, x.1 x.2 = true) 
      (rowMass (rowDist D Ps.length) fun ss => ∀ x ∈ Ps.zip ss, x.1 x.2 = true)) :
    Independent run := by
  intro Ps ps h
  have : ps = Ps.map D.mass := by
    induction h with
    | nil => rfl
    | cons h _ ih => rw [List.map_cons, ← ih, hasChance_unique h (h1 _)]
  rw [this, ← rowMass_product]
  exact h2 Ps

/-- C121: calls of the random walk, the depth-bounded and the weighted strategy are independent: the probability that the first of `k` calls returns
a sentence with the first property, the second one with the second property and so on is the product of the probabilities. -/
theorem C121_independent {g : Grammar} {start : Str} (h : Starts g start) (n : Nat) :
    Independent (fun st => g.generateSeededWithStrategy (RandomWalk tapeRng) n st) ∧
    (∀ m, Independent (fun st => g.generateSeededWithStrategy (DepthBounded tapeRng m) n st)) ∧
    ∀ checked x y, (∀ p ∈ g.productions, (p.rhs.map fun e => if p.lhs ∈ e.terms then x else y).sum < 2 ^ 32) →
      Independent (fun st => g.generateSeededWithStrategy (Weighted tapeRng checked x y) n st) := by
  refine ⟨?_, fun m => ?_, fun checked x y hfit => ?_⟩
  · refine independent_of (C78_random_walk h n) fun Ps => ?_
    rw [generate_starts h]
    exact rowChance_traverse (G := fun _ => True) (fun _ _ => trivial) draws_randomWalk n 0 start _ _
  · refine independent_of (C78_depth_bounded h m n) fun Ps => ?_
    rw [generate_starts h]
    exact rowChance_traverse (G := fun _ => True) (fun _ _ => trivial) (draws_depthBounded m) n 0 start _ _
  · refine independent_of (C78_weighted h checked x y hfit n) fun Ps => ?_
    rw [generate_starts h]
    exact rowChance_traverse hfit (draws_weighted checked x y) n 0 start _ _

/-- Two calls on `<s> ::= 'x' | 'y' <s>`, with three nested expansions: first `x`, then `yx`. -/
example : HasRowChance (fun st => gList.generateSeededWithStrategy (RandomWalk tapeRng) 3 st) 2
    (fun ss => ∀ x ∈ [(fun s => s == ['x']), (fun s => s == ['y', 'x'])].zip ss, x.1 x.2 = true) ((1 : ℚ) / 2 * (1 / 4)) := by
  have h := (C121_independent (g := gList) (start := ['s']) ⟨by rfl, _, _, rfl, rfl⟩ 3).1 [(fun s => s == ['x']), (fun s => s == ['y', 'x'])]
    [1 / 2, 1 / 4] (.cons ?_ (.cons ?_ .nil))
  · simpa using h
  · have := C78_random_walk (g := gList) (start := ['s']) ⟨by rfl, _, _, rfl, rfl⟩ 3 (fun s => s == ['x'])
    exact (show (dist gList uniformAlts 3 0 ['s']).mass (fun s => s == ['x']) = 1 / 2 by decide +kernel) ▸ this
  · have := C78_random_walk (g := gList) (start := ['s']) ⟨by rfl, _, _, rfl, rfl⟩ 3 (fun s => s == ['y', 'x'])
    exact (show (dist gList uniformAlts 3 0 ['s']).mass (fun s => s == ['y', 'x']) = 1 / 4 by decide +kernel) ▸ this

/-- C121: hence, if one call returns a sentence without `P` with probability `q`, then `k` calls all do with probability `q ^ k`, and if `q < 1` the expected
number of calls until one of them does otherwise (the sum over `k` of the probability that `k` calls are not enough) is `1 / (1 - q)`. -/
theorem C121_waiting {run : List Nat × ℚ → GenRes (List Nat × ℚ)} (h : Independent run) {P : Str → Bool} {q : ℚ} (hq : HasChance run (fun s => !P s) q) :
    (∀ k, HasRowChance run k (fun ss => ∀ s ∈ ss, P s = false) (q ^ k)) ∧
    (0 ≤ q → q < 1 → HasSum (fun k => ((q ^ k : ℚ) : ℝ)) ((1 / (1 - q) : ℚ) : ℝ)) := by
  constructor
  · intro k
    have := h (List.replicate k fun s => !P s) (List.replicate k q) (by
      induction k with
      | zero => exact .nil
      | succ k ih => rw [List.replicate_succ, List.replicate_succ]; exact .cons hq ih)
    rw [List.prod_replicate] at this
    simp only [List.length_replicate] at this
    refine rowChance_congr (fun ss hl => ?_) this
    subst hl
    clear this
    induction ss with
    | nil => simp
    | cons s ss ih => rw [List.length_cons, List.replicate_succ, List.zip_cons_cons, List.forall_mem_cons, List.forall_mem_cons, ih]; simp
  · intro h0 h1
    have := hasSum_geometric_of_lt_one (r := (q : ℝ)) (by exact_mod_cast h0) (by exact_mod_cast h1)
    push_cast
    simpa [one_div] using this

/-! ## Seeing all alternatives -/

theorem listGrammar_starts (s : Str) {L : List Str} (hne : L ≠ []) : Starts (listGrammar s L) s := by
  refine ⟨?_, _, _, rfl, rfl⟩
  obtain ⟨b, h1, h2⟩ := C33_terminates_iff (listGrammar s L)
  obtain ⟨t, L', rfl⟩ := List.exists_cons_of_ne_nil hne
  rw [h1, h2.2 (.inr ⟨.nonterminal s, t, rfl, ?_⟩)]
  refine ⟨⟨.nonterminal s, [.terminal t]⟩, rfl, ⟨⟨[.terminal t]⟩, ⟨_, List.mem_singleton_self _, rfl, by simp⟩, ?_⟩, by simp [Spec.yield, nodeYield]⟩
  exact .terminal .nil

/-- C121: a rule with `n` different sentences and the random walk: the probability that `k` calls do not return all of them is `missing n k n`; the
expected number of calls until all of them were returned is `n (1 + 1/2 + … + 1/n)`; and `n` calls return all of them with probability `n! / n ^ n`
only. -/
theorem C121_random_walk_covers (s : Str) {L : List Str} (hL : L.Nodup) (hne : L ≠ []) (fuel : Nat) :
    (∀ k, HasRowChance (fun st => (listGrammar s L).generateSeededWithStrategy (RandomWalk tapeRng) (fuel + 1) st) k (fun ss => ∃ t ∈ L, t ∉ ss)
      (missing L.length k L.length)) ∧
    HasSum (fun k => (missing L.length k L.length : ℝ)) ((L.length * harmonic L.length : ℚ) : ℝ) ∧
    missing L.length L.length L.length = 1 - (L.length.factorial : ℚ) / L.length ^ L.length := by
  have hn : 0 < L.length := List.length_pos_iff.mpr hne
  refine ⟨fun k => ?_, missing_hasSum hn _ le_rfl, (missing_self _ _ le_rfl hn).2⟩
  have h := rowChance_traverse (G := fun _ => True) (g := listGrammar s L) (fun _ _ => trivial) draws_randomWalk (fuel + 1) 0 s k (fun ss => ∃ t ∈ L, t ∉ ss)
  rw [← generate_starts (listGrammar_starts s hne), listGrammar_dist s hne] at h
  have h2 := rowMass_missing hL hne k []
  have h3 : (L.countP fun u => decide (u ∉ ([] : List Str))) = L.length := by simp
  rw [h3] at h2
  rw [← h2]
  rwa [rowMass_congr (Q' := fun ss => ∃ t ∈ L, t ∉ ss) _ (by simp)]

/-- C121: with the coverage-guided strategy `n` calls return all `n` sentences, each once, whatever the random source does; already `k ≤ n` calls never
repeat a sentence. -/
theorem C121_coverage_covers {ρ Seed : Type} (R : Rng ρ Seed) (s : Str) {L : List Str} (hL : L.Nodup) (hne : L ≠ []) (fuel : Nat) (rng : ρ) (k : Nat)
    (hk : k ≤ L.length) :
    ∃ ss st', inARow (fun st => (listGrammar s L).generateSeededWithStrategy (CoverageGuided R) (fuel + 1) st) k ([], rng) = some (ss, st') ∧
      ss.length = k ∧ ss.Nodup ∧ ss ⊆ L ∧ (k = L.length → ss.Perm L) := by
  have one : ∀ (idx : List Nat) (rng : ρ), idx.Nodup → (∀ i ∈ idx, i < L.length) → idx.length < L.length → ∃ i rng', ∃ h : i < L.length, i ∉ idx ∧
      (listGrammar s L).generateSeededWithStrategy (CoverageGuided R) (fuel + 1) (idx.map fun i => (0, i), rng) =
        .done (.ok L[i]) ((i :: idx).map fun i => (0, i), rng') := by
    intro idx rng hnd hlt hlen
    obtain ⟨h1, _⟩ := listGrammar_starts s hne
    have hnc : productionHasNoChoice ⟨.nonterminal s, L.map fun t => ⟨[.terminal t]⟩⟩ = false := by
      rw [Bool.eq_false_iff, ne_eq, barren_iff]
      rintro (h | h)
      · simp at h; exact hne h
      · cases L with
        | nil => exact hne rfl
        | cons a L => simp at h
    obtain ⟨i, rng', h2, h3, h4⟩ := coverage_spec (R := R) (idx.map fun i => (0, i)) rng 0 ⟨.nonterminal s, L.map fun t => ⟨[.terminal t]⟩⟩ 0
      (by simpa using hne)
    have hi : i < L.length := by simpa using h2
    refine ⟨i, rng', hi, ?_, ?_⟩
    · intro hmem
      have : ∃ j < L.length, j ∉ idx := by
        by_contra hall
        push Not at hall
        have := (List.nodup_range (n := L.length)).subperm (fun j hj => hall j (List.mem_range.mp hj))
        have := this.length_le
        simp at this
        omega
      obtain ⟨j, hj, hj'⟩ := this
      have := h4 ⟨j, by simpa using hj, by simpa using hj'⟩
      exact this (List.mem_map_of_mem hmem)
    · simp only [Grammar.generateSeededWithStrategy, Grammar.generateWith, h1]
      simp only [listGrammar, traverse, findProduction, if_true, hnc, Bool.false_eq_true, if_false]
      rw [h3]
      simp [evalTerms]
  have main : ∀ (k : Nat) (idx : List Nat) (rng : ρ), idx.Nodup → (∀ i ∈ idx, i < L.length) → idx.length + k ≤ L.length →
      ∃ is st', inARow (fun st => (listGrammar s L).generateSeededWithStrategy (CoverageGuided R) (fuel + 1) st) k (idx.map fun i => (0, i), rng) =
        some (is.filterMap fun i => L[i]?, st') ∧ is.length = k ∧ (is ++ idx).Nodup ∧ ∀ i ∈ is, i < L.length := by
    intro k
    induction k with
    | zero => intro idx rng h1 h2 _; exact ⟨[], _, rfl, rfl, by simpa using h1, by simp⟩
    | succ k ih =>
      intro idx rng h1 h2 h3
      obtain ⟨i, rng', hi, k1, k2⟩ := one idx rng h1 h2 (by omega)
      obtain ⟨is, st', l1, l2, l3, l4⟩ := ih (i :: idx) rng' (List.nodup_cons.mpr ⟨k1, h1⟩)
        (fun j hj => by rcases List.mem_cons.mp hj with rfl | hj; exacts [hi, h2 j hj]) (by simp; omega)
      refine ⟨i :: is, st', ?_, by simp [l2], ?_, ?_⟩
      · simp only [inARow, k2, l1, Option.map_some, List.filterMap_cons, List.getElem?_eq_getElem hi]
      · have := List.perm_middle (a := i) (l₁ := is) (l₂ := idx)
        exact this.nodup_iff.mp l3
      · intro j hj
        rcases List.mem_cons.mp hj with rfl | hj
        exacts [hi, l4 j hj]
  obtain ⟨is, st', h1, h2, h3, h4⟩ := main k [] rng (by simp) (by simp) (by simpa using hk)
  rw [List.append_nil] at h3
  have hmap : (is.filterMap fun i => L[i]?).map some = is.map fun i => L[i]? := by
    clear h1 h2 h3
    induction is with
    | nil => rfl
    | cons i is ih =>
      have hi := h4 i (by simp)
      rw [List.filterMap_cons, List.getElem?_eq_getElem hi]
      simp only [List.map_cons, ih (fun j hj => h4 j (List.mem_cons_of_mem _ hj)), List.getElem?_eq_getElem hi]
  have hlen : (is.filterMap fun i => L[i]?).length = k := by
    have := congrArg List.length hmap
    simpa [h2] using this
  have hnd : (is.filterMap fun i => L[i]?).Nodup := by
    have : ((is.filterMap fun i => L[i]?).map some).Nodup := by
      rw [hmap]
      refine List.Nodup.map_on ?_ h3
      intro i hi j hj hij
      exact (List.getElem?_inj (h4 i hi) hL).mp hij
    exact List.Nodup.of_map _ this
  have hsub : (is.filterMap fun i => L[i]?) ⊆ L := by
    intro t ht
    obtain ⟨i, _, hi⟩ := List.mem_filterMap.mp ht
    exact List.mem_of_getElem? hi
  refine ⟨_, st', by simpa using h1, hlen, hnd, hsub, fun hkL => ?_⟩
  exact (hnd.subperm hsub).perm_of_length_le (by rw [hlen, hkL])

/-- The four bases: 25/3 calls on average with the random walk (and a probability of 3/32 with four calls), four calls with coverage. -/
example : (["A".toList, "C".toList, "G".toList, "T".toList] : List Str).Nodup ∧ (4 * harmonic 4 : ℚ) = 25 / 3 ∧ ((4 : ℕ).factorial : ℚ) / 4 ^ 4 = 3 / 32 := by
  refine ⟨by decide, ?_, by norm_num [Nat.factorial]⟩
  norm_num [harmonic, Finset.sum_range_succ]

end Bnf.Props
