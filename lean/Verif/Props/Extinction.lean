import Verif.Proofs.Extinction
import Verif.Props.Chance

/-!
# Property C102: when generation ends with probability 1

As in C78 and C79 the random source is ideal.  Weights `v` of nonterminals measure how much there is still to expand; `offspring v e` is the total
weight of the nonterminals of an alternative.
-/

set_option autoImplicit false

namespace Bnf.Props
open Bnf Spec

variable {g : Grammar} {start : Str}

/-- The nonterminals that expansions can lead to. -/
def Met (g : Grammar) (start : Str) : Str → Prop := Relation.ReflTransGen (Refers g) start

theorem returnsWith_of {run : Nat → List Nat × ℚ → GenRes (List Nat × ℚ)} {alts : Nat → Production → List Expression}
    (h : ∀ n, HasChance (run n) (fun _ => true) ((dist g alts n 0 start).mass fun _ => true)) : ReturnsWith run (endLimit g alts 0 start) := by
  have h1 : {p : ℝ | ∃ n, ∃ r : ℚ, HasChance (run n) (fun _ => true) r ∧ (r : ℝ) = p} =
      Set.range fun n => ((endChance g alts n 0 start : ℚ) : ℝ) := by
    ext p
    constructor
    · rintro ⟨n, r, h2, rfl⟩
      refine ⟨n, ?_⟩
      rw [hasChance_unique h2 (h n), C78_ending]
    · rintro ⟨n, rfl⟩
      exact ⟨n, _, h n, by rw [C78_ending]⟩
  unfold ReturnsWith
  rw [h1]
  exact isLUB_ciSup (endChance_bddAbove 0 start)

/-- C102: the probabilities of returning a sentence are the least solution of the equations `q x = average over the alternatives of the products of
the q of their nonterminals`. -/
theorem C102_least_solution (h : Starts g start) :
    (∃ q, LeastSolution g uniformAlts q ∧ ReturnsWith (fun n st => g.generateSeededWithStrategy (RandomWalk tapeRng) n st) (q 0 start)) ∧
    (∀ m, ∃ q, LeastSolution g (boundedAlts m) q ∧
      ReturnsWith (fun n st => g.generateSeededWithStrategy (DepthBounded tapeRng m) n st) (q 0 start)) ∧
    ∀ checked x y, (∀ p ∈ g.productions, (p.rhs.map fun e => if p.lhs ∈ e.terms then x else y).sum < 2 ^ 32) →
      ∃ q, LeastSolution g (weightedAlts x y) q ∧
        ReturnsWith (fun n st => g.generateSeededWithStrategy (Weighted tapeRng checked x y) n st) (q 0 start) :=
  ⟨⟨_, endLimit_least, returnsWith_of fun n => C78_random_walk h n _⟩, fun m => ⟨_, endLimit_least, returnsWith_of fun n => C78_depth_bounded h m n _⟩,
    fun checked x y hfit => ⟨_, endLimit_least, returnsWith_of fun n => C78_weighted h checked x y hfit n _⟩⟩

theorem almostSurely_of {run : Nat → List Nat × ℚ → GenRes (List Nat × ℚ)} {alts : Nat → Production → List Expression}
    (h : ∀ n, HasChance (run n) (fun _ => true) ((dist g alts n 0 start).mass fun _ => true)) (h1 : endLimit g alts 0 start = 1) : AlmostSurely run := by
  intro ε hε
  obtain ⟨n, hn⟩ := exists_close h1 hε
  exact ⟨n, _, h n, by rw [C78_ending]; exact hn⟩

/-- C102: the random walk returns a sentence with probability 1 if every nonterminal that can be met can be expanded to a sentence, and expanding one
does not increase the weight on average, for some positive weights.  Nonterminals can be ranked such that expanding one does not lead to a higher rank; then
only those of the same rank count for the average. -/
theorem C102_ends (h : Starts g start) (rank : Str → Nat) (hrank : ∀ x y, Met g start x → Refers g x y → rank y ≤ rank x) {v : Str → ℚ} (hv0 : ∀ x, 0 ≤ v x) (hv : ∀ x, Declared g x → 0 < v x) (hfin : ∀ x, Met g start x → Finishable g anyAlternative 0 x)
    (hav : ∀ x p, Met g start x → IsFirst g x p → (p.rhs.map (offspring (sameRank rank v x))).sum ≤ v x * p.rhs.length) :
    AlmostSurely fun n st => g.generateSeededWithStrategy (RandomWalk tapeRng) n st := by
  refine almostSurely_of (fun n => C78_random_walk h n _) ?_
  refine endLimit_fair (A := fun p => p.rhs) (B := anyAlternative) (fun _ _ _ _ h => h) (R := Met g start)
    (fun x p hx hp e he y hy => hx.tail ⟨p, firstOf_isFirst hp, e, he, hy⟩) rank
    (fun x p hx hp e he y hy => hrank x y hx ⟨p, firstOf_isFirst hp, e, he, hy⟩) hv0 hv (fun x hx => ⟨0, hfin x hx⟩)
    (fun x p hx hp => hav x p hx (firstOf_isFirst hp)) start .refl

/-- C102: the same for the weighted strategy, with weighted averages. -/
theorem C102_ends_weighted (h : Starts g start) (checked : Bool) (a b : Nat)
    (hfit : ∀ p ∈ g.productions, (p.rhs.map fun e => if p.lhs ∈ e.terms then a else b).sum < 2 ^ 32)
    (rank : Str → Nat) (hrank : ∀ x y, Met g start x → Refers g x y → rank y ≤ rank x) {v : Str → ℚ} (hv0 : ∀ x, 0 ≤ v x) (hv : ∀ x, Declared g x → 0 < v x)
    (hfin : ∀ x, Met g start x → Finishable g (weightAllowance a b) 0 x)
    (hav : ∀ x p, Met g start x → IsFirst g x p →
      ((weightedAlts a b 0 p).map (offspring (sameRank rank v x))).sum ≤ v x * (weightedAlts a b 0 p).length) :
    AlmostSurely fun n st => g.generateSeededWithStrategy (Weighted tapeRng checked a b) n st := by
  refine almostSurely_of (fun n => C78_weighted h checked a b hfit n _) ?_
  refine endLimit_fair (A := weightedAlts a b 0) (B := weightAllowance a b) (fun _ _ _ _ h => mem_weightedAlts.2 h) (R := Met g start)
    (fun x p hx hp e he y hy => hx.tail ⟨p, firstOf_isFirst hp, e, (mem_weightedAlts.1 he).1, hy⟩) rank
    (fun x p hx hp e he y hy => hrank x y hx ⟨p, firstOf_isFirst hp, e, (mem_weightedAlts.1 he).1, hy⟩) hv0 hv (fun x hx => ⟨0, hfin x hx⟩)
    (fun x p hx hp => hav x p hx (firstOf_isFirst hp)) start .refl

/-- C102: for the depth-bounded strategy only the nonterminals without an alternative made of terminals matter. -/
theorem C102_ends_depth_bounded (h : Starts g start) (m : Nat) (rank : Str → Nat)
    (hrank : ∀ x y, Met g start x → Refers g x y → rank y ≤ rank x) {v : Str → ℚ} (hv0 : ∀ x, 0 ≤ v x) (hv : ∀ x, Declared g x → 0 < v x)
    (hfin : ∀ x, Met g start x → Finishable g (depthAllowance m) m x)
    (hav : ∀ x p, Met g start x → IsFirst g x p → (∀ e ∈ p.rhs, ¬ AllTerminal e) → (p.rhs.map (offspring (sameRank rank v x))).sum ≤ v x * p.rhs.length) :
    AlmostSurely fun n st => g.generateSeededWithStrategy (DepthBounded tapeRng m) n st := by
  refine almostSurely_of (fun n => C78_depth_bounded h m n _) ?_
  have hcut : (fun d => boundedAlts m (m + d)) = fun _ => boundedAlts m m := by
    funext d p; simp [boundedAlts]
  have hR : ∀ d x p, Met g start x → firstOf g x = some p → ∀ e ∈ boundedAlts m d p, ∀ y, .nonterminal y ∈ e.terms → Met g start y :=
    fun d x p hx hp e he y hy => hx.tail ⟨p, firstOf_isFirst hp, e, (mem_boundedAlts.1 he).1, hy⟩
  have hdeep : ∀ x, Met g start x → endLimit g (boundedAlts m) m x = 1 := by
    intro x hx
    have h1 : endLimit g (boundedAlts m) m x = endLimit g (fun _ => boundedAlts m m) 0 x := by
      unfold endLimit
      congr 1
      funext n
      have := endChance_shift (g := g) (alts := boundedAlts m) m n 0 x
      rw [hcut] at this
      rw [← this]
      rfl
    rw [h1]
    refine endLimit_fair (A := boundedAlts m m) (B := fun d p e => m ≤ d ∧ depthAllowance m d p e) (fun d p e _ h => ?_) (R := Met g start)
      (hR m) rank (fun x p hx hp e he y hy => hrank x y hx ⟨p, firstOf_isFirst hp, e, (mem_boundedAlts.1 he).1, hy⟩) hv0 hv (fun x hx => ?_) (fun x p hx hp => ?_) x hx
    · obtain ⟨h2, h3, h4⟩ := h
      exact mem_boundedAlts.2 ⟨h3, fun _ => h4 h2⟩
    · refine ⟨m, ?_⟩
      have : ∀ d x, m ≤ d → Finishable g (depthAllowance m) d x → Finishable g (fun d p e => m ≤ d ∧ depthAllowance m d p e) d x := by
        intro d x hd hf
        induction hf with
        | undeclared h => exact .undeclared h
        | expand h1 h2 h3 h4 ih => exact .expand h1 h2 ⟨hd, h3⟩ fun k hk => ih k hk (by omega)
      exact this m x (le_refl _) (hfin x hx)
    · by_cases hflat : ∀ e ∈ p.rhs, ¬ AllTerminal e
      · have h2 : boundedAlts m m p = p.rhs := by
          unfold boundedAlts
          simp only
          rw [if_neg]
          rintro ⟨_, h3⟩
          obtain ⟨e, he⟩ := List.exists_mem_of_ne_nil _ h3
          obtain ⟨h4, h5⟩ := List.mem_filter.1 he
          exact hflat e h4 (isTerminal_all.1 h5)
        rw [h2]
        exact hav x p hx (firstOf_isFirst hp) hflat
      · push Not at hflat
        obtain ⟨e0, he0, ha0⟩ := hflat
        have h2 : ∀ e ∈ boundedAlts m m p, offspring (sameRank rank v x) e = 0 := by
          intro e he
          obtain ⟨h3, h4⟩ := mem_boundedAlts.1 he
          have h5 : AllTerminal e := by
            rcases h4 (le_refl _) with h | h
            · exact h
            · exact absurd ha0 (h e0 he0)
          unfold offspring
          have : e.terms.map (termWeight (sameRank rank v x)) = e.terms.map fun _ => (0 : ℚ) := List.map_congr_left fun t ht => by
            obtain ⟨s, rfl⟩ := h5 t ht; rfl
          rw [this]
          simp
        rw [List.map_congr_left h2]
        simp only [List.map_const', List.sum_replicate, smul_zero]
        exact mul_nonneg (hv0 x) (Nat.cast_nonneg _)
  have := endLimit_up (g := g) (alts := boundedAlts m) (R := Met g start) (k := m) (fun d x p _ hx hp => ?_) hdeep m (le_refl _) start .refl
  · simpa using this
  · obtain ⟨h1, d', e, h2, _⟩ := finishable_choice (hfin x hx) hp
    refine ⟨h1, ?_, hR d x p hx hp⟩
    unfold boundedAlts
    simp only
    split
    · rename_i h; exact h.2
    · exact List.ne_nil_of_mem h2

theorem not_almostSurely_of {run : Nat → List Nat × ℚ → GenRes (List Nat × ℚ)} {q : Nat → ℚ} (h : ∀ n, HasChance (run n) (fun _ => true) (q n))
    {ε : ℚ} (hε : 0 < ε) (hq : ∀ n, q n ≤ 1 - ε) : ¬ AlmostSurely run := by
  intro hs
  obtain ⟨n, r, h1, h2⟩ := hs (ε / 2) (by linarith)
  rw [hasChance_unique h1 (h n)] at h2
  linarith [hq n]

/-- C102: the random walk does not return a sentence with probability 1 (the probability that it goes on forever is positive) if expanding a nonterminal
multiplies the weight on average by at least some `m > 1`, for some weights that are positive for the starting nonterminal and 0 for
nonterminals without production. -/
theorem C102_goes_on (h : Starts g start) {v : Str → ℚ} (hv : ∀ x, 0 ≤ v x) (hund : ∀ x, ¬ Declared g x → v x = 0) (hstart : 0 < v start) {m : ℚ}
    (hm : 1 < m) (hav : ∀ x p, IsFirst g x p → m * v x * p.rhs.length ≤ (p.rhs.map (offspring v)).sum) :
    ¬ AlmostSurely fun n st => g.generateSeededWithStrategy (RandomWalk tapeRng) n st := by
  obtain ⟨ε, hε, h1⟩ := endChance_supercritical (g := g) (A := fun p => p.rhs) hv (fun x hx => hund x (firstOf_declared.1 hx)) (fun _ _ _ h => h) hm
    (fun x p hp _ => hav x p (firstOf_isFirst hp))
  exact not_almostSurely_of (fun n => C78_random_walk h n _) (mul_pos hε hstart) fun n => by rw [C78_ending]; exact h1 n 0 start

/-- C102: the same for the weighted strategy. -/
theorem C102_goes_on_weighted (h : Starts g start) (checked : Bool) (a b : Nat)
    (hfit : ∀ p ∈ g.productions, (p.rhs.map fun e => if p.lhs ∈ e.terms then a else b).sum < 2 ^ 32) {v : Str → ℚ} (hv : ∀ x, 0 ≤ v x)
    (hund : ∀ x, ¬ Declared g x → v x = 0) (hstart : 0 < v start) {m : ℚ} (hm : 1 < m)
    (hav : ∀ x p, IsFirst g x p → m * v x * (weightedAlts a b 0 p).length ≤ ((weightedAlts a b 0 p).map (offspring v)).sum) :
    ¬ AlmostSurely fun n st => g.generateSeededWithStrategy (Weighted tapeRng checked a b) n st := by
  obtain ⟨ε, hε, h1⟩ := endChance_supercritical (g := g) (A := weightedAlts a b 0) hv (fun x hx => hund x (firstOf_declared.1 hx))
    (fun _ _ _ h => (mem_weightedAlts.1 h).1) hm (fun x p hp _ => hav x p (firstOf_isFirst hp))
  exact not_almostSurely_of (fun n => C78_weighted h checked a b hfit n _) (mul_pos hε hstart) fun n => by rw [C78_ending]; exact h1 n 0 start

/-- How often the nonterminal occurs in the alternatives. -/
def occurrences (x : Str) (p : Production) : Nat := (p.rhs.map fun e => e.terms.count (.nonterminal x)).sum

theorem offspring_count (x : Str) {y : Str → Prop} [DecidablePred y] (hx : y x) (e : Expression)
    (h : ∀ z, .nonterminal z ∈ e.terms → y z → z = x) : offspring (fun z => if y z then 1 else 0) e = e.terms.count (.nonterminal x) := by
  unfold offspring
  have : ∀ ts : List Term, (∀ z, .nonterminal z ∈ ts → y z → z = x) →
      (ts.map (termWeight fun z => if y z then 1 else 0)).sum = ts.count (.nonterminal x) := by
    intro ts
    induction ts with
    | nil => simp
    | cons t ts ih =>
      intro h
      have h1 := ih fun z hz => h z (by simp [hz])
      simp only [List.map_cons, List.sum_cons, h1, List.count_cons, Nat.cast_add]
      cases t with
      | terminal u => simp [termWeight]
      | nonterminal z =>
        simp only [termWeight]
        by_cases hz : z = x
        · subst hz; simp [hx, add_comm]
        · have : ¬ y z := fun hy => hz (h z (by simp) hy)
          simp [hz, this]
  exact this e.terms h

/-- C102: if the alternatives of the starting nonterminal contain no other nonterminal that has a production, and at least one does not contain the
starting nonterminal, the random walk returns a sentence with probability 1 exactly if there are at most as many occurrences of it as alternatives. -/
theorem C102_single (h : Starts g start) {p : Production} (hp : IsFirst g start p)
    (hself : ∀ e ∈ p.rhs, ∀ y, .nonterminal y ∈ e.terms → y = start ∨ ¬ Declared g y) (hnb : ¬ NoChoice p)
    (hend : ∃ e ∈ p.rhs, .nonterminal start ∉ e.terms) :
    (AlmostSurely fun n st => g.generateSeededWithStrategy (RandomWalk tapeRng) n st) ↔ occurrences start p ≤ p.rhs.length := by
  classical
  have hf := isFirst_firstOf hp
  have hdecl : Declared g start := by
    by_contra hc; rw [firstOf_declared.2 hc] at hf; cases hf
  have hmet : ∀ x, Met g start x → x = start ∨ ¬ Declared g x := by
    intro x hx
    induction hx with
    | refl => exact .inl rfl
    | tail _ h1 ih =>
      obtain ⟨p', h2, e, he, hy⟩ := h1
      rcases ih with rfl | ih
      · have := isFirst_firstOf h2
        rw [hf] at this
        injection this with this
        subst this
        exact hself e he _ hy
      · have := isFirst_firstOf h2
        rw [firstOf_declared.2 ih] at this
        cases this
  have hcount : (p.rhs.map (offspring fun z => if Declared g z then 1 else 0)).sum = occurrences start p := by
    unfold occurrences
    rw [Nat.cast_list_sum, List.map_map]
    congr 1
    apply List.map_congr_left
    intro e he
    exact offspring_count start hdecl e fun z hz hy => (hself e he z hz).resolve_right fun hc => hc hy
  constructor
  · intro hs
    by_contra hc
    push Not at hc
    have hpos : 0 < p.rhs.length := List.length_pos_iff.mpr fun h0 => hnb (.inl h0)
    have hposq : (0 : ℚ) < p.rhs.length := by exact_mod_cast hpos
    -- only the starting nonterminal has weight
    have hcount' : (p.rhs.map (offspring fun z => if start = z then 1 else 0)).sum = occurrences start p := by
      unfold occurrences
      rw [Nat.cast_list_sum, List.map_map]
      congr 1
      apply List.map_congr_left
      intro e he
      exact offspring_count start rfl e fun z _ hy => hy.symm
    refine C102_goes_on h (v := fun z => if start = z then 1 else 0) (fun x => by split <;> norm_num) (fun x hx => ?_) (by simp)
      (m := (occurrences start p : ℚ) / p.rhs.length) ?_ (fun x p' hp' => ?_) hs
    · rw [if_neg]; rintro rfl; exact hx hdecl
    · rw [lt_div_iff₀ hposq, one_mul]; exact_mod_cast hc
    · by_cases hx : x = start
      · subst hx
        have := isFirst_firstOf hp'
        rw [hf] at this
        injection this with this
        subst this
        rw [hcount']
        simp only [if_true, mul_one]
        rw [div_mul_cancel₀ _ hposq.ne']
      · simp only [if_neg (Ne.symm hx), mul_zero, zero_mul]
        refine List.sum_nonneg fun z hz => ?_
        obtain ⟨e, _, rfl⟩ := List.mem_map.1 hz
        exact offspring_nonneg (fun x => by split <;> norm_num) e.terms
  · intro hc
    obtain ⟨e0, he0, hs0⟩ := hend
    refine C102_ends h (fun _ => 0) (fun _ _ _ _ => le_refl _) (v := fun z => if Declared g z then 1 else 0) (fun x => by split <;> norm_num) (fun x hx => by simp [hx]) (fun x hx => ?_)
      (fun x p' hx hp' => ?_)
    · rcases hmet x hx with rfl | hx
      · exact .expand hp hnb he0 fun k hk => .undeclared ((hself e0 he0 k hk).resolve_left fun hc => hs0 (hc ▸ hk))
      · exact .undeclared hx
    · rcases hmet x hx with rfl | hx
      · have := isFirst_firstOf hp'
        rw [hf] at this
        injection this with this
        subst this
        rw [show sameRank (fun _ => 0) (fun z => if Declared g z then (1 : ℚ) else 0) x = fun z => if Declared g z then 1 else 0 from
          by funext y; simp [sameRank], hcount, if_pos hdecl, one_mul]
        exact_mod_cast hc
      · have := isFirst_firstOf hp'
        rw [firstOf_declared.2 hx] at this
        cases this

/-- `<s> ::= 'x' | <s> <s>` returns a sentence with probability 1 (as many occurrences as alternatives), although `C79_ends` does not apply; with a third
occurrence (`C79_random_walk_witness`) it does not. -/
example : AlmostSurely fun n st => gPair.generateSeededWithStrategy (RandomWalk tapeRng) n st :=
  (C102_single gPair_starts (p := gPair.productions[0]) ⟨[], [], rfl, rfl, by simp⟩ (by simp [gPair]) (by simp [NoChoice, gPair])
    ⟨⟨[.terminal ['x']]⟩, by simp [gPair], by simp⟩).2 (by decide)
example : ¬ AlmostSurely fun n st => gTriple.generateSeededWithStrategy (RandomWalk tapeRng) n st := fun h =>
  absurd ((C102_single gTriple_starts (p := gTriple.productions[0]) ⟨[], [], rfl, rfl, by simp⟩ (by simp [gTriple]) (by simp [NoChoice, gTriple])
    ⟨⟨[.terminal ['x']]⟩, by simp [gTriple], by simp⟩).1 h) (by decide)

end Bnf.Props
