import Verif.Proofs.Mean
import Verif.Props.Extinction

/-!
# Property C103: how many expansions and characters to expect

`cost a b` counts `a` for each expansion and `b` for each character of the sentence, so `cost 1 0` is the number of expansions (the number of random numbers
drawn) and `cost 0 1` the length of the sentence.  The random source is ideal, as in C78.
-/

set_option autoImplicit false

namespace Bnf.Props
open Bnf Spec

variable {g : Grammar} {start : Str}

/-- C103: expected values are well defined. -/
theorem C103_well_defined {run : List Nat × ℚ → GenRes (List Nat × ℚ)} {f : Str → Nat → ℚ} {p q : ℚ} (h : HasMean run f p) (h' : HasMean run f q) :
    p = q := hasMean_unique h h'

theorem mean_random_walk (h : Starts g start) (a b : ℚ) (n : Nat) :
    HasMean (fun st => g.generateSeededWithStrategy (RandomWalk tapeRng) n st) (cost a b) (meanCost g uniformAlts a b n 0 start) := by
  rw [generate_starts h]
  exact mean_of_runs (G := fun _ => True) (fun _ _ => trivial) draws_randomWalk a b n 0 start

theorem mean_weighted (h : Starts g start) (checked : Bool) (x y : Nat)
    (hfit : ∀ p ∈ g.productions, (p.rhs.map fun e => if p.lhs ∈ e.terms then x else y).sum < 2 ^ 32) (a b : ℚ) (n : Nat) :
    HasMean (fun st => g.generateSeededWithStrategy (Weighted tapeRng checked x y) n st) (cost a b) (meanCost g (weightedAlts x y) a b n 0 start) := by
  rw [generate_starts h]
  exact mean_of_runs hfit (draws_weighted checked x y) a b n 0 start

theorem met_tail {x : Str} {p : Production} (hx : Met g start x) (hp : firstOf g x = some p) {e : Expression} (he : e ∈ p.rhs) {y : Str}
    (hy : .nonterminal y ∈ e.terms) : Met g start y := hx.tail ⟨p, firstOf_isFirst hp, e, he, hy⟩

/-- C103: if numbers `v` satisfy "the average cost of the alternatives, with `v y` for each nonterminal `y`, is at most `v x`", then the random walk
costs at most `v start` on average. -/
theorem C103_at_most (h : Starts g start) {a b : ℚ} (ha : 0 ≤ a) (hb : 0 ≤ b) {v : Str → ℚ} (hv : ∀ x, 0 ≤ v x)
    (hund : ∀ x, Met g start x → ¬ Declared g x → b * x.length ≤ v x)
    (hav : ∀ x p, Met g start x → IsFirst g x p → (p.rhs.map (altCost a b v)).sum ≤ v x * p.rhs.length) (n : Nat) :
    ∃ m, HasMean (fun st => g.generateSeededWithStrategy (RandomWalk tapeRng) n st) (cost a b) m ∧ m ≤ v start :=
  ⟨_, mean_random_walk h a b n, meanCost_le (A := fun p => p.rhs) ha hb (fun _ _ hx hp _ he _ hy => met_tail hx hp he hy) (fun x _ => hv x)
    (fun x hx hf => hund x hx (firstOf_declared.1 hf)) (fun x p hx hp => hav x p hx (firstOf_isFirst hp)) n 0 start .refl⟩

/-- C103: the same for the weighted strategy. -/
theorem C103_at_most_weighted (h : Starts g start) (checked : Bool) (c d : Nat)
    (hfit : ∀ p ∈ g.productions, (p.rhs.map fun e => if p.lhs ∈ e.terms then c else d).sum < 2 ^ 32) {a b : ℚ} (ha : 0 ≤ a) (hb : 0 ≤ b) {v : Str → ℚ}
    (hv : ∀ x, 0 ≤ v x) (hund : ∀ x, Met g start x → ¬ Declared g x → b * x.length ≤ v x)
    (hav : ∀ x p, Met g start x → IsFirst g x p → ((weightedAlts c d 0 p).map (altCost a b v)).sum ≤ v x * (weightedAlts c d 0 p).length) (n : Nat) :
    ∃ m, HasMean (fun st => g.generateSeededWithStrategy (Weighted tapeRng checked c d) n st) (cost a b) m ∧ m ≤ v start :=
  ⟨_, mean_weighted h checked c d hfit a b n, meanCost_le (A := weightedAlts c d 0) ha hb
    (fun _ _ hx hp _ he _ hy => met_tail hx hp (mem_weightedAlts.1 he).1 hy) (fun x _ => hv x)
    (fun x hx hf => hund x hx (firstOf_declared.1 hf)) (fun x p hx hp => hav x p hx (firstOf_isFirst hp)) n 0 start .refl⟩

/-- C103: if the numbers satisfy this with equality, and expanding a nonterminal leaves on average less than `m < 1` times its weight (for some weights
that are at least `v`), then the expected cost comes arbitrarily close to `v start` as more nested expansions are allowed. -/
theorem C103_exact (h : Starts g start) {a b : ℚ} (ha : 0 ≤ a) (hb : 0 ≤ b) {v w : Str → ℚ} (hv : ∀ x, 0 ≤ v x) (hvw : ∀ x, v x ≤ w x)
    (hw : ∀ x, Declared g x → 0 < w x) (hfin : ∀ x, Met g start x → Finishable g anyAlternative 0 x)
    (hund : ∀ x, Met g start x → ¬ Declared g x → v x = b * x.length)
    (heq : ∀ x p, Met g start x → IsFirst g x p → v x * p.rhs.length = (p.rhs.map (altCost a b v)).sum) {m : ℚ} (hm : 0 ≤ m) (hm1 : m < 1)
    (hav : ∀ x p, Met g start x → IsFirst g x p → (p.rhs.map (offspring w)).sum ≤ m * w x * p.rhs.length) {ε : ℚ} (hε : 0 < ε) :
    ∃ N, ∀ n, N ≤ n → ∃ μ, HasMean (fun st => g.generateSeededWithStrategy (RandomWalk tapeRng) n st) (cost a b) μ ∧
      v start - ε ≤ μ ∧ μ ≤ v start := by
  have hR : ∀ x p, Met g start x → firstOf g x = some p → ∀ e ∈ p.rhs, ∀ y, .nonterminal y ∈ e.terms → Met g start y :=
    fun _ _ hx hp _ he _ hy => met_tail hx hp he hy
  have hw0 : ∀ x, 0 ≤ w x := fun x => le_trans (hv x) (hvw x)
  have hq : ∀ x, Met g start x → endLimit g (fun _ => fun p : Production => p.rhs) 0 x = 1 := by
    intro x hx
    refine endLimit_fair (A := fun p => p.rhs) (B := anyAlternative) (fun _ _ _ _ h => h) (R := Met g start) hR (fun _ => 0)
      (fun _ _ _ _ _ _ _ _ => le_refl _) hw0 hw (fun x hx => ⟨0, hfin x hx⟩) (fun x p hx hp => ?_) x hx
    rw [show sameRank (fun _ => 0) w x = w from by funext y; simp [sameRank]]
    refine le_trans (hav x p hx (firstOf_isFirst hp)) ?_
    have h1 : 0 ≤ w x * (p.rhs.length : ℚ) := mul_nonneg (hw0 x) (Nat.cast_nonneg _)
    nlinarith
  have hnb : ∀ x p, Met g start x → firstOf g x = some p → ¬ Barren p := fun x p hx hp => (finishable_choice (hfin x hx) hp).1
  have hne : ∀ x p, Met g start x → firstOf g x = some p → p.rhs ≠ [] := fun x p hx hp h0 => hnb x p hx hp (.inl h0)
  -- enough levels
  obtain ⟨j, hj⟩ : ∃ j : Nat, m ^ j * w start < ε / 2 := by
    rcases eq_or_lt_of_le (hw0 start) with h0 | h0
    · exact ⟨0, by rw [← h0]; simp; linarith⟩
    · obtain ⟨j, hj⟩ := exists_pow_lt_of_lt_one (div_pos (half_pos hε) h0) hm1
      exact ⟨j, by rwa [lt_div_iff₀ h0] at hj⟩
  have h1 := levelCost_close (g := g) (A := fun p => p.rhs) (a := a) (b := b) (R := Met g start) hR hm hne hw0 (fun x _ => hvw x)
    (fun x hx hf => hund x hx (firstOf_declared.1 hf)) (fun x p hx hp => heq x p hx (firstOf_isFirst hp))
    (fun x p hx hp => hav x p hx (firstOf_isFirst hp)) j start .refl
  obtain ⟨N, hN⟩ := meanCost_levels (g := g) (A := fun p => p.rhs) ha hb hR hnb hq j start .refl (half_pos hε)
  refine ⟨N, fun n hn => ⟨_, mean_random_walk h a b n, ?_, ?_⟩⟩
  · have := hN n hn
    show _ ≤ meanCost g (fun _ p => p.rhs) a b n 0 start
    linarith
  · exact meanCost_le (A := fun p => p.rhs) ha hb hR (fun x _ => hv x) (fun x hx hf => le_of_eq (hund x hx (firstOf_declared.1 hf)).symm)
      (fun x p hx hp => le_of_eq (heq x p hx (firstOf_isFirst hp)).symm) n 0 start .refl

/-- C103: if sentences are returned with probability 1 from every nonterminal that can be met (here by the criterion of `C102_ends`), but weights between 0
and 1, positive for the starting nonterminal, do not decrease on average, then the expected number of expansions exceeds every bound. -/
theorem C103_unbounded (h : Starts g start) (rank : Str → Nat) (hrank : ∀ x y, Met g start x → Refers g x y → rank y ≤ rank x) {w : Str → ℚ}
    (hw0 : ∀ x, 0 ≤ w x) (hw : ∀ x, Declared g x → 0 < w x) (hfin : ∀ x, Met g start x → Finishable g anyAlternative 0 x)
    (hends : ∀ x p, Met g start x → IsFirst g x p → (p.rhs.map (offspring (sameRank rank w x))).sum ≤ w x * p.rhs.length)
    {v : Str → ℚ} (hv : ∀ x, 0 ≤ v x ∧ v x ≤ 1) (hund : ∀ x, ¬ Declared g x → v x = 0) (hstart : 0 < v start)
    (hav : ∀ x p, Met g start x → IsFirst g x p → v x * p.rhs.length ≤ (p.rhs.map (offspring v)).sum) (K : ℚ) :
    ∃ N, ∀ n, N ≤ n → ∃ μ, HasMean (fun st => g.generateSeededWithStrategy (RandomWalk tapeRng) n st) (cost 1 0) μ ∧ K ≤ μ := by
  have hR : ∀ x p, Met g start x → firstOf g x = some p → ∀ e ∈ p.rhs, ∀ y, .nonterminal y ∈ e.terms → Met g start y :=
    fun _ _ hx hp _ he _ hy => met_tail hx hp he hy
  have hq : ∀ x, Met g start x → endLimit g (fun _ => fun p : Production => p.rhs) 0 x = 1 := by
    intro x hx
    exact endLimit_fair (A := fun p => p.rhs) (B := anyAlternative) (fun _ _ _ _ h => h) (R := Met g start) hR rank
      (fun x p hx hp e he y hy => hrank x y hx ⟨p, firstOf_isFirst hp, e, he, hy⟩) hw0 hw (fun x hx => ⟨0, hfin x hx⟩)
      (fun x p hx hp => hends x p hx (firstOf_isFirst hp)) x hx
  have hnb : ∀ x p, Met g start x → firstOf g x = some p → ¬ Barren p := fun x p hx hp => (finishable_choice (hfin x hx) hp).1
  have hne : ∀ x p, Met g start x → firstOf g x = some p → p.rhs ≠ [] := fun x p hx hp h0 => hnb x p hx hp (.inl h0)
  obtain ⟨j, hj⟩ := exists_nat_gt ((K + 1) / v start)
  rw [div_lt_iff₀ hstart] at hj
  have h1 := levelCost_grows (g := g) (A := fun p => p.rhs) (R := Met g start) hR hv hne (fun x hf => hund x (firstOf_declared.1 hf))
    (fun x p hx hp => hav x p hx (firstOf_isFirst hp)) j start .refl
  obtain ⟨N, hN⟩ := meanCost_levels (g := g) (A := fun p => p.rhs) (a := 1) (b := 0) zero_le_one (le_refl _) hR hnb hq j start .refl one_pos
  refine ⟨N, fun n hn => ⟨_, mean_random_walk h 1 0 n, ?_⟩⟩
  have := hN n hn
  show _ ≤ meanCost g (fun _ p => p.rhs) 1 0 n 0 start
  linarith

/-! ## The crate's own grammars -/

theorem isFirst_mem {x : Str} {p : Production} (h : IsFirst g x p) : p ∈ g.productions ∧ p.lhs = .nonterminal x := by
  obtain ⟨b, c, h1, h2, _⟩ := h
  exact ⟨by simp [h1], h2⟩

/-- Names in the grammars below. -/
abbrev nProduct : Str := ['p', 'r', 'o', 'd', 'u', 'c', 't']
abbrev nNumber : Str := ['n', 'u', 'm', 'b', 'e', 'r']
abbrev nOp : Str := ['o', 'p']
abbrev nDna : Str := ['d', 'n', 'a']
abbrev nBase : Str := ['b', 'a', 's', 'e']

/-- One alternative for each character. -/
def letters (cs : List Char) : List Expression := cs.map fun c => ⟨[.terminal [c]]⟩

/-- The grammar of the benchmark `parse_polish_calculator` (`benches/divan.rs:79-82`), whose inputs are generated with the random walk:
`<product> ::= <number> | <op> <product> <product>` with four operators and ten digits. -/
def gPolishBench : Grammar := ⟨[
  ⟨.nonterminal nProduct, [⟨[.nonterminal nNumber]⟩, ⟨[.nonterminal nOp, .nonterminal nProduct, .nonterminal nProduct]⟩]⟩,
  ⟨.nonterminal nOp, letters ['+', '-', '*', '/']⟩,
  ⟨.nonterminal nNumber, letters ['0', '1', '2', '3', '4', '5', '6', '7', '8', '9']⟩]⟩

theorem gPolishBench_starts : Starts gPolishBench nProduct := ⟨by decide +kernel, _, _, rfl, rfl⟩

theorem gPolishBench_cases {x : Str} {p : Production} (h : IsFirst gPolishBench x p) :
    (x = nProduct ∧ p = gPolishBench.productions[0]) ∨ (x = nOp ∧ p = gPolishBench.productions[1]) ∨ (x = nNumber ∧ p = gPolishBench.productions[2]) := by
  obtain ⟨h1, h2⟩ := isFirst_mem h
  simp only [gPolishBench, List.mem_cons, List.not_mem_nil, or_false] at h1
  rcases h1 with rfl | rfl | rfl <;> (simp only [Term.nonterminal.injEq] at h2; subst h2; simp [gPolishBench])

theorem gPolishBench_finishable (x : Str) : Finishable gPolishBench anyAlternative 0 x := by
  have flat : ∀ d i c (p : Production), IsFirst gPolishBench i p → ¬ NoChoice p → (⟨[.terminal [c]]⟩ : Expression) ∈ p.rhs →
      Finishable gPolishBench anyAlternative d i := fun d i c p h1 h2 h3 => .expand h1 h2 h3 (by simp)
  have h0 : IsFirst gPolishBench nProduct gPolishBench.productions[0] := ⟨[], _, rfl, rfl, by simp⟩
  have h1 : IsFirst gPolishBench nOp gPolishBench.productions[1] := ⟨[_], _, rfl, rfl, by simp⟩
  have h2 : IsFirst gPolishBench nNumber gPolishBench.productions[2] := ⟨[_, _], [], rfl, rfl, by simp⟩
  have hnum : ∀ d, Finishable gPolishBench anyAlternative d nNumber :=
    fun d => flat d _ '0' _ h2 (by simp [NoChoice, gPolishBench, letters]) (by simp [gPolishBench, letters])
  by_cases hd : Declared gPolishBench x
  · obtain ⟨p, hp, hl⟩ := hd
    simp only [gPolishBench, List.mem_cons, List.not_mem_nil, or_false] at hp
    rcases hp with rfl | rfl | rfl <;> (simp only [Term.nonterminal.injEq] at hl; subst hl)
    · exact .expand (e := ⟨[.nonterminal nNumber]⟩) h0 (by simp [NoChoice, gPolishBench]) (by simp [anyAlternative, gPolishBench])
        (fun m hm => by simp at hm; subst hm; exact hnum _)
    · exact flat 0 _ '+' _ h1 (by simp [NoChoice, gPolishBench, letters]) (by simp [gPolishBench, letters])
    · exact hnum 0
  · exact .undeclared hd

/-- The rank of `<product>` is above that of `<op>` and `<number>`. -/
def polishRank (x : Str) : Nat := if x = nProduct then 1 else 0

theorem polishRank_le (x y : Str) (h : Refers gPolishBench x y) : polishRank y ≤ polishRank x := by
  obtain ⟨p, hp, e, he, hy⟩ := h
  rcases gPolishBench_cases hp with ⟨rfl, rfl⟩ | ⟨rfl, rfl⟩ | ⟨rfl, rfl⟩
  · simp only [polishRank, if_true]; split <;> omega
  · simp only [gPolishBench, letters, List.getElem_cons_succ, List.getElem_cons_zero, List.mem_map] at he
    obtain ⟨c, _, rfl⟩ := he; simp at hy
  · simp only [gPolishBench, letters, List.getElem_cons_succ, List.getElem_cons_zero, List.mem_map] at he
    obtain ⟨c, _, rfl⟩ := he; simp at hy

theorem polish_even (x : Str) (p : Production) (hp : IsFirst gPolishBench x p) :
    (p.rhs.map (offspring (sameRank polishRank (fun _ => 1) x))).sum ≤ 1 * p.rhs.length := by
  rcases gPolishBench_cases hp with ⟨rfl, rfl⟩ | ⟨rfl, rfl⟩ | ⟨rfl, rfl⟩
  · simp [gPolishBench, offspring, termWeight, sameRank, polishRank]; norm_num
  · simp [gPolishBench, letters, offspring, termWeight]
  · simp [gPolishBench, letters, offspring, termWeight]

/-- C102: generating the inputs of the benchmark ends with probability 1, … -/
theorem C102_polish_bench : AlmostSurely fun n st => gPolishBench.generateSeededWithStrategy (RandomWalk tapeRng) n st :=
  C102_ends gPolishBench_starts polishRank (fun x y _ h => polishRank_le x y h) (v := fun _ => 1) (fun _ => zero_le_one) (fun _ _ => one_pos)
    (fun x _ => gPolishBench_finishable x) (fun x p _ hp => polish_even x p hp)

/-- C103: … but the expected number of expansions is infinite. -/
theorem C103_polish_bench (K : ℚ) : ∃ N, ∀ n, N ≤ n → ∃ μ,
    HasMean (fun st => gPolishBench.generateSeededWithStrategy (RandomWalk tapeRng) n st) (cost 1 0) μ ∧ K ≤ μ := by
  refine C103_unbounded gPolishBench_starts polishRank (fun x y _ h => polishRank_le x y h) (w := fun _ => 1) (fun _ => zero_le_one) (fun _ _ => one_pos)
    (fun x _ => gPolishBench_finishable x) (fun x p _ hp => polish_even x p hp) (v := fun x => if x = nProduct then 1 else 0)
    (fun x => by split <;> norm_num) (fun x hx => ?_) (by simp) (fun x p _ hp => ?_) K
  · rw [if_neg]
    rintro rfl
    exact hx ⟨gPolishBench.productions[0], by simp [gPolishBench], rfl⟩
  · rcases gPolishBench_cases hp with ⟨rfl, rfl⟩ | ⟨rfl, rfl⟩ | ⟨rfl, rfl⟩
    · simp [gPolishBench, offspring, termWeight]; norm_num
    · simp [gPolishBench, letters, offspring, termWeight]
    · simp [gPolishBench, letters, offspring, termWeight]

/-- The grammar of the documentation (`src/parser/mod.rs:19-20`): `<dna> ::= <base> | <base> <dna>` with four bases. -/
def gDnaDoc : Grammar := ⟨[
  ⟨.nonterminal nDna, [⟨[.nonterminal nBase]⟩, ⟨[.nonterminal nBase, .nonterminal nDna]⟩]⟩,
  ⟨.nonterminal nBase, letters ['A', 'C', 'G', 'T']⟩]⟩

theorem gDnaDoc_cases {x : Str} {p : Production} (h : IsFirst gDnaDoc x p) :
    (x = nDna ∧ p = gDnaDoc.productions[0]) ∨ (x = nBase ∧ p = gDnaDoc.productions[1]) := by
  obtain ⟨h1, h2⟩ := isFirst_mem h
  simp only [gDnaDoc, List.mem_cons, List.not_mem_nil, or_false] at h1
  rcases h1 with rfl | rfl <;> (simp only [Term.nonterminal.injEq] at h2; subst h2; simp [gDnaDoc])

theorem gDnaDoc_met {x : Str} (h : Met gDnaDoc nDna x) : x = nDna ∨ x = nBase := by
  induction h with
  | refl => exact .inl rfl
  | tail _ h _ =>
    obtain ⟨p, hp, e, he, hy⟩ := h
    rcases gDnaDoc_cases hp with ⟨rfl, rfl⟩ | ⟨rfl, rfl⟩
    · simp only [gDnaDoc, List.getElem_cons_zero, List.mem_cons, List.not_mem_nil, or_false] at he
      rcases he with rfl | rfl <;> simp at hy
      · exact .inr hy
      · exact hy.symm
    · simp only [gDnaDoc, letters, List.getElem_cons_succ, List.getElem_cons_zero, List.mem_map] at he
      obtain ⟨c, _, rfl⟩ := he; simp at hy

/-- C103: sequences of the grammar of the documentation have two letters on average. -/
theorem C103_dna {ε : ℚ} (hε : 0 < ε) : ∃ N, ∀ n, N ≤ n → ∃ μ,
    HasMean (fun st => gDnaDoc.generateSeededWithStrategy (RandomWalk tapeRng) n st) (cost 0 1) μ ∧ 2 - ε ≤ μ ∧ μ ≤ 2 := by
  have h0 : IsFirst gDnaDoc nDna gDnaDoc.productions[0] := ⟨[], _, rfl, rfl, by simp⟩
  have h1 : IsFirst gDnaDoc nBase gDnaDoc.productions[1] := ⟨[_], [], rfl, rfl, by simp⟩
  have hbase : ∀ d, Finishable gDnaDoc anyAlternative d nBase := fun d =>
    .expand (e := ⟨[.terminal ['A']]⟩) h1 (by simp [NoChoice, gDnaDoc, letters]) (by simp [anyAlternative, gDnaDoc, letters]) (by simp)
  refine C103_exact (g := gDnaDoc) (start := nDna) ⟨by decide +kernel, _, _, rfl, rfl⟩ (a := 0) (b := 1) (le_refl _) zero_le_one
    (v := fun x => if x = nDna then 2 else if x = nBase then 1 else 0) (w := fun x => if x = nDna then 10 else 1)
    (fun x => by split <;> [norm_num; (split <;> norm_num)])
    (fun x => by split <;> [norm_num; (split <;> norm_num)]) (fun x _ => by split <;> norm_num) (fun x hx => ?_) (fun x hx hd => ?_)
    (fun x p _ hp => ?_) (m := 6 / 10) (by norm_num) (by norm_num) (fun x p _ hp => ?_) hε
  · rcases gDnaDoc_met hx with rfl | rfl
    · exact .expand (e := ⟨[.nonterminal nBase]⟩) h0 (by simp [NoChoice, gDnaDoc]) (by simp [anyAlternative, gDnaDoc])
        (fun m hm => by simp at hm; subst hm; exact hbase _)
    · exact hbase 0
  · rcases gDnaDoc_met hx with rfl | rfl
    · exact absurd ⟨gDnaDoc.productions[0], by simp [gDnaDoc], rfl⟩ hd
    · exact absurd ⟨gDnaDoc.productions[1], by simp [gDnaDoc], rfl⟩ hd
  · rcases gDnaDoc_cases hp with ⟨rfl, rfl⟩ | ⟨rfl, rfl⟩
    · simp [gDnaDoc, altCost, termCost]; norm_num
    · simp [gDnaDoc, letters, altCost, termCost]; norm_num
  · rcases gDnaDoc_cases hp with ⟨rfl, rfl⟩ | ⟨rfl, rfl⟩
    · simp [gDnaDoc, offspring, termWeight]; norm_num
    · simp [gDnaDoc, letters, offspring, termWeight]

end Bnf.Props
