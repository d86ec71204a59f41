import Verif.Proofs.MemoryEnds
import Verif.Props.Bench

/-!
# Property C117: chances in coverage-guided generation

The random source is ideal, as in C78.
-/

set_option autoImplicit false

namespace Bnf.Props
open Bnf Spec

variable {g : Grammar} {start : Str}

theorem generate_starts_mem {M : Type} (h : Starts g start) (S : Strategy (M × (List Nat × ℚ))) (n : Nat) (m : M) :
    (fun st => forget (g.generateSeededWithStrategy S n (m, st))) = fun st => forget (traverse g S (acceptAll _) n start 0 (m, st)) := by
  obtain ⟨h1, p, ps, h2, h3⟩ := h
  funext st
  simp only [Grammar.generateSeededWithStrategy, Grammar.generateWith, h1, h2, h3]
  rfl

/-- C117: the probabilities of the sentences with the coverage-guided strategy, whatever it has seen before: each time all unused alternatives of the
production have the same probability, or all alternatives if none is unused. -/
theorem C117_chance (h : Starts g start) (seen : List (Nat × Nat)) (n : Nat) (P : Str → Bool) :
    HasChance (fun st => forget (g.generateSeededWithStrategy (CoverageGuided tapeRng) n (seen, st))) P ((memDist g coverAlts n seen start).mass P) := by
  rw [generate_starts_mem h]
  exact chance_of_runsM drawsM_coverage n 0 seen start P

/-! ## What is left to use -/

/-- The alternatives, as (position of the production, index). -/
def allPairs (g : Grammar) : List (Nat × Nat) := g.productions.zipIdx.flatMap fun p => (List.range p.1.rhs.length).map fun i => (p.2, i)

/-- The number of alternatives not yet used. -/
def unusedCount (g : Grammar) (seen : List (Nat × Nat)) : Nat := (allPairs g).countP fun a => decide (a ∉ seen)

theorem posOf_get {x : Str} {p : Production} (h : firstOf g x = some p) : g.productions[posOf g x]? = some p := by
  have hf := findProduction_some (firstOf_pos h)
  obtain ⟨b, c, h1, _, _, h4⟩ := hf
  rw [h1]
  simp only [Nat.zero_add] at h4
  rw [h4]
  simp

theorem pair_mem {x : Str} {p : Production} (h : firstOf g x = some p) {i : Nat} (hi : i < p.rhs.length) : (posOf g x, i) ∈ allPairs g := by
  simp only [allPairs, List.mem_flatMap, List.mem_map, List.mem_range]
  exact ⟨(p, posOf g x), List.mem_zipIdx_iff_getElem?.mpr (posOf_get h), i, hi, rfl⟩

theorem unusedCount_le (seen : List (Nat × Nat)) (a : Nat × Nat) : unusedCount g (a :: seen) ≤ unusedCount g seen := by
  refine List.countP_mono_left fun b _ hb => ?_
  simp only [List.mem_cons, not_or, decide_eq_true_eq] at hb ⊢
  exact hb.2

theorem countP_lt {α : Type} {p q : α → Bool} {l : List α} (h : ∀ a ∈ l, p a = true → q a = true) {b : α} (hb : b ∈ l) (h1 : q b = true) (h2 : p b = false) :
    l.countP p < l.countP q := by
  induction l with
  | nil => simp at hb
  | cons a l ih =>
    have hle := List.countP_mono_left (p := p) (q := q) (l := l) fun a ha => h a (List.mem_cons_of_mem _ ha)
    rcases List.mem_cons.mp hb with rfl | hb
    · rw [List.countP_cons, List.countP_cons, h1, h2]
      simp
      omega
    · have := ih (fun a ha => h a (List.mem_cons_of_mem _ ha)) hb
      have ha := h a List.mem_cons_self
      rw [List.countP_cons, List.countP_cons]
      split <;> split <;> first | omega | simp_all

theorem unusedCount_lt {seen : List (Nat × Nat)} {a : Nat × Nat} (h1 : a ∈ allPairs g) (h2 : a ∉ seen) : unusedCount g (a :: seen) < unusedCount g seen := by
  refine countP_lt (fun b _ hb => ?_) h1 (by simpa using h2) (by simp)
  simp only [List.mem_cons, not_or, decide_eq_true_eq] at hb ⊢
  exact hb.2

theorem coverAlts_cases {seen : List (Nat × Nat)} {x : Str} {p : Production} (hf : firstOf g x = some p) :
    ((coverAlts seen (posOf g x) p).map (·.1) = p.rhs ∧ ∀ e ∈ coverAlts seen (posOf g x) p, unusedCount g e.2 ≤ unusedCount g seen) ∨
    (coverAlts seen (posOf g x) p ≠ [] ∧ ∀ e ∈ coverAlts seen (posOf g x) p, e.1 ∈ p.rhs ∧ unusedCount g e.2 < unusedCount g seen) := by
  unfold coverAlts
  split
  · refine .inl ⟨?_, fun e he => ?_⟩
    · rw [List.map_map]
      exact List.zipIdx_map_fst _ _
    · obtain ⟨e', _, rfl⟩ := List.mem_map.mp he
      exact unusedCount_le _ _
  · rename_i hu
    refine .inr ⟨by simpa using hu, fun e he => ?_⟩
    obtain ⟨⟨e', i⟩, he', rfl⟩ := List.mem_map.mp he
    obtain ⟨h1, h2⟩ := List.mem_filter.mp he'
    have h3 := List.mem_zipIdx_iff_getElem?.mp h1
    obtain ⟨h4, h5⟩ := List.getElem?_eq_some_iff.mp h3
    exact ⟨h5 ▸ List.getElem_mem h4, unusedCount_lt (pair_mem hf h4) (by simpa using h2)⟩

/-! ## Everything used -/

/-- Every alternative of every first production was used. -/
def AllUsed (g : Grammar) (seen : List (Nat × Nat)) : Prop := ∀ x p, firstOf g x = some p → ∀ i < p.rhs.length, (posOf g x, i) ∈ seen

theorem AllUsed.alts {seen : List (Nat × Nat)} (h : AllUsed g seen) {x : Str} {p : Production} (hf : firstOf g x = some p) :
    coverAlts seen (posOf g x) p = p.rhs.zipIdx.map fun e => (e.1, (posOf g x, e.2) :: seen) := by
  unfold coverAlts
  rw [if_pos]
  refine List.filter_eq_nil_iff.mpr fun e he => ?_
  obtain ⟨h1, _⟩ := List.getElem?_eq_some_iff.mp (List.mem_zipIdx_iff_getElem?.mp he)
  simpa using h x p hf e.2 h1

theorem memTerms_used {D : List (Nat × Nat) → Str → MemDist (List (Nat × Nat))} {D' : Str → Dist}
    (h : ∀ seen x, AllUsed g seen → (D seen x).map (fun o => (o.1, o.2.2)) = D' x ∧ ∀ o ∈ D seen x, AllUsed g o.2.1) (ts : List Term)
    (seen : List (Nat × Nat)) (hs : AllUsed g seen) :
    (memTerms D ts seen).map (fun o => (o.1, o.2.2)) = distTerms D' ts ∧ ∀ o ∈ memTerms D ts seen, AllUsed g o.2.1 := by
  induction ts generalizing seen with
  | nil => simp [memTerms, distTerms, hs]
  | cons t ts ih =>
    cases t with
    | terminal u =>
      obtain ⟨h1, h2⟩ := ih seen hs
      constructor
      · simp only [memTerms, distTerms, ← h1, List.map_map]; rfl
      · intro o ho
        obtain ⟨o', ho', rfl⟩ := List.mem_map.mp ho
        exact h2 o' ho'
    | nonterminal x =>
      obtain ⟨h1, h2⟩ := h seen x hs
      constructor
      · simp only [memTerms, distTerms, ← h1, List.map_flatMap, List.flatMap_map, List.map_map]
        refine List.flatMap_congr fun o ho => ?_
        rw [← (ih o.2.1 (h2 o ho)).1, List.map_map]
        rfl
      · intro o ho
        simp only [memTerms, List.mem_flatMap, List.mem_map] at ho
        obtain ⟨o1, ho1, o2, ho2, rfl⟩ := ho
        exact (ih o1.2.1 (h2 o1 ho1)).2 o2 ho2

theorem memDist_used (n : Nat) (seen : List (Nat × Nat)) (x : Str) (hs : AllUsed g seen) :
    (memDist g coverAlts n seen x).map (fun o => (o.1, o.2.2)) = Spec.dist g uniformAlts n 0 x ∧ ∀ o ∈ memDist g coverAlts n seen x, AllUsed g o.2.1 := by
  have hdepth : ∀ n d x, Spec.dist g uniformAlts n d x = Spec.dist g uniformAlts n 0 x := by
    intro n
    induction n with
    | zero => intro d x; rfl
    | succ n ih =>
      intro d x
      simp only [Spec.dist]
      rw [show Spec.dist g uniformAlts n (d + 1) = Spec.dist g uniformAlts n (0 + 1) from by funext y; rw [ih, ih (0 + 1)]]
      rfl
  induction n generalizing seen x with
  | zero => simp [memDist, Spec.dist]
  | succ n ih =>
    simp only [memDist, Spec.dist]
    cases hf : firstOf g x with
    | none => simp [hs]
    | some p =>
      simp only
      split
      · simp
      · rw [hs.alts hf]
        have hcons : ∀ i, AllUsed g ((posOf g x, i) :: seen) := fun i y q hq j hj => List.mem_cons_of_mem _ (hs y q hq j hj)
        have key := fun (e : Expression × Nat) => memTerms_used (D := memDist g coverAlts n) (D' := Spec.dist g uniformAlts n 0) ih e.1.terms
          ((posOf g x, e.2) :: seen) (hcons e.2)
        constructor
        · rw [List.flatMap_map, List.map_flatMap]
          simp only [uniformAlts]
          rw [← flatMap_zipIdx _ p.rhs 0]
          refine List.flatMap_congr fun e _ => ?_
          rw [show Spec.dist g uniformAlts n (0 + 1) = Spec.dist g uniformAlts n 0 from by funext y; exact hdepth n (0 + 1) y]
          rw [← (key e).1, List.map_map, List.map_map]
          simp
        · intro o ho
          simp only [List.mem_flatMap, List.mem_map] at ho
          obtain ⟨_, ⟨e, _, rfl⟩, o', ho', rfl⟩ := ho
          exact (key e).2 o' ho'

/-- C117: once all alternatives are used, the probabilities are those of the random walk. -/
theorem C117_all_used (h : Starts g start) {seen : List (Nat × Nat)} (hs : AllUsed g seen) (n : Nat) (P : Str → Bool) {p q : ℚ}
    (hp : HasChance (fun st => forget (g.generateSeededWithStrategy (CoverageGuided tapeRng) n (seen, st))) P p)
    (hq : HasChance (fun st => g.generateSeededWithStrategy (RandomWalk tapeRng) n st) P q) : p = q := by
  rw [hasChance_unique hp (C117_chance h seen n P), hasChance_unique hq (C78_random_walk h n P), ← (memDist_used n seen start hs).1]
  simp only [MemDist.mass, Dist.mass, List.map_map]
  rfl

/-! ## Ending -/

/-- If the random walk ends with probability 1, it does from everything it can meet. -/
theorem endLimit_inherit {x y : Str} (h : endLimit g uniformAlts 0 x = 1) (hr : Refers g x y) : endLimit g uniformAlts 0 y = 1 := by
  obtain ⟨p, hp, e, he, hy⟩ := hr
  have hf := isFirst_firstOf hp
  rw [endLimit_eq, afterOne, hf] at h
  simp only at h
  split at h
  · exact absurd h zero_ne_one
  · simp only [uniformAlts] at h
    have hl : (p.rhs.length : ℝ) ≠ 0 := by
      intro h0
      rw [h0, div_zero] at h
      exact zero_ne_one h
    rw [div_eq_one_iff_eq hl] at h
    have hle : ∀ ts : List Term, (ts.map (termEnds (endLimit g uniformAlts (0 + 1)))).prod ≤ 1 := by
      intro ts
      have := prod_termEnds_mono (q := endLimit g uniformAlts (0 + 1)) (r := fun _ => 1) (fun y => (endLimit_bounds _ y).1) (fun y => (endLimit_bounds _ y).2) ts
      refine this.trans (le_of_eq ?_)
      clear this
      induction ts with
      | nil => rfl
      | cons t ts ih => cases t <;> simp [termEnds, ih]
    have h1 := pointwise_of_sum (l := p.rhs) (f := fun e => (e.terms.map (termEnds (endLimit g uniformAlts (0 + 1)))).prod) (k := fun _ => 1)
      (fun e _ => hle e.terms) (by
        have : (p.rhs.map fun _ => (1 : ℝ)).sum = p.rhs.length := by simp
        rw [this]
        exact h.ge) e he
    have h2 : ∀ ts : List Term, .nonterminal y ∈ ts → (ts.map (termEnds (endLimit g uniformAlts (0 + 1)))).prod ≤ endLimit g uniformAlts (0 + 1) y := by
      intro ts hts
      induction ts with
      | nil => simp at hts
      | cons t ts ih =>
        simp only [List.map_cons, List.prod_cons]
        have hnn := prod_termEnds_nonneg (q := endLimit g uniformAlts (0 + 1)) (fun y => (endLimit_bounds _ y).1) ts
        rcases List.mem_cons.mp hts with rfl | hts
        · simp only [termEnds]
          exact mul_le_of_le_one_right (endLimit_bounds _ y).1 (hle ts)
        · refine le_trans ?_ (ih hts)
          cases t with
          | terminal u => simp [termEnds]
          | nonterminal z => exact mul_le_of_le_one_left hnn (endLimit_bounds _ z).2
    have h3 := h2 e.terms hy
    rw [h1] at h3
    have h4 : endLimit g uniformAlts (0 + 1) y = endLimit g uniformAlts 0 y := endLimit_const (fun p => p.rhs) (0 + 1) y
    rw [h4] at h3
    exact le_antisymm (endLimit_bounds _ y).2 h3

theorem endLimit_of_almostSurely (h : Starts g start) (ha : AlmostSurely fun n st => g.generateSeededWithStrategy (RandomWalk tapeRng) n st) :
    endLimit g uniformAlts 0 start = 1 := by
  refine le_antisymm (endLimit_bounds _ _).2 ?_
  refine le_of_forall_pos_le_add fun ε hε => ?_
  obtain ⟨δ, h1, h2⟩ := exists_rat_btwn hε
  obtain ⟨n, q, h3, h4⟩ := ha δ (by exact_mod_cast h1)
  have h5 := hasChance_unique h3 (C78_random_walk h n _)
  rw [C78_ending] at h5
  have h6 := endChance_le_limit (g := g) (alts := uniformAlts) n 0 start
  rw [← h5] at h6
  have h7 : ((1 - δ : ℚ) : ℝ) ≤ q := by exact_mod_cast h4
  push_cast at h7
  linarith

theorem mass_true_real (n : Nat) (seen : List (Nat × Nat)) :
    (((memDist g coverAlts n seen start).mass fun _ => true : ℚ) : ℝ) = wRuns g coverAlts n start seen fun _ => 1 := by
  rw [← massF_runs]
  simp only [MemDist.mass, massF, if_true, mul_one]
  rw [cast_list_sum, List.map_map]
  rfl

/-- C117: coverage-guided generation ends with probability 1, whatever the strategy has seen, exactly if the random walk does. -/
theorem C117_ends (h : Starts g start) : (∀ seen, AlmostSurely fun n st => forget (g.generateSeededWithStrategy (CoverageGuided tapeRng) n (seen, st))) ↔
    AlmostSurely fun n st => g.generateSeededWithStrategy (RandomWalk tapeRng) n st := by
  constructor
  · intro ha ε hε
    obtain ⟨n, q, h1, h2⟩ := ha (allPairs g) ε hε
    refine ⟨n, _, C78_random_walk h n _, ?_⟩
    rw [← C117_all_used h (seen := allPairs g) (fun x p hf i hi => pair_mem hf hi) n _ h1 (C78_random_walk h n _)]
    exact h2
  · intro ha seen ε hε
    have h1 := endLimit_of_almostSurely h ha
    have hmet : ∀ x, Met g start x → endLimit g uniformAlts 0 x = 1 := by
      intro x hx
      induction hx with
      | refl => exact h1
      | tail _ hr ih => exact endLimit_inherit ih hr
    have h2 := endsM_finite (g := g) (alts := coverAlts) (R := Met g start)
      (fun x p hx hp e he y hy => hx.tail ⟨p, firstOf_isFirst hp, e, he, hy⟩) hmet (unusedCount g) (fun m x p hf => coverAlts_cases hf) _ seen (le_refl _)
      start .refl
    have h3 := endsM_tendsto (g := g) (alts := coverAlts) start seen
    rw [h2] at h3
    have h4 : (((1 - ε : ℚ)) : ℝ) < 1 := by
      have : (0 : ℝ) < ε := by exact_mod_cast hε
      push_cast
      linarith
    obtain ⟨n, hn⟩ := ((tendsto_order.1 h3).1 _ h4).exists
    refine ⟨n, _, C117_chance h seen n _, ?_⟩
    rw [← mass_true_real] at hn
    exact_mod_cast hn.le

/-- C117: the benchmark with postal addresses and the coverage-guided strategy ends with probability 1 each time. -/
theorem C117_postal (seen : List (Nat × Nat)) :
    AlmostSurely fun n st => forget (Postal.grammar.generateSeededWithStrategy (CoverageGuided tapeRng) n (seen, st)) :=
  (C117_ends postal_starts).mpr C116_generating.1 seen

/-- C117: … and so does the one with Polish notation. -/
theorem C117_polish (seen : List (Nat × Nat)) :
    AlmostSurely fun n st => forget (gPolishBench.generateSeededWithStrategy (CoverageGuided tapeRng) n (seen, st)) :=
  (C117_ends gPolishBench_starts).mpr C102_polish_bench seen

/-! ## A grammar with which it does not end -/

theorem triple_used {m : List (Nat × Nat)} (h0 : (0, 0) ∈ m) (h1 : (0, 1) ∈ m) : AllUsed gTriple m := by
  intro x p hf i hi
  have hp := firstOf_mem hf
  simp only [gTriple, List.mem_singleton] at hp
  have hx : x = ['s'] := by
    have := List.find?_some hf
    subst hp
    exact (by simpa using this : ['s'] = x).symm
  subst hx
  subst hp
  simp only [List.length_cons, List.length_nil] at hi
  have : posOf gTriple ['s'] = 0 := by decide
  rw [this]
  rcases i with _ | _ | i
  · exact h0
  · exact h1
  · omega

/-- C117: with `<s> ::= 'x' | <s> <s> <s>` a new coverage-guided strategy has returned a sentence with a probability of at most 0.7, whatever the number of
nested expansions, although it never takes the second alternative again before the first one. -/
theorem C117_witness : gTriple.terminates = some true ∧ ∀ n q,
    HasChance (fun st => forget (gTriple.generateSeededWithStrategy (CoverageGuided tapeRng) n ([], st))) (fun _ => true) q → q ≤ 70 / 100 := by
  refine ⟨by rfl, fun n q hq => ?_⟩
  rw [hasChance_unique hq (C117_chance gTriple_starts [] n _)]
  have hused : ∀ n m, AllUsed gTriple m → wRuns gTriple coverAlts n ['s'] m (fun _ => 1) ≤ 62 / 100 := by
    intro n m hm
    rw [← mass_true_real]
    have h1 := C79_random_walk_witness.2 n _ (C78_random_walk gTriple_starts n _)
    rw [← C117_all_used gTriple_starts hm n _ (C117_chance gTriple_starts m n _) (C78_random_walk gTriple_starts n _)] at h1
    have h2 : (((memDist gTriple coverAlts n m ['s']).mass fun _ => true : ℚ) : ℝ) ≤ ((62 / 100 : ℚ) : ℝ) := by exact_mod_cast h1
    norm_num at h2 ⊢
    exact h2
  have hI : ∀ m x p (e : Expression × List (Nat × Nat)), AllUsed gTriple m → firstOf gTriple x = some p → e ∈ coverAlts m (posOf gTriple x) p →
      AllUsed gTriple e.2 := by
    intro m x p e hm hf he
    rw [hm.alts hf] at he
    obtain ⟨e', _, rfl⟩ := List.mem_map.mp he
    exact fun y q hq j hj => List.mem_cons_of_mem _ (hm y q hq j hj)
  have htwo : ∀ n m, AllUsed gTriple m →
      wRuns gTriple coverAlts n ['s'] m (fun m1 => wRuns gTriple coverAlts n ['s'] m1 fun _ => 1) ≤ 62 / 100 * (62 / 100) := by
    intro n m hm
    refine ((monoI_self hI n ['s'] m hm _ (fun _ => 62 / 100 * 1)
      (fun m1 hm1 => (monoI_self hI n ['s'] m1 hm1 _ _ (fun _ _ => zero_le_one) fun _ _ => le_refl _).1) fun m1 hm1 => ?_).2).trans ?_
    · rw [mul_one]; exact hused n m1 hm1
    · rw [wRuns_scale (62 / 100) n ['s'] m fun _ => 1]
      exact mul_le_mul_of_nonneg_left (hused n m hm) (by norm_num)
  have hreal : wRuns gTriple coverAlts n ['s'] [] (fun _ => 1) ≤ 70 / 100 := by
    have hfirst : firstOf gTriple ['s'] = some gTriple.productions[0] := by rfl
    have hbar : ¬ Barren gTriple.productions[0] := by decide
    have hpos : posOf gTriple ['s'] = 0 := by decide
    cases n with
    | zero => norm_num [wRuns]
    | succ n =>
      have ha : coverAlts [] 0 gTriple.productions[0] = [(⟨[.terminal ['x']]⟩, [(0, 0)]),
        (⟨[.nonterminal ['s'], .nonterminal ['s'], .nonterminal ['s']]⟩, [(0, 1)])] := by decide
      rw [wRuns, hfirst]
      simp only [if_neg hbar, hpos, ha, List.map_cons, List.map_nil, wTerms, List.sum_cons, List.sum_nil, List.length_cons, List.length_nil]
      have : wRuns gTriple coverAlts n ['s'] [(0, 1)] (fun m => wRuns gTriple coverAlts n ['s'] m fun m => wRuns gTriple coverAlts n ['s'] m fun _ => 1) ≤
          62 / 100 * (62 / 100) := by
        cases n with
        | zero => norm_num [wRuns]
        | succ n =>
          have hb : coverAlts [(0, 1)] 0 gTriple.productions[0] = [(⟨[.terminal ['x']]⟩, [(0, 0), (0, 1)])] := by decide
          rw [wRuns, hfirst]
          simp only [if_neg hbar, hpos, hb, List.map_cons, List.map_nil, wTerms, List.sum_cons, List.sum_nil, List.length_cons, List.length_nil]
          have := htwo (n + 1) [(0, 0), (0, 1)] (triple_used (by simp) (by simp))
          simpa using this
      norm_num at this ⊢
      linarith
  rw [← mass_true_real] at hreal
  have h2 : (((memDist gTriple coverAlts n [] ['s']).mass fun _ => true : ℚ) : ℝ) ≤ ((70 / 100 : ℚ) : ℝ) := by
    refine hreal.trans (le_of_eq ?_)
    norm_num
  exact_mod_cast h2

/-! ## Examples -/

/-- `<s> ::= 'x' | 'y'`: after 'x' the strategy chooses 'y'. -/
example : HasChance (fun st => forget ((⟨[⟨.nonterminal ['s'], [⟨[.terminal ['x']]⟩, ⟨[.terminal ['y']]⟩]⟩]⟩ : Grammar).generateSeededWithStrategy
    (CoverageGuided tapeRng) 1 ([(0, 0)], st))) (· == ['y']) 1 := by
  convert C117_chance (g := ⟨[⟨.nonterminal ['s'], [⟨[.terminal ['x']]⟩, ⟨[.terminal ['y']]⟩]⟩]⟩) (start := ['s']) ⟨by rfl, _, _, rfl, rfl⟩ [(0, 0)] 1 _ using 1
  decide +kernel

example : AllUsed gTriple [(0, 1), (0, 0)] := triple_used (by simp) (by simp)

end Bnf.Props
