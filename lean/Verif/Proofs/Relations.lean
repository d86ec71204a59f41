import Mathlib.Tactic.Linarith
import Mathlib.Tactic.Ring
import Mathlib.Tactic.FieldSimp
import Verif.Proofs.Extinction
import Verif.Proofs.Callback
import Verif.Proofs.Debug

/-! # Proofs: how the probabilities under different strategies relate -/

set_option autoImplicit false

namespace Bnf
open Spec

/-! ## The same choices -/

section
variable {ρ Seed : Type}

theorem depthBounded_early (R : Rng ρ Seed) {m d : Nat} (hd : d < m) (rng : ρ) (a : Nat) (p : Production) :
    (DepthBounded R m).choose rng a p d = (RandomWalk R).choose rng a p d := by
  simp only [DepthBounded, RandomWalk, if_neg (Nat.not_le.mpr hd), pickFrom]
  by_cases h : p.rhs.length = 0
  · simp [h]
  · have h1 : List.range p.rhs.length ≠ [] := by simp [h]
    simp only [randomIndex, List.length_range, h, if_false]
    have := R.index_lt rng p.rhs.length (by omega)
    simp [this, h]

end

section
variable {σ : Type} {g : Grammar}

/-- Strategies that choose alike at the depths that can be reached generate alike. -/
theorem traverse_alike {S S' : Strategy σ} {m : Nat} (h : ∀ st a p d, d < m → S.choose st a p d = S'.choose st a p d) (f : Callback σ) :
    ∀ (n d : Nat) (x : Str) (st : σ), n + d ≤ m → traverse g S f n x d st = traverse g S' f n x d st
  | 0, _, _, _, _ => rfl
  | n + 1, d, x, st, hn => by
    cases hfp : findProduction x g.productions 0 with
    | none => rw [traverse_undeclared hfp, traverse_undeclared hfp]
    | some c =>
      obtain ⟨a, p⟩ := c
      by_cases hc : productionHasNoChoice p = true
      · rw [traverse_noChoice hfp hc, traverse_noChoice hfp hc]
      · rw [traverse_choose hfp hc, traverse_choose hfp hc, h st a p d (by omega)]
        have ih : ∀ x st, traverse g S f n x (d + 1) st = traverse g S' f n x (d + 1) st := fun x st => traverse_alike h f n (d + 1) x st (by omega)
        have ih' : ∀ st, traverse g S f n x d st = traverse g S' f n x d st := fun st => traverse_alike h f n d x st (by omega)
        simp only [evalTerms_congr ih, ih']

end

/-! ## Averages -/

/-- The mean of a function over a list. -/
def mean {α : Type} (l : List α) (F : α → ℚ) : ℚ := (l.map F).sum / l.length

/-- The mean over the outcomes, weighted with their probabilities. -/
def expect (D : Dist) (F : Str → ℚ) : ℚ := (D.map fun o => o.2 * F o.1).sum

theorem mass_expect (D : Dist) (P : Str → Bool) : D.mass P = expect D fun s => if P s then 1 else 0 := by
  unfold Dist.mass expect
  congr 1
  refine List.map_congr_left fun o _ => ?_
  by_cases h : P o.1 = true <;> simp [h]

theorem expect_nil (F : Str → ℚ) : expect [] F = 0 := rfl

theorem expect_append (D E : Dist) (F : Str → ℚ) : expect (D ++ E) F = expect D F + expect E F := by simp [expect]

theorem expect_flatMap {α : Type} (l : List α) (D : α → Dist) (F : Str → ℚ) : expect (l.flatMap D) F = (l.map fun a => expect (D a) F).sum := by
  induction l with
  | nil => rfl
  | cons a l ih => rw [List.flatMap_cons, expect_append, ih]; simp

theorem expect_scale (D : Dist) (c : ℚ) (k : Str → Str) (F : Str → ℚ) :
    expect (D.map fun o => (k o.1, c * o.2)) F = c * expect D fun s => F (k s) := by
  unfold expect
  rw [List.map_map, ← sum_map_mul, List.map_map]
  congr 1
  refine List.map_congr_left fun o _ => ?_
  simp only [Function.comp_apply]
  ring

theorem expect_mul (D : Dist) (c : ℚ) (F : Str → ℚ) : expect D (fun s => c * F s) = c * expect D F := by
  unfold expect
  rw [← sum_map_mul, List.map_map]
  congr 1
  refine List.map_congr_left fun o _ => ?_
  simp only [Function.comp_apply]
  ring

theorem expect_terminal (D : Str → Dist) (u : Str) (ts : List Term) (F : Str → ℚ) :
    expect (distTerms D (.terminal u :: ts)) F = expect (distTerms D ts) fun s => F (u ++ s) := by
  simp only [distTerms, expect, List.map_map]
  rfl

theorem expect_nonterminal (D : Str → Dist) (x : Str) (ts : List Term) (F : Str → ℚ) :
    expect (distTerms D (.nonterminal x :: ts)) F = expect (D x) fun s => expect (distTerms D ts) fun s' => F (s ++ s') := by
  simp only [distTerms, expect_flatMap]
  unfold expect
  congr 1
  refine List.map_congr_left fun o _ => ?_
  rw [← sum_map_mul, List.map_map, List.map_map]
  congr 1
  refine List.map_congr_left fun o' _ => ?_
  simp only [Function.comp_apply]
  ring

theorem expect_congr {D : Dist} {F G : Str → ℚ} (h : ∀ s, F s = G s) : expect D F = expect D G := by
  rw [funext h]

theorem expect_terms {D D' : Str → Dist} (h : ∀ x F, expect (D x) F = expect (D' x) F) (ts : List Term) (F : Str → ℚ) :
    expect (distTerms D ts) F = expect (distTerms D' ts) F := by
  induction ts generalizing F with
  | nil => rfl
  | cons t ts ih =>
    cases t with
    | terminal u => rw [expect_terminal, expect_terminal, ih]
    | nonterminal x => rw [expect_nonterminal, expect_nonterminal, h x, expect_congr fun s => ih _]

section
variable {g : Grammar} {alts alts' : Nat → Production → List Expression}

theorem expect_step {x : Str} {p : Production} (hp : firstOf g x = some p) (hb : ¬ Barren p) (n d : Nat) (F : Str → ℚ) :
    expect (dist g alts (n + 1) d x) F = mean (alts d p) fun e => expect (distTerms (dist g alts n (d + 1)) e.terms) F := by
  conv_lhs => unfold Spec.dist
  simp only [hp, hb, if_false, expect_flatMap, mean]
  rw [div_eq_mul_inv, mul_comm, ← sum_map_mul, List.map_map]
  congr 1
  refine List.map_congr_left fun e _ => ?_
  have := expect_scale (distTerms (dist g alts n (d + 1)) e.terms) ((alts d p).length : ℚ)⁻¹ id F
  simp only [Function.comp_apply, id] at this ⊢
  rw [← this]
  congr 1
  refine List.map_congr_left fun o _ => ?_
  rw [div_eq_mul_inv, mul_comm]

theorem expect_none {x : Str} (hp : firstOf g x = none) (n d : Nat) (F : Str → ℚ) : expect (dist g alts (n + 1) d x) F = F x := by
  unfold Spec.dist; simp [hp, expect]

theorem expect_barren {x : Str} {p : Production} (hp : firstOf g x = some p) (hb : Barren p) (n d : Nat) (F : Str → ℚ) :
    expect (dist g alts (n + 1) d x) F = 0 := by
  unfold Spec.dist; simp [hp, hb, expect]

/-- Only the averages over the offered alternatives matter, at the depths that can be reached. -/
theorem expect_alike {m : Nat} (h : ∀ p ∈ g.productions, ∀ d, d < m → ∀ F, mean (alts d p) F = mean (alts' d p) F) :
    ∀ (n d : Nat) (x : Str) (F : Str → ℚ), n + d ≤ m → expect (dist g alts n d x) F = expect (dist g alts' n d x) F := by
  intro n
  induction n with
  | zero => intros; rfl
  | succ n ih =>
    intro d x F hn
    cases hp : firstOf g x with
    | none => rw [expect_none hp, expect_none hp]
    | some p =>
      by_cases hb : Barren p
      · rw [expect_barren hp hb, expect_barren hp hb]
      · rw [expect_step hp hb, expect_step hp hb, h p (firstOf_mem hp) d (by omega)]
        congr 1
        funext e
        exact expect_terms (fun x F => ih (d + 1) x F (by omega)) e.terms F

/-! ## More nested expansions -/

theorem terms_nonneg {D : Str → Dist} (h : ∀ x, ∀ o ∈ D x, 0 ≤ o.2) (ts : List Term) : ∀ o ∈ distTerms D ts, 0 ≤ o.2 := by
  induction ts with
  | nil => intro o ho; rcases List.mem_singleton.mp ho with rfl; norm_num
  | cons t ts ih =>
    intro o ho
    cases t with
    | terminal u =>
      obtain ⟨o', h1, rfl⟩ := List.mem_map.mp ho
      exact ih o' h1
    | nonterminal x =>
      obtain ⟨o1, h1, h2⟩ := List.mem_flatMap.mp ho
      obtain ⟨o2, h3, rfl⟩ := List.mem_map.mp h2
      exact mul_nonneg (h x o1 h1) (ih o2 h3)

theorem dist_nonneg' (n d : Nat) (x : Str) : ∀ o ∈ Spec.dist g alts n d x, 0 ≤ o.2 := by
  induction n generalizing d x with
  | zero => intro o ho; cases ho
  | succ n ih =>
    intro o ho
    unfold Spec.dist at ho
    cases hp : firstOf g x with
    | none => simp only [hp] at ho; rcases List.mem_singleton.mp ho with rfl; norm_num
    | some p =>
      simp only [hp] at ho
      split at ho
      · cases ho
      · obtain ⟨e, _, h2⟩ := List.mem_flatMap.mp ho
        obtain ⟨o', h3, rfl⟩ := List.mem_map.mp h2
        exact div_nonneg (terms_nonneg (fun x => ih (d + 1) x) e.terms o' h3) (Nat.cast_nonneg _)

theorem expect_mono_right {D : Dist} (hD : ∀ o ∈ D, 0 ≤ o.2) {F G : Str → ℚ} (h : ∀ s, F s ≤ G s) : expect D F ≤ expect D G := by
  unfold expect
  exact List.sum_le_sum fun o ho => mul_le_mul_of_nonneg_left (h o.1) (hD o ho)

theorem expect_nonneg {D : Dist} (hD : ∀ o ∈ D, 0 ≤ o.2) {F : Str → ℚ} (h : ∀ s, 0 ≤ F s) : 0 ≤ expect D F := by
  unfold expect
  refine List.sum_nonneg fun z hz => ?_
  obtain ⟨o, ho, rfl⟩ := List.mem_map.mp hz
  exact mul_nonneg (hD o ho) (h o.1)

theorem expect_terms_mono {D D' : Str → Dist} (hD : ∀ x, ∀ o ∈ D x, 0 ≤ o.2) (hD' : ∀ x, ∀ o ∈ D' x, 0 ≤ o.2)
    (h : ∀ x F, (∀ s, 0 ≤ F s) → expect (D x) F ≤ expect (D' x) F) (ts : List Term) (F : Str → ℚ) (hF : ∀ s, 0 ≤ F s) :
    expect (distTerms D ts) F ≤ expect (distTerms D' ts) F := by
  induction ts generalizing F with
  | nil => exact le_refl _
  | cons t ts ih =>
    cases t with
    | terminal u => rw [expect_terminal, expect_terminal]; exact ih _ fun s => hF _
    | nonterminal x =>
      rw [expect_nonterminal, expect_nonterminal]
      refine le_trans (h x _ fun s => expect_nonneg (terms_nonneg hD ts) fun _ => hF _) ?_
      exact expect_mono_right (hD' x) fun s => ih _ fun _ => hF _

theorem mean_mono {α : Type} {l : List α} {F G : α → ℚ} (h : ∀ a ∈ l, F a ≤ G a) : mean l F ≤ mean l G :=
  div_le_div_of_nonneg_right (List.sum_le_sum h) (Nat.cast_nonneg _)

theorem expect_more (n d : Nat) (x : Str) (F : Str → ℚ) (hF : ∀ s, 0 ≤ F s) :
    expect (Spec.dist g alts n d x) F ≤ expect (Spec.dist g alts (n + 1) d x) F := by
  induction n generalizing d x F with
  | zero => exact expect_nonneg (dist_nonneg' 1 d x) hF
  | succ n ih =>
    cases hp : firstOf g x with
    | none => rw [expect_none hp, expect_none hp]
    | some p =>
      by_cases hb : Barren p
      · rw [expect_barren hp hb, expect_barren hp hb]
      · rw [expect_step hp hb, expect_step hp hb]
        exact mean_mono fun e _ => expect_terms_mono (fun x => dist_nonneg' n (d + 1) x) (fun x => dist_nonneg' (n + 1) (d + 1) x)
          (fun x F hF => ih (d + 1) x F hF) e.terms F hF

theorem expect_more_le {n n' : Nat} (h : n ≤ n') (d : Nat) (x : Str) (F : Str → ℚ) (hF : ∀ s, 0 ≤ F s) :
    expect (Spec.dist g alts n d x) F ≤ expect (Spec.dist g alts n' d x) F := by
  induction h with
  | refl => exact le_refl _
  | step _ ih => exact le_trans ih (expect_more _ d x F hF)

theorem mass_more {n n' : Nat} (h : n ≤ n') (d : Nat) (x : Str) (P : Str → Bool) :
    (Spec.dist g alts n d x).mass P ≤ (Spec.dist g alts n' d x).mass P := by
  rw [mass_expect, mass_expect]
  exact expect_more_le h d x _ fun s => by split <;> norm_num

theorem mass_split (D : Dist) (P : Str → Bool) : D.mass P + D.mass (fun s => !P s) = D.mass fun _ => true := by
  induction D with
  | nil => simp [Dist.mass]
  | cons o D ih =>
    simp only [Dist.mass, List.map_cons, List.sum_cons] at ih ⊢
    rw [← ih]
    by_cases h : P o.1 = true <;> simp [h] <;> ring

/-! ## The depth bound -/

theorem boundedAlts_early {m d : Nat} (h : d < m) (p : Production) : boundedAlts m d p = p.rhs := by
  unfold boundedAlts
  simp only
  rw [if_neg]
  rintro ⟨h1, _⟩
  omega

theorem endChance_step_eq {x : Str} {p : Production} (hp : firstOf g x = some p) (hb : ¬ Barren p) (n d : Nat) :
    endChance g alts (n + 1) d x = mean (alts d p) fun e => (e.terms.map (termChance (endChance g alts n (d + 1)))).prod := by
  conv_lhs => unfold endChance
  simp [hp, hb, mean]

theorem endChance_none {x : Str} (hp : firstOf g x = none) (n d : Nat) : endChance g alts (n + 1) d x = 1 := by
  unfold endChance; simp [hp]

theorem endChance_barren {x : Str} {p : Production} (hp : firstOf g x = some p) (hb : Barren p) (n d : Nat) : endChance g alts (n + 1) d x = 0 := by
  unfold endChance; simp [hp, hb]

theorem prod_mono {q r : Str → ℚ} (h0 : ∀ x, 0 ≤ q x) (h : ∀ x, q x ≤ r x) (ts : List Term) :
    0 ≤ (ts.map (termChance q)).prod ∧ (ts.map (termChance q)).prod ≤ (ts.map (termChance r)).prod := by
  induction ts with
  | nil => simp
  | cons t ts ih =>
    simp only [List.map_cons, List.prod_cons]
    have h1 : 0 ≤ termChance q t ∧ termChance q t ≤ termChance r t := by
      cases t with
      | terminal u => simp [termChance]
      | nonterminal x => exact ⟨h0 x, h x⟩
    exact ⟨mul_nonneg h1.1 ih.1, mul_le_mul h1.2 ih.2 ih.1 (le_trans h1.1 h1.2)⟩

theorem mean_one {α : Type} {l : List α} (hl : l ≠ []) {F : α → ℚ} (h : ∀ a ∈ l, F a = 1) : mean l F = 1 := by
  unfold mean
  rw [List.map_congr_left h, List.map_const', List.sum_replicate, nsmul_eq_mul, mul_one]
  have : (l.length : ℚ) ≠ 0 := by
    have := List.length_pos_iff.mpr hl
    positivity
  exact div_self this

theorem flat_prod {q : Str → ℚ} {ts : List Term} (h : ts.all isTerminal = true) : (ts.map (termChance q)).prod = 1 := by
  induction ts with
  | nil => rfl
  | cons t ts ih =>
    simp only [List.all_cons, Bool.and_eq_true] at h
    cases t with
    | terminal u => simp [termChance, ih h.2]
    | nonterminal x => simp [isTerminal] at h

/-- A smaller bound makes ending more likely, and a bound more than none. -/
theorem endChance_bound {m : Nat} (h : ∀ d p, alts d p = p.rhs ∨ (m ≤ d ∧ alts d p = boundedAlts m d p)) :
    ∀ (n d : Nat) (x : Str), endChance g alts n d x ≤ endChance g (boundedAlts m) n d x := by
  intro n
  induction n with
  | zero => intro d x; exact le_refl _
  | succ n ih =>
    intro d x
    cases hp : firstOf g x with
    | none => rw [endChance_none hp, endChance_none hp]
    | some p =>
      by_cases hb : Barren p
      · rw [endChance_barren hp hb, endChance_barren hp hb]
      · have key : mean (boundedAlts m d p) (fun e => (e.terms.map (termChance (endChance g alts n (d + 1)))).prod) ≤
            endChance g (boundedAlts m) (n + 1) d x := by
          rw [endChance_step_eq hp hb]
          exact mean_mono fun e _ => (prod_mono (fun x => (endChance_nonneg g alts n (d + 1) x).1) (ih (d + 1)) e.terms).2
        by_cases hf : m ≤ d ∧ (p.rhs.filter fun e => e.terms.all isTerminal) ≠ []
        · have h1 : endChance g (boundedAlts m) (n + 1) d x = 1 := by
            rw [endChance_step_eq hp hb]
            have h2 : boundedAlts m d p = p.rhs.filter fun e => e.terms.all isTerminal := by
              unfold boundedAlts; simp only [if_pos hf]
            rw [h2]
            exact mean_one hf.2 fun e he => flat_prod (List.mem_filter.mp he).2
          rw [h1]
          exact (endChance_nonneg g alts (n + 1) d x).2
        · have h2 : boundedAlts m d p = p.rhs := by unfold boundedAlts; simp only [if_neg hf]
          have h3 : alts d p = boundedAlts m d p := by
            rcases h d p with h | h
            · rw [h, h2]
            · exact h.2
          rw [endChance_step_eq hp hb, h3]
          exact key

theorem boundedAlts_smaller {m m' : Nat} (h : m ≤ m') (d : Nat) (p : Production) :
    boundedAlts m' d p = p.rhs ∨ (m ≤ d ∧ boundedAlts m' d p = boundedAlts m d p) := by
  unfold boundedAlts
  simp only
  by_cases hf : m' ≤ d ∧ (p.rhs.filter fun e => e.terms.all isTerminal) ≠ []
  · exact .inr ⟨by omega, by rw [if_pos hf, if_pos ⟨by omega, hf.2⟩]⟩
  · exact .inl (if_neg hf)

/-! ## Weights -/

/-- The weight of an alternative. -/
def altWeight (a b : Nat) (p : Production) (e : Expression) : Nat := if p.lhs ∈ e.terms then a else b

theorem sum_replicated {α : Type} (w : α → Nat) (l : List α) (F : α → ℚ) :
    ((l.flatMap fun e => List.replicate (w e) e).map F).sum = (l.map fun e => (w e : ℚ) * F e).sum := by
  induction l with
  | nil => rfl
  | cons e l ih => simp [ih]

theorem length_replicated {α : Type} (w : α → Nat) (l : List α) :
    (((l.flatMap fun e => List.replicate (w e) e).length : Nat) : ℚ) = (l.map fun e => (w e : ℚ)).sum := by
  induction l with
  | nil => rfl
  | cons e l ih => rw [List.flatMap_cons, List.length_append, Nat.cast_add, ih]; simp

theorem replicated_nil {α : Type} (w : α → Nat) (l : List α) :
    (l.flatMap fun e => List.replicate (w e) e) = [] ↔ (l.map fun e => (w e : ℚ)).sum = 0 := by
  rw [← length_replicated, Nat.cast_eq_zero, List.length_eq_zero_iff]

/-- The sum over the alternatives that contain the nonterminal itself. -/
def recSum (p : Production) (F : Expression → ℚ) : ℚ := (p.rhs.map fun e => if p.lhs ∈ e.terms then F e else 0).sum

/-- The sum over the others. -/
def othSum (p : Production) (F : Expression → ℚ) : ℚ := (p.rhs.map fun e => if p.lhs ∈ e.terms then 0 else F e).sum

theorem weighted_sum (a b : Nat) (p : Production) (F : Expression → ℚ) :
    (p.rhs.map fun e => (altWeight a b p e : ℚ) * F e).sum = a * recSum p F + b * othSum p F := by
  unfold recSum othSum altWeight
  induction p.rhs with
  | nil => simp
  | cons e l ih =>
    simp only [List.map_cons, List.sum_cons, ih]
    split <;> ring

theorem rhs_sum (p : Production) (F : Expression → ℚ) : (p.rhs.map F).sum = recSum p F + othSum p F := by
  have := weighted_sum 1 1 p F
  simpa [altWeight] using this

/-- The weighted mean of two groups with means `R / r` and `O / o`; the plain mean if the weights sum to 0. -/
def blend (a b r o R O : ℚ) : ℚ := if a * r + b * o = 0 then (R + O) / (r + o) else (a * R + b * O) / (a * r + b * o)

theorem mean_weighted (a b d : Nat) (p : Production) (F : Expression → ℚ) :
    mean (weightedAlts a b d p) F = blend a b (recSum p fun _ => 1) (othSum p fun _ => 1) (recSum p F) (othSum p F) := by
  have h1 : (p.rhs.map fun e => (altWeight a b p e : ℚ)).sum = a * (recSum p fun _ => 1) + b * (othSum p fun _ => 1) := by
    rw [← weighted_sum]; simp
  have h2 : (p.rhs.length : ℚ) = (recSum p fun _ => 1) + othSum p fun _ => 1 := by
    rw [← rhs_sum]; simp
  have h3 : weightedAlts a b d p = if (p.rhs.flatMap fun e => List.replicate (altWeight a b p e) e) = [] then p.rhs
      else p.rhs.flatMap fun e => List.replicate (altWeight a b p e) e := rfl
  rw [h3]
  unfold blend
  by_cases h : (p.rhs.map fun e => (altWeight a b p e : ℚ)).sum = 0
  · rw [if_pos ((replicated_nil _ _).mpr h), if_pos (by rw [← h1]; exact h)]
    unfold mean
    rw [rhs_sum, h2]
  · rw [if_neg fun h' => h ((replicated_nil _ _).mp h'), if_neg (by rw [← h1]; exact h)]
    unfold mean
    rw [sum_replicated, length_replicated, weighted_sum, h1]

theorem mean_rhs (p : Production) (F : Expression → ℚ) :
    mean p.rhs F = blend 1 1 (recSum p fun _ => 1) (othSum p fun _ => 1) (recSum p F) (othSum p F) := by
  have h2 : (p.rhs.length : ℚ) = (recSum p fun _ => 1) + othSum p fun _ => 1 := by
    rw [← rhs_sum]; simp
  unfold mean blend
  rw [rhs_sum, h2]
  split <;> simp

theorem blend_scale {c : ℚ} (hc : c ≠ 0) (a b r o R O : ℚ) : blend (c * a) (c * b) r o R O = blend a b r o R O := by
  unfold blend
  have h1 : c * a * r + c * b * o = c * (a * r + b * o) := by ring
  have h2 : c * a * R + c * b * O = c * (a * R + b * O) := by ring
  rw [h1, h2]
  by_cases h : a * r + b * o = 0
  · simp [h]
  · rw [if_neg h, if_neg (mul_ne_zero hc h), mul_div_mul_left _ _ hc]

theorem recSum_mono {p : Production} {F G : Expression → ℚ} (h : ∀ e, F e ≤ G e) : recSum p F ≤ recSum p G := by
  unfold recSum
  exact List.sum_le_sum fun e _ => by split <;> simp [h]

theorem othSum_mono {p : Production} {F G : Expression → ℚ} (h : ∀ e, F e ≤ G e) : othSum p F ≤ othSum p G := by
  unfold othSum
  exact List.sum_le_sum fun e _ => by split <;> simp [h]

/-- The arithmetic: shifting weight towards the group with the smaller mean lowers the mean. -/
theorem blend_shift {a b a' b' r o R O E : ℚ} (ha : 0 ≤ a) (hb' : 0 ≤ b') (haa : a ≤ a') (hbb : b' ≤ b) (hr : 0 ≤ r) (ho : 0 ≤ o)
    (hro : r + o ≠ 0) (hR0 : r = 0 → R = 0) (hO0 : o = 0 → O = 0) (hE : E = blend a b r o R O) (hR : R ≤ r * E) :
    blend a' b' r o R O ≤ E := by
  have ha' : 0 ≤ a' := le_trans ha haa
  have hb : 0 ≤ b := le_trans hb' hbb
  have hro' : 0 < r + o := lt_of_le_of_ne (add_nonneg hr ho) (Ne.symm hro)
  unfold blend at hE ⊢
  by_cases hS : a * r + b * o = 0
  · rw [if_pos hS, eq_div_iff hro] at hE
    have h1 : a * r = 0 := by
      have := mul_nonneg ha hr; have := mul_nonneg hb ho; linarith
    have h2 : b * o = 0 := by linarith
    have h3 : b' * o = 0 := by
      rcases mul_eq_zero.mp h2 with h | h
      · rw [show b' = 0 by linarith, zero_mul]
      · rw [h, mul_zero]
    have h4 : b' * O = 0 := by
      rcases mul_eq_zero.mp h3 with h | h
      · rw [h, zero_mul]
      · rw [hO0 h, mul_zero]
    by_cases hS' : a' * r + b' * o = 0
    · rw [if_pos hS', ← hE, mul_div_assoc, div_self hro, mul_one]
    · rw [if_neg hS', h3, h4, add_zero, add_zero] at *
      have : 0 < a' * r := lt_of_le_of_ne (mul_nonneg ha' hr) (Ne.symm hS')
      rw [div_le_iff₀ this]
      have := mul_le_mul_of_nonneg_left hR ha'
      linarith
  · rw [if_neg hS, eq_div_iff hS] at hE
    by_cases hS' : a' * r + b' * o = 0
    · have h1 : a' * r = 0 := by
        have := mul_nonneg ha' hr; have := mul_nonneg hb' ho; linarith
      have h2 : a * r = 0 := by
        have := mul_nonneg ha hr
        have := mul_le_mul_of_nonneg_right haa hr
        linarith
      have h3 : a * R = 0 := by
        rcases mul_eq_zero.mp h2 with h | h
        · rw [h, zero_mul]
        · rw [hR0 h, mul_zero]
      rw [h2, h3, zero_add, zero_add] at hE
      rw [h2, zero_add] at hS
      have hb0 : b ≠ 0 := fun h => hS (by rw [h, zero_mul])
      have h5 : O = E * o := by
        have : b * O = b * (E * o) := by rw [← hE]; ring
        exact mul_left_cancel₀ hb0 this
      rw [if_pos hS', div_le_iff₀ hro', h5]
      linarith
    · rw [if_neg hS']
      have hpos : 0 < a' * r + b' * o := lt_of_le_of_ne (add_nonneg (mul_nonneg ha' hr) (mul_nonneg hb' ho)) (Ne.symm hS')
      rw [div_le_iff₀ hpos]
      rcases eq_or_lt_of_le hb with h0 | h0
      · have : b' = 0 := by linarith
        rw [this, zero_mul, zero_mul, add_zero, add_zero]
        have := mul_le_mul_of_nonneg_left hR ha'
        linarith
      · have h1 : b * (O - E * o) = a * (r * E - R) := by linarith
        have h2 : 0 ≤ O - E * o := by
          have h3 : 0 ≤ b * (O - E * o) := by rw [h1]; exact mul_nonneg ha (by linarith)
          exact nonneg_of_mul_nonneg_right h3 h0
        have h3 := mul_le_mul_of_nonneg_left hR (show 0 ≤ a' - a by linarith)
        have h4 := mul_nonneg (show 0 ≤ b - b' by linarith) h2
        nlinarith

theorem blend_mono {a b r o R O R' O' : ℚ} (ha : 0 ≤ a) (hb : 0 ≤ b) (hr : 0 ≤ r) (ho : 0 ≤ o) (hR : R ≤ R') (hO : O ≤ O') :
    blend a b r o R O ≤ blend a b r o R' O' := by
  unfold blend
  split
  · exact div_le_div_of_nonneg_right (add_le_add hR hO) (add_nonneg hr ho)
  · exact div_le_div_of_nonneg_right (add_le_add (mul_le_mul_of_nonneg_left hR ha) (mul_le_mul_of_nonneg_left hO hb))
      (add_nonneg (mul_nonneg ha hr) (mul_nonneg hb ho))

theorem recSum_zero {p : Production} (h : (recSum p fun _ => 1) = 0) (F : Expression → ℚ) : recSum p F = 0 := by
  unfold recSum at h ⊢
  generalize p.rhs = l at h ⊢
  induction l with
  | nil => rfl
  | cons e l ih =>
    simp only [List.map_cons, List.sum_cons] at h ⊢
    have h1 : 0 ≤ (l.map fun e => if p.lhs ∈ e.terms then (1 : ℚ) else 0).sum := List.sum_nonneg fun z hz => by
      obtain ⟨e, _, rfl⟩ := List.mem_map.mp hz
      split <;> norm_num
    by_cases he : p.lhs ∈ e.terms
    · rw [if_pos he] at h; linarith
    · rw [if_neg he, zero_add] at h ⊢
      exact ih h

theorem othSum_zero {p : Production} (h : (othSum p fun _ => 1) = 0) (F : Expression → ℚ) : othSum p F = 0 := by
  unfold othSum at h ⊢
  generalize p.rhs = l at h ⊢
  induction l with
  | nil => rfl
  | cons e l ih =>
    simp only [List.map_cons, List.sum_cons] at h ⊢
    have h1 : 0 ≤ (l.map fun e => if p.lhs ∈ e.terms then (0 : ℚ) else 1).sum := List.sum_nonneg fun z hz => by
      obtain ⟨e, _, rfl⟩ := List.mem_map.mp hz
      split <;> norm_num
    by_cases he : p.lhs ∈ e.terms
    · rw [if_pos he, zero_add] at h ⊢
      exact ih h
    · rw [if_neg he] at h; linarith

theorem prod_le_factor {q : Str → ℚ} (h : ∀ x, 0 ≤ q x ∧ q x ≤ 1) {x : Str} {ts : List Term} (hx : .nonterminal x ∈ ts) :
    (ts.map (termChance q)).prod ≤ q x := by
  have h1 : ∀ ts : List Term, 0 ≤ (ts.map (termChance q)).prod ∧ (ts.map (termChance q)).prod ≤ 1 := by
    intro ts
    have := prod_mono (fun x => (h x).1) (r := fun _ => 1) (fun x => (h x).2) ts
    refine ⟨this.1, le_trans this.2 (le_of_eq ?_)⟩
    have : ts.map (termChance fun _ => 1) = ts.map fun _ => (1 : ℚ) := List.map_congr_left fun t _ => by cases t <;> rfl
    rw [this]; simp
  induction ts with
  | nil => cases hx
  | cons t ts ih =>
    simp only [List.map_cons, List.prod_cons]
    rcases List.mem_cons.mp hx with rfl | hx
    · simp only [termChance]
      exact mul_le_of_le_one_right (h x).1 (h1 ts).2
    · have h2 : 0 ≤ termChance q t ∧ termChance q t ≤ 1 := by
        cases t with
        | terminal u => simp [termChance]
        | nonterminal y => exact h y
      exact le_trans (mul_le_of_le_one_left (h1 ts).1 h2.2) (ih hx)

theorem endChance_more (n d : Nat) (x : Str) : endChance g alts n d x ≤ endChance g alts (n + 1) d x := by
  rw [← dist_mass, ← dist_mass]
  exact mass_more (Nat.le_succ n) d x _

theorem firstOf_lhs {x : Str} {p : Production} (h : firstOf g x = some p) : p.lhs = .nonterminal x := by
  have := List.find?_some h
  simpa using this

/-- A larger weight for recursive alternatives, or a smaller one for the others, makes ending within any number of nested expansions less likely. -/
theorem endChance_weights {a b a' b' : Nat} (ha : a ≤ a') (hb : b' ≤ b) : ∀ (n d : Nat) (x : Str),
    endChance g (weightedAlts a' b') n d x ≤ endChance g (weightedAlts a b) n d x := by
  have hdepth : ∀ n d d' x, endChance g (weightedAlts a b) n d x = endChance g (weightedAlts a b) n d' x := by
    intro n d d' x
    have h1 : weightedAlts a b = fun _ => weightedAlts a b 0 := by funext d p; rfl
    rw [h1, endChance_const, endChance_const (d := d')]
  intro n
  induction n with
  | zero => intro d x; exact le_refl _
  | succ n ih =>
    intro d x
    cases hp : firstOf g x with
    | none => rw [endChance_none hp, endChance_none hp]
    | some p =>
      by_cases hbar : Barren p
      · rw [endChance_barren hp hbar, endChance_barren hp hbar]
      · have hne : (recSum p fun _ => 1) + (othSum p fun _ => 1) ≠ (0 : ℚ) := by
          rw [← rhs_sum]
          simp only [List.map_const', List.sum_replicate, nsmul_eq_mul, mul_one, ne_eq, Nat.cast_eq_zero]
          intro h
          exact hbar (.inl (List.length_eq_zero_iff.mp h))
        have hr : (0 : ℚ) ≤ recSum p fun _ => 1 := List.sum_nonneg fun z hz => by
          obtain ⟨e, _, rfl⟩ := List.mem_map.mp hz
          split <;> norm_num
        have ho : (0 : ℚ) ≤ othSum p fun _ => 1 := List.sum_nonneg fun z hz => by
          obtain ⟨e, _, rfl⟩ := List.mem_map.mp hz
          split <;> norm_num
        have hq := fun x => endChance_nonneg g (weightedAlts a b) n (d + 1) x
        have hq' := fun x => (endChance_nonneg g (weightedAlts a' b') n (d + 1) x).1
        rw [endChance_step_eq (alts := weightedAlts a' b') hp hbar, mean_weighted]
        refine le_trans (blend_mono (Nat.cast_nonneg _) (Nat.cast_nonneg _) hr ho
          (recSum_mono fun e => (prod_mono hq' (ih (d + 1)) e.terms).2) (othSum_mono fun e => (prod_mono hq' (ih (d + 1)) e.terms).2)) ?_
        refine blend_shift (a := a) (b := b) (Nat.cast_nonneg _) (Nat.cast_nonneg _) (by exact_mod_cast ha) (by exact_mod_cast hb) hr ho hne
          (fun h => recSum_zero h _) (fun h => othSum_zero h _) ?_ ?_
        · rw [endChance_step_eq hp hbar, mean_weighted]
        · have h1 : endChance g (weightedAlts a b) n (d + 1) x ≤ endChance g (weightedAlts a b) (n + 1) d x := by
            rw [hdepth n (d + 1) d x]; exact endChance_more n d x
          have h2 : recSum p (fun e => (e.terms.map (termChance (endChance g (weightedAlts a b) n (d + 1)))).prod) ≤
              recSum p fun _ => endChance g (weightedAlts a b) (n + 1) d x := by
            unfold recSum
            refine List.sum_le_sum fun e _ => ?_
            split
            · rename_i he
              rw [firstOf_lhs hp] at he
              exact le_trans (prod_le_factor hq he) h1
            · exact le_refl _
          refine le_trans h2 (le_of_eq ?_)
          unfold recSum
          rw [mul_comm, ← sum_map_mul, List.map_map]
          congr 1
          refine List.map_congr_left fun e _ => ?_
          simp only [Function.comp_apply]
          split <;> simp

end

end Bnf
