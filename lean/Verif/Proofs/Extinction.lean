import Mathlib.Topology.Order.MonotoneConvergence
import Mathlib.Topology.Algebra.Order.Field
import Mathlib.Topology.Algebra.Monoid
import Mathlib.Topology.Instances.Rat
import Verif.Spec.Extinction
import Verif.Proofs.Chance

/-!
# The probability of ending as the least solution, and branching processes

Helper lemmas for C102.
-/

set_option autoImplicit false

namespace Bnf
open Spec Filter Topology

variable {g : Grammar} {alts : Nat → Production → List Expression}

/-! ## `afterOne` -/

theorem prod_termEnds_nonneg {q : Str → ℝ} (h : ∀ x, 0 ≤ q x) (ts : List Term) : 0 ≤ (ts.map (termEnds q)).prod := by
  induction ts with
  | nil => simp
  | cons t ts ih =>
    simp only [List.map_cons, List.prod_cons]
    refine mul_nonneg ?_ ih
    cases t with
    | terminal u => simp [termEnds]
    | nonterminal x => exact h x

theorem prod_termEnds_mono {q r : Str → ℝ} (h : ∀ x, 0 ≤ q x) (hr : ∀ x, q x ≤ r x) (ts : List Term) :
    (ts.map (termEnds q)).prod ≤ (ts.map (termEnds r)).prod := by
  induction ts with
  | nil => simp
  | cons t ts ih =>
    simp only [List.map_cons, List.prod_cons]
    cases t with
    | terminal u => simpa [termEnds] using ih
    | nonterminal x => exact mul_le_mul (hr x) ih (prod_termEnds_nonneg h ts) (le_trans (h x) (hr x))

theorem sum_map_mono {α : Type} {f k : α → ℝ} {l : List α} (h : ∀ a ∈ l, f a ≤ k a) : (l.map f).sum ≤ (l.map k).sum := by
  induction l with
  | nil => simp
  | cons a l ih =>
    simp only [List.map_cons, List.sum_cons]
    exact add_le_add (h a (by simp)) (ih fun b hb => h b (by simp [hb]))

theorem afterOne_mono {A : Production → List Expression} {q r : Str → ℝ} (h : ∀ x, 0 ≤ q x) (hr : ∀ x, q x ≤ r x) (x : Str) :
    afterOne g A q x ≤ afterOne g A r x := by
  unfold afterOne
  cases firstOf g x with
  | none => simp
  | some p =>
    simp only
    split
    · exact le_refl _
    · exact div_le_div_of_nonneg_right (sum_map_mono fun e _ => prod_termEnds_mono h hr e.terms) (Nat.cast_nonneg _)

theorem cast_list_prod (l : List ℚ) : ((l.prod : ℚ) : ℝ) = (l.map (fun z : ℚ => (z : ℝ))).prod := by
  induction l with
  | nil => simp
  | cons a l ih => simp [ih]

theorem cast_list_sum (l : List ℚ) : ((l.sum : ℚ) : ℝ) = (l.map (fun z : ℚ => (z : ℝ))).sum := by
  induction l with
  | nil => simp
  | cons a l ih => simp [ih]

theorem endChance_succ (n d : Nat) (x : Str) :
    ((endChance g alts (n + 1) d x : ℚ) : ℝ) = afterOne g (alts d) (fun y => ((endChance g alts n (d + 1) y : ℚ) : ℝ)) x := by
  unfold afterOne
  simp only [endChance]
  cases firstOf g x with
  | none => simp
  | some p =>
    simp only
    split
    · simp
    · rw [Rat.cast_div, cast_list_sum, List.map_map]
      congr 2
      · apply List.map_congr_left
        intro e _
        simp only [Function.comp_apply]
        rw [cast_list_prod, List.map_map]
        congr 1
        apply List.map_congr_left
        intro t _
        cases t <;> simp [termChance, termEnds]

theorem endChance_bounds (n d : Nat) (x : Str) : 0 ≤ ((endChance g alts n d x : ℚ) : ℝ) ∧ ((endChance g alts n d x : ℚ) : ℝ) ≤ 1 := by
  have := endChance_nonneg g alts n d x
  exact ⟨by exact_mod_cast this.1, by exact_mod_cast this.2⟩

theorem endChance_step (n d : Nat) (x : Str) : ((endChance g alts n d x : ℚ) : ℝ) ≤ ((endChance g alts (n + 1) d x : ℚ) : ℝ) := by
  induction n generalizing d x with
  | zero => rw [show endChance g alts 0 d x = 0 from by simp [endChance]]; simpa using (endChance_bounds (g := g) (alts := alts) 1 d x).1
  | succ n ih =>
    rw [endChance_succ, endChance_succ]
    exact afterOne_mono (fun y => (endChance_bounds _ _ y).1) (fun y => ih (d + 1) y) x

theorem endChance_mono (d : Nat) (x : Str) : Monotone fun n => ((endChance g alts n d x : ℚ) : ℝ) :=
  monotone_nat_of_le_succ fun n => endChance_step n d x

/-- The probability of ending. -/
noncomputable def endLimit (g : Grammar) (alts : Nat → Production → List Expression) (d : Nat) (x : Str) : ℝ :=
  ⨆ n, ((endChance g alts n d x : ℚ) : ℝ)

theorem endChance_bddAbove (d : Nat) (x : Str) : BddAbove (Set.range fun n => ((endChance g alts n d x : ℚ) : ℝ)) :=
  ⟨1, by rintro _ ⟨n, rfl⟩; exact (endChance_bounds n d x).2⟩

theorem endLimit_tendsto (d : Nat) (x : Str) : Tendsto (fun n => ((endChance g alts n d x : ℚ) : ℝ)) atTop (𝓝 (endLimit g alts d x)) :=
  tendsto_atTop_ciSup (endChance_mono d x) (endChance_bddAbove d x)

theorem endChance_le_limit (n d : Nat) (x : Str) : ((endChance g alts n d x : ℚ) : ℝ) ≤ endLimit g alts d x :=
  le_ciSup (endChance_bddAbove d x) n

theorem endLimit_bounds (d : Nat) (x : Str) : 0 ≤ endLimit g alts d x ∧ endLimit g alts d x ≤ 1 :=
  ⟨le_trans (endChance_bounds 0 d x).1 (endChance_le_limit 0 d x), ciSup_le fun n => (endChance_bounds n d x).2⟩

theorem afterOne_tendsto {A : Production → List Expression} {q : Nat → Str → ℝ} {r : Str → ℝ} (h : ∀ x, Tendsto (fun n => q n x) atTop (𝓝 (r x)))
    (x : Str) : Tendsto (fun n => afterOne g A (q n) x) atTop (𝓝 (afterOne g A r x)) := by
  unfold afterOne
  cases firstOf g x with
  | none => exact tendsto_const_nhds
  | some p =>
    simp only
    split
    · exact tendsto_const_nhds
    · refine Tendsto.div_const ?_ _
      refine tendsto_list_sum (f := fun (e : Expression) n => (e.terms.map (termEnds (q n))).prod) _ fun e _ => ?_
      refine tendsto_list_prod (f := fun (t : Term) n => termEnds (q n) t) _ fun t _ => ?_
      cases t with
      | terminal u => exact tendsto_const_nhds
      | nonterminal y => exact h y

theorem endLimit_eq (d : Nat) (x : Str) : endLimit g alts d x = afterOne g (alts d) (endLimit g alts (d + 1)) x := by
  have h1 := (endLimit_tendsto (g := g) (alts := alts) d x).comp (tendsto_add_atTop_nat 1)
  have h2 : Tendsto (fun n => afterOne g (alts d) (fun y => ((endChance g alts n (d + 1) y : ℚ) : ℝ)) x) atTop
      (𝓝 (afterOne g (alts d) (endLimit g alts (d + 1)) x)) := afterOne_tendsto (fun y => endLimit_tendsto (d + 1) y) x
  refine tendsto_nhds_unique h1 ?_
  refine h2.congr fun n => ?_
  exact (endChance_succ n d x).symm

theorem endLimit_le {v : Nat → Str → ℝ} (h0 : ∀ d x, 0 ≤ v d x) (h : ∀ d x, afterOne g (alts d) (v (d + 1)) x ≤ v d x) (d : Nat) (x : Str) :
    endLimit g alts d x ≤ v d x := by
  refine ciSup_le fun n => ?_
  induction n generalizing d x with
  | zero => simpa [endChance] using h0 d x
  | succ n ih =>
    rw [endChance_succ]
    exact le_trans (afterOne_mono (fun y => (endChance_bounds _ _ y).1) (fun y => ih (d + 1) y) x) (h d x)

theorem endLimit_least : LeastSolution g alts (endLimit g alts) :=
  ⟨fun d x => ⟨(endLimit_bounds d x).1, endLimit_eq d x⟩, fun _ h0 h d x => endLimit_le h0 (fun d x => le_of_eq (h d x).symm) d x⟩

/-- Shifting the depth. -/
theorem endChance_shift (k n d : Nat) (x : Str) : endChance g alts n (k + d) x = endChance g (fun d => alts (k + d)) n d x := by
  induction n generalizing d x with
  | zero => simp [endChance]
  | succ n ih =>
    simp only [endChance]
    have : (fun y => endChance g alts n (k + d + 1) y) = fun y => endChance g (fun d => alts (k + d)) n (d + 1) y := by
      funext y; rw [← ih, Nat.add_assoc]
    rw [show endChance g alts n (k + d + 1) = endChance g (fun d => alts (k + d)) n (d + 1) from this]

theorem endChance_const (A : Production → List Expression) (n d : Nat) (x : Str) :
    endChance g (fun _ => A) n d x = endChance g (fun _ => A) n 0 x := by
  induction n generalizing d x with
  | zero => simp [endChance]
  | succ n ih =>
    simp only [endChance]
    rw [show endChance g (fun _ => A) n (d + 1) = endChance g (fun _ => A) n (0 + 1) from by funext y; rw [ih, ih (0 + 1)]]

theorem endLimit_const (A : Production → List Expression) (d : Nat) (x : Str) : endLimit g (fun _ => A) d x = endLimit g (fun _ => A) 0 x := by
  unfold endLimit
  congr 1
  funext n
  rw [endChance_const]

/-! ## Equality in sums -/

theorem pointwise_of_sum {α : Type} {f k : α → ℝ} {l : List α} (h : ∀ a ∈ l, f a ≤ k a) (hs : (l.map k).sum ≤ (l.map f).sum) :
    ∀ a ∈ l, f a = k a := by
  induction l with
  | nil => simp
  | cons a l ih =>
    simp only [List.map_cons, List.sum_cons] at hs
    have h1 := h a (by simp)
    have h2 : (l.map f).sum ≤ (l.map k).sum := sum_map_mono fun b hb => h b (by simp [hb])
    intro b hb
    rcases List.mem_cons.1 hb with rfl | hb
    · linarith
    · exact ih (fun b hb => h b (by simp [hb])) (by linarith) b hb

/-- The weight of a term, real. -/
noncomputable def tw (v : Str → ℝ) : Term → ℝ
  | .terminal _ => 0
  | .nonterminal x => v x

theorem sum_tw_nonneg {v : Str → ℝ} (h : ∀ x, 0 ≤ v x) (ts : List Term) : 0 ≤ (ts.map (tw v)).sum := by
  induction ts with
  | nil => simp
  | cons t ts ih =>
    simp only [List.map_cons, List.sum_cons]
    cases t with
    | terminal u => simpa [tw] using ih
    | nonterminal x => simp only [tw]; linarith [h x]

/-- The union bound. -/
theorem union_bound {q : Str → ℝ} (h : ∀ x, 0 ≤ q x ∧ q x ≤ 1) (ts : List Term) :
    1 - (ts.map (termEnds q)).prod ≤ (ts.map (tw fun x => 1 - q x)).sum ∧ (ts.map (termEnds q)).prod ≤ 1 := by
  induction ts with
  | nil => simp
  | cons t ts ih =>
    simp only [List.map_cons, List.sum_cons, List.prod_cons]
    cases t with
    | terminal u => simpa [tw, termEnds] using ih
    | nonterminal x =>
      simp only [tw, termEnds]
      have hp := prod_termEnds_nonneg (fun x => (h x).1) ts
      refine ⟨?_, mul_le_one₀ (h x).2 hp ih.2⟩
      nlinarith [mul_nonneg (sub_nonneg.mpr (h x).2) (sub_nonneg.mpr ih.2), ih.1]

/-- Equality in the union bound: at most one term can fail. -/
theorem union_equal {q : Str → ℝ} (h : ∀ x, 0 ≤ q x ∧ q x ≤ 1) {ts : List Term}
    (heq : (ts.map (tw fun x => 1 - q x)).sum ≤ 1 - (ts.map (termEnds q)).prod) :
    (ts.map (tw fun x => 1 - q x)).sum = 0 ∨ ∃ x, .nonterminal x ∈ ts ∧ (ts.map (tw fun x => 1 - q x)).sum = 1 - q x := by
  induction ts with
  | nil => left; simp
  | cons t ts ih =>
    simp only [List.map_cons, List.sum_cons, List.prod_cons] at heq ⊢
    cases t with
    | terminal u =>
      simp only [tw, termEnds, zero_add, one_mul] at heq ⊢
      rcases ih heq with h1 | ⟨x, h1, h2⟩
      · exact .inl h1
      · exact .inr ⟨x, by simp [h1], h2⟩
    | nonterminal x =>
      simp only [tw, termEnds] at heq ⊢
      by_cases hone : q x = 1
      · rw [hone] at heq ⊢
        simp only [sub_self, zero_add, one_mul] at heq ⊢
        rcases ih heq with h1 | ⟨x, h1, h2⟩
        · exact .inl h1
        · exact .inr ⟨x, by simp [h1], h2⟩
      right
      refine ⟨x, by simp, ?_⟩
      have hu := union_bound h ts
      have hx := lt_of_le_of_ne (h x).2 hone
      have hw := sum_tw_nonneg (v := fun x => 1 - q x) (fun x => sub_nonneg.mpr (h x).2) ts
      have h1 : (1 - q x) * (1 - (ts.map (termEnds q)).prod) ≤ 0 := by nlinarith
      have h2 : 1 - (ts.map (termEnds q)).prod ≤ 0 := by
        by_contra hc
        push Not at hc
        have := mul_pos (sub_pos.mpr hx) hc
        linarith
      have h3 : (ts.map (termEnds q)).prod = 1 := by linarith [hu.2]
      rw [h3] at heq
      linarith

/-! ## Not growing -/

theorem exists_max {l : List Str} (hl : l ≠ []) (f : Str → ℝ) : ∃ x ∈ l, ∀ y ∈ l, f y ≤ f x := by
  induction l with
  | nil => exact absurd rfl hl
  | cons a l ih =>
    by_cases h : l = []
    · subst h; exact ⟨a, by simp, by simp⟩
    · obtain ⟨x, h1, h2⟩ := ih h
      by_cases h3 : f x ≤ f a
      · refine ⟨a, by simp, fun y hy => ?_⟩
        rcases List.mem_cons.1 hy with rfl | hy
        · exact le_refl _
        · exact le_trans (h2 y hy) h3
      · refine ⟨x, by simp [h1], fun y hy => ?_⟩
        rcases List.mem_cons.1 hy with rfl | hy
        · linarith
        · exact h2 y hy

/-- Names of the left-hand sides. -/
def lhsNames (g : Grammar) : List Str := g.productions.filterMap fun p => match p.lhs with | .nonterminal x => some x | .terminal _ => none

theorem mem_lhsNames {x : Str} {p : Production} (h : firstOf g x = some p) : x ∈ lhsNames g := by
  have h1 := firstOf_mem h
  have h2 : p.lhs = .nonterminal x := by have := List.find?_some h; simpa using this
  exact List.mem_filterMap.2 ⟨p, h1, by simp [h2]⟩

/-- If the expected weight does not grow and every nonterminal can end, all end almost surely. -/
theorem endLimit_critical {A : Production → List Expression} {R : Str → Prop} {v : Str → ℝ} (hv0 : ∀ x, 0 ≤ v x)
    (hv : ∀ x, R x → endLimit g (fun _ => A) 0 x ≠ 1 → 0 < v x)
    (hR : ∀ x p, R x → firstOf g x = some p → ∀ e ∈ A p, ∀ y, .nonterminal y ∈ e.terms → R y)
    (hb : ∀ x p, R x → firstOf g x = some p → ¬ Barren p ∧ A p ≠ [])
    (hav : ∀ x p, R x → endLimit g (fun _ => A) 0 x ≠ 1 → firstOf g x = some p → ((A p).map fun e => (e.terms.map (tw v)).sum).sum ≤ v x * (A p).length)
    (hfin : ∀ P : Str → Prop, (∀ x p, R x → P x → firstOf g x = some p → ∀ e ∈ A p, ∃ y, .nonterminal y ∈ e.terms ∧ P y) →
      (∀ x, P x → firstOf g x ≠ none) → ∀ x, R x → ¬ P x)
    (x : Str) (hx : R x) : endLimit g (fun _ => A) 0 x = 1 := by
  classical
  set q := endLimit g (fun _ => A) 0 with hq
  have hqb : ∀ x, 0 ≤ q x ∧ q x ≤ 1 := fun x => endLimit_bounds 0 x
  have hqe : ∀ x, q x = afterOne g A q x := by
    intro x
    have := endLimit_eq (g := g) (alts := fun _ => A) 0 x
    rw [show endLimit g (fun _ => A) (0 + 1) = q from by funext y; rw [endLimit_const]] at this
    exact this
  by_contra hne
  have hund : ∀ x, firstOf g x = none → q x = 1 := by
    intro x h
    rw [hqe x, afterOne, h]
  -- the nonterminals that matter
  set X := (lhsNames g).filter fun y => decide (R y ∧ q y < 1) with hX
  have memX : ∀ y, R y → q y < 1 → y ∈ X := by
    intro y hy hlt
    cases hf : firstOf g y with
    | none => rw [hund y hf] at hlt; exact absurd hlt (lt_irrefl _)
    | some p => exact List.mem_filter.2 ⟨mem_lhsNames hf, by simpa using ⟨hy, hlt⟩⟩
  have hlt : q x < 1 := lt_of_le_of_ne (hqb x).2 hne
  have hvX : ∀ y ∈ X, 0 < v y := by
    intro y hy
    have h1 := (List.mem_filter.1 hy).2
    simp only [decide_eq_true_eq] at h1
    exact hv y h1.1 h1.2.ne
  have hXne : X ≠ [] := List.ne_nil_of_mem (memX x hx hlt)
  obtain ⟨m, hm, hmax⟩ := exists_max hXne fun y => (1 - q y) / v y
  set r := (1 - q m) / v m with hr
  have hrpos : 0 < r := lt_of_lt_of_le (div_pos (by linarith) (hvX x (memX x hx hlt))) (hmax x (memX x hx hlt))
  have hle : ∀ y, R y → 1 - q y ≤ r * v y := by
    intro y hy
    by_cases h : q y < 1
    · have := hmax y (memX y hy h)
      rwa [div_le_iff₀ (hvX y (memX y hy h))] at this
    · have := (hqb y).2
      have := mul_nonneg hrpos.le (hv0 y)
      linarith
  have havg : ∀ y p, R y → firstOf g y = some p → ((A p).map fun e => 1 - (e.terms.map (termEnds q)).prod).sum = (1 - q y) * (A p).length := by
    intro y p hy hf
    have h1 := hqe y
    obtain ⟨h2, h3⟩ := hb y p hy hf
    rw [afterOne, hf] at h1
    simp only [if_neg h2] at h1
    have hlen : (0 : ℝ) < (A p).length := by exact_mod_cast List.length_pos_iff.mpr h3
    rw [eq_div_iff hlen.ne'] at h1
    have h4 : ∀ l : List Expression, (l.map fun e => 1 - (e.terms.map (termEnds q)).prod).sum =
        l.length - (l.map fun e => (e.terms.map (termEnds q)).prod).sum := by
      intro l
      induction l with
      | nil => simp
      | cons a l ih => simp only [List.map_cons, List.sum_cons, List.length_cons, Nat.cast_add, Nat.cast_one, ih]; ring
    rw [h4, ← h1]
    ring
  -- the maximum of the ratio is passed on
  have tight : ∀ y p, R y → q y < 1 → 1 - q y = r * v y → firstOf g y = some p → ∀ e ∈ A p,
      (∀ z, .nonterminal z ∈ e.terms → R z ∧ 1 - q z = r * v z) ∧
      (e.terms.map (tw fun x => 1 - q x)).sum = 1 - (e.terms.map (termEnds q)).prod := by
    intro y p hy hlt' hyr hf e he
    have h1 := havg y p hy hf
    have h2 := hav y p hy hlt'.ne hf
    have hte : ∀ e ∈ A p, (e.terms.map (tw fun x => 1 - q x)).sum ≤ r * (e.terms.map (tw v)).sum := by
      intro e he
      have : ∀ ts : List Term, (∀ z, .nonterminal z ∈ ts → R z) → (ts.map (tw fun x => 1 - q x)).sum ≤ r * (ts.map (tw v)).sum := by
        intro ts
        induction ts with
        | nil => simp
        | cons t ts ih =>
          intro h
          have h3 := ih fun z hz => h z (by simp [hz])
          simp only [List.map_cons, List.sum_cons, mul_add]
          cases t with
          | terminal u => simpa [tw] using h3
          | nonterminal z => simp only [tw]; linarith [hle z (h z (by simp))]
      exact this e.terms fun z hz => hR y p hy hf e he z hz
    have hall : ∀ e ∈ A p, 1 - (e.terms.map (termEnds q)).prod = r * (e.terms.map (tw v)).sum := by
      refine pointwise_of_sum (fun e he => le_trans (union_bound hqb e.terms).1 (hte e he)) ?_
      rw [h1, hyr]
      have h5 : ((A p).map fun e => r * (e.terms.map (tw v)).sum).sum = r * ((A p).map fun e => (e.terms.map (tw v)).sum).sum := by
        rw [← List.sum_map_mul_left]
      rw [h5]
      have := mul_le_mul_of_nonneg_left h2 hrpos.le
      linarith
    have h6 := hall e he
    have h7 := (union_bound hqb e.terms).1
    have h8 := hte e he
    have h9 : (e.terms.map (tw fun x => 1 - q x)).sum = r * (e.terms.map (tw v)).sum := by linarith
    refine ⟨fun z hz => ?_, by linarith⟩
    have hz' := hR y p hy hf e he z hz
    have h10 : ∀ t ∈ e.terms, tw (fun x => 1 - q x) t = r * tw v t := by
      refine pointwise_of_sum (fun t ht => ?_) ?_
      · cases t with
        | terminal u => simp [tw]
        | nonterminal z => exact hle z (hR y p hy hf e he z ht)
      · rw [List.sum_map_mul_left]; linarith
    have h11 := h10 _ hz
    simp only [tw] at h11
    exact ⟨hz', h11⟩
  -- among those with the maximal ratio take the ones least likely to end
  set T := X.filter fun y => decide (1 - q y = r * v y) with hT
  have memT : ∀ y, R y → q y < 1 → 1 - q y = r * v y → y ∈ T := fun y h1 h2 h3 => List.mem_filter.2 ⟨memX y h1 h2, by simpa using h3⟩
  have hTR : ∀ y ∈ T, R y ∧ 1 - q y = r * v y := by
    intro y hy
    obtain ⟨h1, h2⟩ := List.mem_filter.1 hy
    exact ⟨by have := (List.mem_filter.1 h1).2; simp only [decide_eq_true_eq] at this; exact this.1, by simpa using h2⟩
  have hmr : 1 - q m = r * v m := by rw [hr, div_mul_cancel₀ _ (hvX m hm).ne']
  have hmT : m ∈ T := List.mem_filter.2 ⟨hm, by simpa using hmr⟩
  obtain ⟨a, haT, hamax⟩ := exists_max (List.ne_nil_of_mem hmT) fun y => 1 - q y
  obtain ⟨haR, har⟩ := hTR a haT
  have hapos : 0 < 1 - q a := by rw [har]; exact mul_pos hrpos (hvX a (List.mem_filter.1 haT).1)
  refine hfin (fun y => R y ∧ 1 - q y = r * v y ∧ 1 - q y = 1 - q a) ?_ ?_ a haR ⟨haR, har, rfl⟩
  · rintro y p hy ⟨_, h1, h2⟩ hf e he
    have hy1 : q y < 1 := by linarith
    have hone : ∀ e ∈ A p, ((e.terms.map (tw fun x => 1 - q x)).sum = 0 ∨
        ∃ z, .nonterminal z ∈ e.terms ∧ (e.terms.map (tw fun x => 1 - q x)).sum = 1 - q z) := by
      intro e he
      obtain ⟨h3, h4⟩ := tight y p hy hy1 h1 hf e he
      exact union_equal hqb (le_of_eq h4)
    have hle' : ∀ e ∈ A p, (e.terms.map (tw fun x => 1 - q x)).sum ≤ 1 - q a := by
      intro e he
      obtain ⟨h3, h4⟩ := tight y p hy hy1 h1 hf e he
      rcases hone e he with h5 | ⟨z, h5, h6⟩
      · linarith
      · rw [h6]
        obtain ⟨h7, h8⟩ := h3 z h5
        by_cases h9 : q z < 1
        · exact hamax z (memT z h7 h9 h8)
        · linarith
    have hall : ∀ e ∈ A p, (e.terms.map (tw fun x => 1 - q x)).sum = 1 - q a := by
      refine pointwise_of_sum (k := fun _ => 1 - q a) hle' ?_
      have h5 := havg y p hy hf
      have h6 : ((A p).map fun e => (e.terms.map (tw fun x => 1 - q x)).sum) = (A p).map fun e => 1 - (e.terms.map (termEnds q)).prod :=
        List.map_congr_left fun e he => (tight y p hy hy1 h1 hf e he).2
      rw [h6, h5, h2]
      simp only [List.map_const', List.sum_replicate, nsmul_eq_mul]
      linarith
    have h5 := hall e he
    rcases hone e he with h6 | ⟨z, h6, h7⟩
    · linarith
    · obtain ⟨h8, h9⟩ := (tight y p hy hy1 h1 hf e he).1 z h6
      exact ⟨z, h6, h8, h9, by linarith⟩
  · rintro y ⟨_, h1, h2⟩ hf
    have := hund y hf
    linarith

/-! ## Growing -/

theorem list_bounded {α : Type} (l : List α) (f : α → ℚ) : ∃ K : ℚ, ∀ a ∈ l, f a ≤ K := by
  induction l with
  | nil => exact ⟨0, by simp⟩
  | cons a l ih =>
    obtain ⟨K, hK⟩ := ih
    refine ⟨max (f a) K, fun b hb => ?_⟩
    rcases List.mem_cons.1 hb with rfl | hb
    · exact le_max_left _ _
    · exact le_trans (hK b hb) (le_max_right _ _)

theorem offspring_nonneg {v : Str → ℚ} (h : ∀ x, 0 ≤ v x) (ts : List Term) : 0 ≤ (ts.map (termWeight v)).sum := by
  induction ts with
  | nil => simp
  | cons t ts ih =>
    simp only [List.map_cons, List.sum_cons]
    cases t with
    | terminal u => simpa [termWeight] using ih
    | nonterminal x => simp only [termWeight]; linarith [h x]

/-- The second Bonferroni inequality. -/
theorem bonferroni {q w : Str → ℚ} (hw : ∀ x, 0 ≤ w x) (hq : ∀ x, 0 ≤ q x ∧ q x ≤ 1 - w x) (ts : List Term) :
    (ts.map (termChance q)).prod ≤ 1 - (ts.map (termWeight w)).sum + (ts.map (termWeight w)).sum ^ 2 ∧
    0 ≤ (ts.map (termChance q)).prod ∧ (ts.map (termChance q)).prod ≤ 1 := by
  induction ts with
  | nil => simp
  | cons t ts ih =>
    obtain ⟨h1, h2, h3⟩ := ih
    simp only [List.map_cons, List.sum_cons, List.prod_cons]
    cases t with
    | terminal u => simpa [termChance, termWeight] using ⟨h1, h2, h3⟩
    | nonterminal x =>
      simp only [termChance, termWeight]
      have hs := offspring_nonneg hw ts
      have hx := hw x
      obtain ⟨hx0, hx1⟩ := hq x
      refine ⟨?_, mul_nonneg hx0 h2, mul_le_one₀ (by linarith) h2 h3⟩
      have h4 : q x * (ts.map (termChance q)).prod ≤ (1 - w x) * (ts.map (termChance q)).prod := mul_le_mul_of_nonneg_right hx1 h2
      have h5 : (1 - w x) * (ts.map (termChance q)).prod ≤
          (1 - w x) * (1 - (ts.map (termWeight w)).sum + (ts.map (termWeight w)).sum ^ 2) := mul_le_mul_of_nonneg_left h1 (by linarith)
      nlinarith [mul_nonneg hx hs, mul_nonneg hx (sq_nonneg (ts.map (termWeight w)).sum), sq_nonneg (w x)]

/-- If the expected weight grows by a factor of more than 1, the probabilities of ending stay below `1 - ε * v x`. -/
theorem endChance_supercritical {A : Production → List Expression} {v : Str → ℚ} (hv : ∀ x, 0 ≤ v x) (hund : ∀ x, firstOf g x = none → v x = 0)
    (hA : ∀ p ∈ g.productions, ∀ e ∈ A p, e ∈ p.rhs) {m : ℚ} (hm : 1 < m)
    (hav : ∀ x p, firstOf g x = some p → ¬ Barren p → m * v x * (A p).length ≤ ((A p).map (offspring v)).sum) :
    ∃ ε : ℚ, 0 < ε ∧ ∀ n d x, endChance g (fun _ => A) n d x ≤ 1 - ε * v x := by
  obtain ⟨K1, hK1⟩ := list_bounded (g.productions.flatMap fun p => p.rhs) (offspring v)
  obtain ⟨K2, hK2⟩ := list_bounded (lhsNames g) v
  set K := max 1 (max K1 K2) with hK
  have hK0 : 1 ≤ K := le_max_left _ _
  have hV : ∀ x p, firstOf g x = some p → ∀ e ∈ A p, offspring v e ≤ K := by
    intro x p hf e he
    have h1 := firstOf_mem hf
    exact le_trans (hK1 e (List.mem_flatMap.2 ⟨p, h1, hA p h1 e he⟩)) (le_trans (le_max_left _ _) (le_max_right _ _))
  have hvK : ∀ x, v x ≤ K := by
    intro x
    cases hf : firstOf g x with
    | none => rw [hund x hf]; linarith
    | some p => exact le_trans (hK2 x (mem_lhsNames hf)) (le_trans (le_max_right _ _) (le_max_right _ _))
  set ε := (1 - 1 / m) / K with hε
  have hm0 : (0 : ℚ) < m := by linarith
  have h1m : 1 / m < 1 := by rw [div_lt_one hm0]; exact hm
  have h1m' : 0 < 1 / m := by positivity
  have hεpos : 0 < ε := div_pos (by linarith) (by linarith)
  have hεK : ε * K = 1 - 1 / m := div_mul_cancel₀ _ (by linarith)
  have hε1 : ∀ x, ε * v x ≤ 1 := fun x => by
    have := mul_le_mul_of_nonneg_left (hvK x) hεpos.le
    linarith
  refine ⟨ε, hεpos, fun n => ?_⟩
  induction n with
  | zero => intro d x; simp only [endChance]; linarith [hε1 x]
  | succ n ih =>
    intro d x
    simp only [endChance]
    cases hf : firstOf g x with
    | none => simp only; rw [hund x hf]; simp
    | some p =>
      simp only
      by_cases hb : Barren p
      · rw [if_pos hb]; linarith [hε1 x]
      · rw [if_neg hb]
        rcases Nat.eq_zero_or_pos (A p).length with h0 | h0
        · rw [h0]; simp only [Nat.cast_zero, div_zero]; linarith [hε1 x]
        have hlen : (0 : ℚ) < (A p).length := by exact_mod_cast h0
        rw [div_le_iff₀ hlen]
        have hscale : ∀ ts : List Term, (ts.map (termWeight fun x => ε * v x)).sum = ε * (ts.map (termWeight v)).sum := by
          intro ts
          induction ts with
          | nil => simp
          | cons t ts iht => cases t <;> simp [termWeight, iht, mul_add]
        have hs : ∀ es : List Expression, (∀ e ∈ es, offspring v e ≤ K) →
            (es.map fun e => (e.terms.map (termChance (endChance g (fun _ => A) n (d + 1)))).prod).sum ≤
              es.length - ε / m * (es.map (offspring v)).sum := by
          intro es
          induction es with
          | nil => simp
          | cons e es ihe =>
            intro hes
            have h1 := (bonferroni (q := endChance g (fun _ => A) n (d + 1)) (w := fun x => ε * v x)
              (fun x => mul_nonneg hεpos.le (hv x)) (fun x => ⟨(endChance_nonneg g _ n (d + 1) x).1, ih (d + 1) x⟩) e.terms).1
            rw [hscale] at h1
            have h2 := ihe fun e he => hes e (by simp [he])
            have h3 := hes e (by simp)
            have h4 : 0 ≤ offspring v e := offspring_nonneg hv e.terms
            have h5 : offspring v e = (e.terms.map (termWeight v)).sum := rfl
            rw [← h5] at h1
            simp only [List.map_cons, List.sum_cons, List.length_cons, Nat.cast_add, Nat.cast_one]
            have h6 : (ε * offspring v e) ^ 2 ≤ ε * offspring v e * (1 - 1 / m) := by
              rw [pow_two, ← hεK]
              exact mul_le_mul_of_nonneg_left (mul_le_mul_of_nonneg_left h3 hεpos.le) (mul_nonneg hεpos.le h4)
            have h7 : ε * offspring v e * (1 - 1 / m) = ε * offspring v e - ε / m * offspring v e := by field_simp
            rw [h7] at h6
            rw [mul_add]
            linarith
        have h8 := hs (A p) (hV x p hf)
        have h9 := hav x p hf hb
        have h10 : ε / m * (m * v x * (A p).length) ≤ ε / m * ((A p).map (offspring v)).sum :=
          mul_le_mul_of_nonneg_left h9 (div_nonneg hεpos.le hm0.le)
        have h11 : ε / m * (m * v x * (A p).length) = ε * v x * (A p).length := by field_simp
        rw [h11] at h10
        linarith

/-! ## Conditions -/

theorem firstOf_isFirst {x : Str} {p : Production} (h : firstOf g x = some p) : IsFirst g x p := by
  unfold firstOf at h
  obtain ⟨h1, before, after, h2, h3⟩ := List.find?_eq_some_iff_append.1 h
  exact ⟨before, after, h2, by simpa using h1, fun q hq hl => by have := h3 q hq; simp [hl] at this⟩

theorem isFirst_firstOf {x : Str} {p : Production} (h : IsFirst g x p) : firstOf g x = some p := by
  obtain ⟨before, after, h1, h2, h3⟩ := h
  unfold firstOf
  rw [h1]
  exact List.find?_eq_some_iff_append.2 ⟨by simp [h2], before, after, rfl, fun q hq => by simpa using h3 q hq⟩

theorem firstOf_declared {x : Str} : firstOf g x = none ↔ ¬ Declared g x := by
  unfold firstOf Declared
  rw [List.find?_eq_none]
  simp

theorem finishable_avoids {A : Production → List Expression} {R : Str → Prop} {B : Allowance} (hB : ∀ d p e, p ∈ g.productions → B d p e → e ∈ A p)
    (hR : ∀ x p, R x → firstOf g x = some p → ∀ e ∈ A p, ∀ y, .nonterminal y ∈ e.terms → R y) {P : Str → Prop}
    (hP : ∀ x p, R x → P x → firstOf g x = some p → ∀ e ∈ A p, ∃ y, .nonterminal y ∈ e.terms ∧ P y)
    (hd : ∀ x, P x → firstOf g x ≠ none) {d : Nat} {x : Str} (h : Finishable g B d x) (hx : R x) : ¬ P x := by
  induction h with
  | undeclared h => exact fun hp => hd _ hp (firstOf_declared.2 h)
  | expand h1 h2 h3 h4 ih =>
    intro hp
    have hf := isFirst_firstOf h1
    have he := hB _ _ _ (firstOf_mem hf) h3
    obtain ⟨y, hy1, hy2⟩ := hP _ _ hx hp hf _ he
    exact ih y hy1 (hR _ _ hx hf _ he y hy1) hy2

theorem finishable_choice {B : Allowance} {d : Nat} {x : Str} (h : Finishable g B d x) {p : Production} (hp : firstOf g x = some p) :
    ¬ Barren p ∧ ∃ d e, B d p e := by
  cases h with
  | undeclared h => rw [firstOf_declared.2 h] at hp; cases hp
  | expand h1 h2 h3 h4 =>
    rw [isFirst_firstOf h1] at hp
    injection hp with hp
    subst hp
    exact ⟨h2, _, _, h3⟩

theorem tw_cast (v : Str → ℚ) (ts : List Term) : (ts.map (tw fun x => (v x : ℝ))).sum = (((ts.map (termWeight v)).sum : ℚ) : ℝ) := by
  induction ts with
  | nil => simp
  | cons t ts ih => cases t <;> simp [tw, termWeight, ih]

/-- `endLimit_critical` with conditions on reachable nonterminals and rational weights, rank by rank. -/
theorem endLimit_fair {A : Production → List Expression} {B : Allowance} (hB : ∀ d p e, p ∈ g.productions → B d p e → e ∈ A p)
    {R : Str → Prop} (hR : ∀ x p, R x → firstOf g x = some p → ∀ e ∈ A p, ∀ y, .nonterminal y ∈ e.terms → R y)
    (rank : Str → Nat) (hrank : ∀ x p, R x → firstOf g x = some p → ∀ e ∈ A p, ∀ y, .nonterminal y ∈ e.terms → rank y ≤ rank x)
    {v : Str → ℚ} (hv0 : ∀ x, 0 ≤ v x) (hv : ∀ x, Declared g x → 0 < v x) (hfin : ∀ x, R x → ∃ d, Finishable g B d x)
    (hav : ∀ x p, R x → firstOf g x = some p → ((A p).map (offspring (sameRank rank v x))).sum ≤ v x * (A p).length) (x : Str) (hx : R x) :
    endLimit g (fun _ => A) 0 x = 1 := by
  suffices ∀ k x, R x → rank x < k → endLimit g (fun _ => A) 0 x = 1 from this _ x hx (Nat.lt_succ_self _)
  intro k
  induction k with
  | zero => intro x _ h; exact absurd h (Nat.not_lt_zero _)
  | succ k ihk =>
    intro x hx hk
    have hund : ∀ x, firstOf g x = none → endLimit g (fun _ => A) 0 x = 1 := by
      intro x h; rw [endLimit_eq, afterOne, h]
    refine endLimit_critical (R := fun x => R x ∧ rank x ≤ k) (v := fun x => ((if rank x = k then v x else 0 : ℚ) : ℝ)) (fun x => ?_)
      (fun x hx hne => ?_) (fun x p hx hp e he y hy => ⟨hR x p hx.1 hp e he y hy, le_trans (hrank x p hx.1 hp e he y hy) hx.2⟩)
      (fun x p hx hp => ?_) (fun x p hx hne hp => ?_) (fun P hP hd x hx => ?_) x ⟨hx, by omega⟩
    · split
      · exact_mod_cast hv0 x
      · simp
    · have h1 : rank x = k := by
        by_contra hc
        exact hne (ihk x hx.1 (by have := hx.2; omega))
      rw [if_pos h1]
      exact_mod_cast hv x (by by_contra hc; exact hne (hund x (firstOf_declared.2 hc)))
    · obtain ⟨d, h⟩ := hfin x hx.1
      obtain ⟨h1, d, e, h2⟩ := finishable_choice h hp
      exact ⟨h1, List.ne_nil_of_mem (hB _ _ _ (firstOf_mem hp) h2)⟩
    · have hrk : rank x = k := by
        by_contra hc
        exact hne (ihk x hx.1 (by have := hx.2; omega))
      have h1 := hav x p hx.1 hp
      have h2 : ((A p).map fun e => (e.terms.map (tw fun x => ((if rank x = k then v x else 0 : ℚ) : ℝ))).sum).sum =
          ((((A p).map (offspring (sameRank rank v x))).sum : ℚ) : ℝ) := by
        rw [cast_list_sum, List.map_map]
        congr 1
        apply List.map_congr_left
        intro e _
        rw [tw_cast]
        simp only [Function.comp_apply, offspring]
        rw [show sameRank rank v x = fun y => if rank y = k then v y else 0 from by funext y; simp [sameRank, hrk]]
      rw [h2, if_pos hrk]
      exact_mod_cast h1
    · obtain ⟨d, h⟩ := hfin x hx.1
      exact finishable_avoids hB (R := fun x => R x ∧ rank x ≤ k)
        (fun x p hx hp e he y hy => ⟨hR x p hx.1 hp e he y hy, le_trans (hrank x p hx.1 hp e he y hy) hx.2⟩) hP hd h hx

/-- From probability 1 at one depth to smaller depths. -/
theorem endLimit_up {R : Str → Prop} {k : Nat}
    (hR : ∀ d x p, d < k → R x → firstOf g x = some p → ¬ Barren p ∧ alts d p ≠ [] ∧ ∀ e ∈ alts d p, ∀ y, .nonterminal y ∈ e.terms → R y)
    (h : ∀ x, R x → endLimit g alts k x = 1) (j : Nat) (hj : j ≤ k) (x : Str) (hx : R x) : endLimit g alts (k - j) x = 1 := by
  induction j generalizing x with
  | zero => exact h x hx
  | succ j ih =>
    rw [endLimit_eq, afterOne]
    cases hf : firstOf g x with
    | none => rfl
    | some p =>
      obtain ⟨h1, h2, h3⟩ := hR (k - (j + 1)) x p (by omega) hx hf
      simp only [if_neg h1]
      have hlen : (0 : ℝ) < (alts (k - (j + 1)) p).length := by exact_mod_cast List.length_pos_iff.mpr h2
      rw [div_eq_one_iff_eq hlen.ne']
      have h4 : ∀ e ∈ alts (k - (j + 1)) p, (e.terms.map (termEnds (endLimit g alts (k - (j + 1) + 1)))).prod = 1 := by
        intro e he
        refine List.prod_eq_one fun z hz => ?_
        obtain ⟨t, ht, rfl⟩ := List.mem_map.1 hz
        cases t with
        | terminal u => rfl
        | nonterminal y =>
          simp only [termEnds]
          rw [show k - (j + 1) + 1 = k - j from by omega]
          exact ih (by omega) y (h3 e he y ht)
      rw [List.map_congr_left h4]
      simp

theorem exists_close {d : Nat} {x : Str} (h : endLimit g alts d x = 1) {ε : ℚ} (hε : 0 < ε) : ∃ n, 1 - ε ≤ endChance g alts n d x := by
  have h1 := endLimit_tendsto (g := g) (alts := alts) d x
  rw [h] at h1
  have h2 : (((1 - ε : ℚ)) : ℝ) < 1 := by
    have : (0 : ℝ) < ε := by exact_mod_cast hε
    push_cast
    linarith
  obtain ⟨n, hn⟩ := ((tendsto_order.1 h1).1 _ h2).exists
  exact ⟨n, by exact_mod_cast hn.le⟩

theorem mem_weightedAlts {x y : Nat} {d : Nat} {p : Production} {e : Expression} : e ∈ weightedAlts x y d p ↔ weightAllowance x y d p e := by
  have h0 : ∀ e : Expression, altWeight x y p e = if p.lhs ∈ e.terms then x else y := by
    intro e; unfold altWeight; split <;> simp_all
  unfold weightedAlts weightAllowance
  simp only [h0]
  split
  · rename_i h
    rw [List.flatMap_eq_nil_iff] at h
    constructor
    · intro he
      exact ⟨he, .inr fun e' he' => by simpa using h e' he'⟩
    · exact fun h => h.1
  · rename_i h
    rw [List.mem_flatMap]
    constructor
    · rintro ⟨e', h1, h2⟩
      obtain ⟨h3, rfl⟩ := List.mem_replicate.1 h2
      exact ⟨h1, .inl (Nat.pos_of_ne_zero h3)⟩
    · rintro ⟨h1, h2 | h2⟩
      · exact ⟨e, h1, List.mem_replicate.2 ⟨by omega, rfl⟩⟩
      · exact absurd (List.flatMap_eq_nil_iff.2 fun e' he' => by rw [h2 e' he']; rfl) h

theorem isTerminal_all {e : Expression} : e.terms.all isTerminal = true ↔ AllTerminal e := by
  rw [List.all_eq_true]
  constructor
  · intro h t ht
    have := h t ht
    cases t with
    | terminal s => exact ⟨s, rfl⟩
    | nonterminal s => simp [isTerminal] at this
  · intro h t ht
    obtain ⟨s, rfl⟩ := h t ht
    rfl

theorem mem_boundedAlts {m d : Nat} {p : Production} {e : Expression} : e ∈ boundedAlts m d p ↔ depthAllowance m d p e := by
  unfold boundedAlts depthAllowance
  simp only
  split
  · rename_i h
    obtain ⟨h1, h2⟩ := h
    obtain ⟨e0, he0⟩ := List.exists_mem_of_ne_nil _ h2
    rw [List.mem_filter] at he0 ⊢
    rw [isTerminal_all] at he0 ⊢
    constructor
    · rintro ⟨h3, h4⟩; exact ⟨h3, fun _ => .inl h4⟩
    · rintro ⟨h3, h4⟩
      refine ⟨h3, ?_⟩
      rcases h4 h1 with h5 | h5
      · exact h5
      · exact absurd he0.2 (h5 _ he0.1)
  · rename_i h
    constructor
    · intro h1
      refine ⟨h1, fun h2 => .inr fun e' he' ha => h ⟨h2, List.ne_nil_of_mem (List.mem_filter.2 ⟨he', isTerminal_all.2 ha⟩)⟩⟩
    · exact fun h => h.1

end Bnf
