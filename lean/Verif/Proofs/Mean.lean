import Verif.Spec.Mean
import Verif.Proofs.Extinction

/-!
# Expected costs of generation

Helper lemmas for C103.
-/

set_option autoImplicit false

namespace Bnf
open Spec Filter Topology

/-! ## Sums over runs -/

def runWeight (rs : List Run) : ℚ := (rs.map fun r => r.2.1).sum

def runCost (a b : ℚ) (rs : List Run) : ℚ := (rs.map fun r => r.2.1 * (a * r.1.length + b * r.2.2.length)).sum

/-- The expected cost of terms, from the probabilities `q` and expected costs `M` of nonterminals. -/
def tally (b : ℚ) (q M : Str → ℚ) : List Term → ℚ
  | [] => 0
  | .terminal u :: ts => tally b q M ts + b * u.length * (ts.map (termChance q)).prod
  | .nonterminal x :: ts => M x * (ts.map (termChance q)).prod + q x * tally b q M ts

theorem runWeight_map {f : Run → Run} {c : ℚ} (h : ∀ r, (f r).2.1 = c * r.2.1) (rs : List Run) : runWeight (rs.map f) = c * runWeight rs := by
  unfold runWeight
  induction rs with
  | nil => simp
  | cons r rs ih =>
    simp only [List.map_cons, List.sum_cons, mul_add, h] at ih ⊢
    rw [ih]

theorem runWeight_terms {rs : Str → List Run} {q : Str → ℚ} (h : ∀ x, runWeight (rs x) = q x) (ts : List Term) :
    runWeight (runsTerms rs ts) = (ts.map (termChance q)).prod := by
  induction ts with
  | nil => simp [runsTerms, runWeight]
  | cons t ts ih =>
    cases t with
    | terminal u =>
      simp only [runsTerms, List.map_cons, List.prod_cons, termChance]
      rw [runWeight_map (c := 1) (fun r => by simp), ih]
    | nonterminal x =>
      simp only [runsTerms, List.map_cons, List.prod_cons, termChance]
      rw [← h x, ← ih]
      generalize rs x = l
      induction l with
      | nil => simp [runWeight]
      | cons r l ihl =>
        simp only [List.flatMap_cons]
        have : ∀ l l' : List Run, runWeight (l ++ l') = runWeight l + runWeight l' := by intro l l'; simp [runWeight]
        rw [this, ihl, runWeight_map (c := r.2.1) (fun r' => rfl)]
        simp only [runWeight, List.map_cons, List.sum_cons]
        ring

theorem runCost_append (a b : ℚ) (l l' : List Run) : runCost a b (l ++ l') = runCost a b l + runCost a b l' := by simp [runCost]

/-- Putting a run before others. -/
theorem runCost_map {a b : ℚ} {f : Run → Run} {c k : ℚ}
    (h : ∀ r, (f r).2.1 = c * r.2.1 ∧ a * ((f r).1.length : ℚ) + b * (f r).2.2.length = k + (a * r.1.length + b * r.2.2.length)) (rs : List Run) :
    runCost a b (rs.map f) = c * (k * runWeight rs + runCost a b rs) := by
  unfold runCost runWeight
  induction rs with
  | nil => simp
  | cons r rs ih =>
    simp only [List.map_cons, List.sum_cons] at ih ⊢
    rw [ih, (h r).1, (h r).2]
    ring

theorem runCost_terms {a b : ℚ} {rs : Str → List Run} {q M : Str → ℚ} (h : ∀ x, runWeight (rs x) = q x) (hM : ∀ x, runCost a b (rs x) = M x)
    (ts : List Term) : runCost a b (runsTerms rs ts) = tally b q M ts := by
  induction ts with
  | nil => simp [runsTerms, runCost, tally]
  | cons t ts ih =>
    cases t with
    | terminal u =>
      simp only [runsTerms, tally]
      rw [runCost_map (c := 1) (k := b * u.length) (fun r => ⟨by simp, by simp only [List.length_append, Nat.cast_add]; ring⟩), ih,
        runWeight_terms h]
      ring
    | nonterminal x =>
      simp only [runsTerms, tally]
      rw [← h x, ← hM x, ← ih, ← runWeight_terms h]
      generalize rs x = l
      induction l with
      | nil => simp [runCost, runWeight]
      | cons r l ihl =>
        simp only [List.flatMap_cons]
        rw [runCost_append, ihl, runCost_map (c := r.2.1) (k := a * r.1.length + b * r.2.2.length)
          (fun r' => ⟨rfl, by simp only [List.length_append, Nat.cast_add]; ring⟩)]
        simp only [runCost, runWeight, List.map_cons, List.sum_cons]
        ring

variable {g : Grammar} {alts : Nat → Production → List Expression}

theorem runWeight_runs (n d : Nat) (x : Str) : runWeight (runs g alts n d x) = endChance g alts n d x := by
  rw [← dist_mass, mass_true, ← runs_dist, List.map_map]
  rfl

/-- The expected cost within `n` nested expansions. -/
def meanCost (g : Grammar) (alts : Nat → Production → List Expression) (a b : ℚ) (n d : Nat) (x : Str) : ℚ := runCost a b (runs g alts n d x)

theorem meanCost_zero (a b : ℚ) (d : Nat) (x : Str) : meanCost g alts a b 0 d x = 0 := by simp [meanCost, runs, runCost]

theorem meanCost_none {a b : ℚ} {n d : Nat} {x : Str} (h : firstOf g x = none) : meanCost g alts a b (n + 1) d x = b * x.length := by
  simp [meanCost, runs, h, runCost]

theorem meanCost_barren {a b : ℚ} {n d : Nat} {x : Str} {p : Production} (h : firstOf g x = some p) (hb : Barren p) :
    meanCost g alts a b (n + 1) d x = 0 := by
  simp [meanCost, runs, h, if_pos hb, runCost]

theorem meanCost_some {a b : ℚ} {n d : Nat} {x : Str} {p : Production} (h : firstOf g x = some p) (hb : ¬ Barren p) :
    meanCost g alts a b (n + 1) d x = ((alts d p).map fun e => a * (e.terms.map (termChance (endChance g alts n (d + 1)))).prod +
      tally b (endChance g alts n (d + 1)) (meanCost g alts a b n (d + 1)) e.terms).sum / (alts d p).length := by
  simp only [meanCost, runs, h, if_neg hb]
  rw [div_eq_mul_inv]
  generalize hl : alts d p = l
  generalize ((l.length : ℚ)) = L
  have : ∀ (l : List Expression) (k : Nat),
      runCost a b ((l.zipIdx k).flatMap fun e => (runsTerms (runs g alts n (d + 1)) e.1.terms).map fun r => (e.2 :: r.1, r.2.1 / L, r.2.2)) =
      (l.map fun e => a * (e.terms.map (termChance (endChance g alts n (d + 1)))).prod +
        tally b (endChance g alts n (d + 1)) (meanCost g alts a b n (d + 1)) e.terms).sum * L⁻¹ := by
    intro l
    induction l with
    | nil => intro k; simp [runCost]
    | cons e l ih =>
      intro k
      simp only [List.zipIdx_cons, List.flatMap_cons, List.map_cons, List.sum_cons, runCost_append, ih]
      rw [runCost_map (c := L⁻¹) (k := a) (fun r => ⟨by rw [div_eq_mul_inv, mul_comm], by
        simp only [List.length_cons, Nat.cast_add, Nat.cast_one]; ring⟩), runWeight_terms (q := endChance g alts n (d + 1)) (fun x => runWeight_runs n (d + 1) x),
        runCost_terms (q := endChance g alts n (d + 1)) (M := meanCost g alts a b n (d + 1)) (fun x => runWeight_runs n (d + 1) x) (fun x => rfl)]
      ring
  exact this l 0

/-! ## The mean of the model -/

section
variable {G : Production → Prop} (hG : ∀ p ∈ g.productions, G p) {S : Strategy (List Nat × ℚ)}

include hG in
theorem mean_of_runs (hS : Draws G S alts) (a b : ℚ) (n d : Nat) (x : Str) :
    HasMean (fun st => traverse g S (acceptAll _) n x d st) (cost a b) (meanCost g alts a b n d x) := by
  refine ⟨(runs g alts n d x).map (·.1), runs_nodup hG hS n d x, fun t ht => ?_, ?_⟩
  · cases hx : traverse g S (acceptAll _) n x d (t, 1) with
    | fuel => simp only [hx, weightOf] at ht; exact absurd rfl ht
    | panic => simp only [hx, weightOf] at ht; exact absurd rfl ht
    | done r st =>
      obtain ⟨t', v'⟩ := st
      cases r with
      | error e => simp only [hx, weightOf] at ht; exact absurd rfl ht
      | ok s =>
        cases t' with
        | cons a as => simp only [hx, weightOf] at ht; exact absurd rfl ht
        | nil =>
          simp only [hx, weightOf, if_true] at ht
          obtain ⟨r, h1, _, h2, _⟩ := runs_complete hG hS n d x t 1 s [] v' hx ht
          rw [List.append_nil] at h2
          exact List.mem_map.mpr ⟨r, h1, h2.symm⟩
  · rw [List.map_map, meanCost, runCost]
    congr 1
    apply List.map_congr_left
    intro r hr
    have := runs_sound (g := g) hG hS n d x r hr [] 1
    rw [List.append_nil] at this
    simp only [Function.comp_apply, this, meanPart, one_mul, cost]

end

theorem hasMean_unique {run : List Nat × ℚ → GenRes (List Nat × ℚ)} {f : Str → Nat → ℚ} {p q : ℚ} (h : HasMean run f p) (h' : HasMean run f q) : p = q := by
  obtain ⟨l, h1, h2, h3⟩ := h
  obtain ⟨l', h1', h2', h3'⟩ := h'
  have hz : ∀ t, meanPart f t (run (t, 1)) ≠ 0 → weightOf (fun _ => true) (run (t, 1)) ≠ 0 := by
    intro t ht hw
    apply ht
    revert hw
    cases run (t, 1) with
    | fuel => intro _; rfl
    | panic => intro _; rfl
    | done r st =>
      obtain ⟨t', w⟩ := st
      cases r with
      | error e => intro _; rfl
      | ok s =>
        cases t' with
        | cons a as => intro _; rfl
        | nil => intro hw; simp only [weightOf, if_true] at hw; simp [meanPart, hw]
  rw [← h3, ← h3']
  exact sum_eq_of_cover h1 h1' (fun t ht => h2 t (hz t ht)) (fun t ht => h2' t (hz t ht))

/-! ## Upper bound -/

theorem prod_chance_bounds {q : Str → ℚ} (h : ∀ x, 0 ≤ q x ∧ q x ≤ 1) (ts : List Term) :
    0 ≤ (ts.map (termChance q)).prod ∧ (ts.map (termChance q)).prod ≤ 1 := by
  induction ts with
  | nil => simp
  | cons t ts ih =>
    simp only [List.map_cons, List.prod_cons]
    cases t with
    | terminal u => simpa [termChance] using ih
    | nonterminal x => exact ⟨mul_nonneg (h x).1 ih.1, mul_le_one₀ (h x).2 ih.1 ih.2⟩

theorem tally_le {b : ℚ} (hb : 0 ≤ b) {q M v : Str → ℚ} (h : ∀ x, 0 ≤ q x ∧ q x ≤ 1) (hM : ∀ x, 0 ≤ M x ∧ M x ≤ v x) (ts : List Term) :
    0 ≤ tally b q M ts ∧ tally b q M ts ≤ (ts.map (termCost b v)).sum := by
  induction ts with
  | nil => simp [tally]
  | cons t ts ih =>
    have hp := prod_chance_bounds h ts
    cases t with
    | terminal u =>
      simp only [tally, List.map_cons, List.sum_cons, termCost]
      have hu : 0 ≤ b * (u.length : ℚ) := mul_nonneg hb (Nat.cast_nonneg _)
      exact ⟨add_nonneg ih.1 (mul_nonneg hu hp.1), by nlinarith [mul_le_mul_of_nonneg_left hp.2 hu]⟩
    | nonterminal x =>
      simp only [tally, List.map_cons, List.sum_cons, termCost]
      refine ⟨add_nonneg (mul_nonneg (hM x).1 hp.1) (mul_nonneg (h x).1 ih.1), ?_⟩
      have h1 : M x * (ts.map (termChance q)).prod ≤ M x := mul_le_of_le_one_right (hM x).1 hp.2
      have h2 : q x * tally b q M ts ≤ tally b q M ts := mul_le_of_le_one_left ih.1 (h x).2
      linarith [(hM x).2, ih.2]

theorem meanCost_nonneg {a b : ℚ} (ha : 0 ≤ a) (hb : 0 ≤ b) (n d : Nat) (x : Str) : 0 ≤ meanCost g alts a b n d x := by
  induction n generalizing d x with
  | zero => rw [meanCost_zero]
  | succ n ih =>
    cases hf : firstOf g x with
    | none => rw [meanCost_none hf]; exact mul_nonneg hb (Nat.cast_nonneg _)
    | some p =>
      by_cases hp : Barren p
      · rw [meanCost_barren hf hp]
      · rw [meanCost_some hf hp]
        refine div_nonneg (List.sum_nonneg fun z hz => ?_) (Nat.cast_nonneg _)
        obtain ⟨e, _, rfl⟩ := List.mem_map.1 hz
        have hq := fun y => endChance_nonneg g alts n (d + 1) y
        exact add_nonneg (mul_nonneg ha (prod_chance_bounds hq _).1) (tally_le hb hq (fun y => ⟨ih (d + 1) y, le_refl _⟩) _).1

theorem sum_map_mono_rat {α : Type} {f k : α → ℚ} {l : List α} (h : ∀ a ∈ l, f a ≤ k a) : (l.map f).sum ≤ (l.map k).sum := by
  induction l with
  | nil => simp
  | cons a l ih =>
    simp only [List.map_cons, List.sum_cons]
    exact add_le_add (h a (by simp)) (ih fun b hb => h b (by simp [hb]))

/-- `tally_le` for the nonterminals that occur. -/
theorem tally_le_on {b : ℚ} (hb : 0 ≤ b) {q M v : Str → ℚ} (h : ∀ x, 0 ≤ q x ∧ q x ≤ 1) (hM0 : ∀ x, 0 ≤ M x) {ts : List Term}
    (hM : ∀ x, .nonterminal x ∈ ts → M x ≤ v x) : tally b q M ts ≤ (ts.map (termCost b v)).sum := by
  refine le_trans (tally_le hb h (v := M) (fun x => ⟨hM0 x, le_refl _⟩) ts).2 (sum_map_mono_rat fun t ht => ?_)
  cases t with
  | terminal u => exact le_refl _
  | nonterminal x => exact hM x ht

theorem meanCost_le {a b : ℚ} (ha : 0 ≤ a) (hb : 0 ≤ b) {R : Str → Prop} {A : Production → List Expression}
    (hR : ∀ x p, R x → firstOf g x = some p → ∀ e ∈ A p, ∀ y, .nonterminal y ∈ e.terms → R y) {v : Str → ℚ} (hv : ∀ x, R x → 0 ≤ v x)
    (hund : ∀ x, R x → firstOf g x = none → b * x.length ≤ v x)
    (hav : ∀ x p, R x → firstOf g x = some p → ((A p).map (altCost a b v)).sum ≤ v x * (A p).length) (n d : Nat) (x : Str) (hx : R x) :
    meanCost g (fun _ => A) a b n d x ≤ v x := by
  induction n generalizing d x with
  | zero => rw [meanCost_zero]; exact hv x hx
  | succ n ih =>
    cases hf : firstOf g x with
    | none => rw [meanCost_none hf]; exact hund x hx hf
    | some p =>
      by_cases hp : Barren p
      · rw [meanCost_barren hf hp]; exact hv x hx
      · rw [meanCost_some hf hp]
        refine div_le_of_le_mul₀ (Nat.cast_nonneg _) (hv x hx) (le_trans (sum_map_mono_rat fun e he => ?_) (hav x p hx hf))
        have hq := fun y => endChance_nonneg g (fun _ => A) n (d + 1) y
        unfold altCost
        refine add_le_add (mul_le_of_le_one_right ha (prod_chance_bounds hq _).2) ?_
        exact tally_le_on hb hq (fun y => meanCost_nonneg ha hb n (d + 1) y) fun y hy => ih (d + 1) y (hR x p hx hf e he y hy)

/-! ## The expected cost of the first `j` levels is a lower bound in the limit -/

/-- Costs of the first `j` levels of expansions. -/
def levelCost (g : Grammar) (A : Production → List Expression) (a b : ℚ) : Nat → Str → ℚ
  | 0, _ => 0
  | j + 1, x =>
    match firstOf g x with
    | none => b * x.length
    | some p => ((A p).map (altCost a b (levelCost g A a b j))).sum / (A p).length

theorem tally_mono {b : ℚ} {q M M' : Str → ℚ} (h : ∀ x, 0 ≤ q x ∧ q x ≤ 1) {ts : List Term}
    (hM : ∀ x, .nonterminal x ∈ ts → M x ≤ M' x) : tally b q M ts ≤ tally b q M' ts := by
  induction ts with
  | nil => simp [tally]
  | cons t ts ih =>
    have h1 := ih fun x hx => hM x (by simp [hx])
    cases t with
    | terminal u => simp only [tally]; linarith
    | nonterminal x =>
      simp only [tally]
      exact add_le_add (mul_le_mul_of_nonneg_right (hM x (by simp)) (prod_chance_bounds h ts).1) (mul_le_mul_of_nonneg_left h1 (h x).1)

theorem prod_chance_tendsto {q : Nat → Str → ℚ} {ts : List Term} (h : ∀ x, .nonterminal x ∈ ts → Tendsto (fun n => q n x) atTop (𝓝 1)) :
    Tendsto (fun n => (ts.map (termChance (q n))).prod) atTop (𝓝 1) := by
  induction ts with
  | nil => simp
  | cons t ts ih =>
    have h1 := ih fun x hx => h x (by simp [hx])
    simp only [List.map_cons, List.prod_cons]
    cases t with
    | terminal u => simpa [termChance] using h1
    | nonterminal x => simpa [termChance] using (h x (by simp)).mul h1

theorem tally_tendsto {b : ℚ} {q M : Nat → Str → ℚ} {β : Str → ℚ} {ts : List Term}
    (h : ∀ x, .nonterminal x ∈ ts → Tendsto (fun n => q n x) atTop (𝓝 1)) (hM : ∀ x, .nonterminal x ∈ ts → Tendsto (fun n => M n x) atTop (𝓝 (β x))) :
    Tendsto (fun n => tally b (q n) (M n) ts) atTop (𝓝 (ts.map (termCost b β)).sum) := by
  induction ts with
  | nil => simp [tally]
  | cons t ts ih =>
    have h1 := ih (fun x hx => h x (by simp [hx])) (fun x hx => hM x (by simp [hx]))
    have h2 := prod_chance_tendsto (ts := ts) fun x hx => h x (by simp [hx])
    simp only [List.map_cons, List.sum_cons]
    cases t with
    | terminal u =>
      simp only [tally, termCost]
      have := h1.add (h2.const_mul (b * (u.length : ℚ)))
      simpa [add_comm] using this
    | nonterminal x =>
      simp only [tally, termCost]
      have := ((hM x (by simp)).mul h2).add ((h x (by simp)).mul h1)
      simpa using this

/-- A lower bound of the expected cost that only counts `j` levels. -/
def lowCost (g : Grammar) (A : Production → List Expression) (a b : ℚ) : Nat → Nat → Str → ℚ
  | 0, _, _ => 0
  | _ + 1, 0, _ => 0
  | j + 1, n + 1, x =>
    match firstOf g x with
    | none => b * x.length
    | some p => if Barren p then 0 else
      ((A p).map fun e => a * (e.terms.map (termChance (endChance g (fun _ => A) n 0))).prod +
        tally b (endChance g (fun _ => A) n 0) (lowCost g A a b j n) e.terms).sum / (A p).length

theorem lowCost_le {A : Production → List Expression} {a b : ℚ} (ha : 0 ≤ a) (hb : 0 ≤ b) (j n d : Nat) (x : Str) :
    lowCost g A a b j n x ≤ meanCost g (fun _ => A) a b n d x := by
  induction n generalizing j d x with
  | zero => cases j <;> simp [lowCost, meanCost_zero]
  | succ n ih =>
    cases j with
    | zero => simp only [lowCost]; exact meanCost_nonneg ha hb _ _ _
    | succ j =>
      cases hf : firstOf g x with
      | none => rw [meanCost_none hf]; simp [lowCost, hf]
      | some p =>
        by_cases hp : Barren p
        · rw [meanCost_barren hf hp]; simp [lowCost, hf, hp]
        · rw [meanCost_some hf hp]
          simp only [lowCost, hf, if_neg hp]
          refine div_le_div_of_nonneg_right (sum_map_mono_rat fun e _ => ?_) (Nat.cast_nonneg _)
          have he : endChance g (fun _ => A) n (d + 1) = endChance g (fun _ => A) n 0 := by funext y; rw [endChance_const]
          rw [he]
          have := tally_mono (b := b) (q := endChance g (fun _ => A) n 0) (fun y => endChance_nonneg g _ n 0 y) (ts := e.terms)
            (fun y _ => ih j (d + 1) y)
          linarith

theorem tendsto_one_rat {A : Production → List Expression} {x : Str} (h : endLimit g (fun _ => A) 0 x = 1) :
    Tendsto (fun n => endChance g (fun _ => A) n 0 x) atTop (𝓝 (1 : ℚ)) := by
  refine tendsto_order.2 ⟨fun c hc => ?_, fun c hc => ?_⟩
  · obtain ⟨n, hn⟩ := exists_close h (ε := (1 - c) / 2) (by linarith)
    refine eventually_atTop.2 ⟨n, fun k hk => ?_⟩
    have h1 : ((endChance g (fun _ => A) n 0 x : ℚ) : ℝ) ≤ ((endChance g (fun _ => A) k 0 x : ℚ) : ℝ) := endChance_mono 0 x hk
    have h2 : endChance g (fun _ => A) n 0 x ≤ endChance g (fun _ => A) k 0 x := by exact_mod_cast h1
    linarith
  · exact eventually_atTop.2 ⟨0, fun k _ => lt_of_le_of_lt (endChance_nonneg g _ k 0 x).2 hc⟩

theorem sum_tendsto {α : Type} {f : Nat → α → ℚ} {k : α → ℚ} {l : List α} (h : ∀ a ∈ l, Tendsto (fun n => f n a) atTop (𝓝 (k a))) :
    Tendsto (fun n => (l.map (f n)).sum) atTop (𝓝 (l.map k).sum) := by
  induction l with
  | nil => simp
  | cons a l ih =>
    simp only [List.map_cons, List.sum_cons]
    exact (h a (by simp)).add (ih fun b hb => h b (by simp [hb]))

theorem lowCost_tendsto {A : Production → List Expression} {a b : ℚ} {R : Str → Prop}
    (hR : ∀ x p, R x → firstOf g x = some p → ∀ e ∈ A p, ∀ y, .nonterminal y ∈ e.terms → R y)
    (hb : ∀ x p, R x → firstOf g x = some p → ¬ Barren p) (hq : ∀ x, R x → endLimit g (fun _ => A) 0 x = 1) (j : Nat) (x : Str) (hx : R x) :
    Tendsto (fun n => lowCost g A a b j n x) atTop (𝓝 (levelCost g A a b j x)) := by
  induction j generalizing x with
  | zero => simp only [lowCost, levelCost]; exact tendsto_const_nhds
  | succ j ih =>
    refine (tendsto_add_atTop_iff_nat 1).1 ?_
    simp only [lowCost, levelCost]
    cases hf : firstOf g x with
    | none => exact tendsto_const_nhds
    | some p =>
      simp only [if_neg (hb x p hx hf)]
      refine Tendsto.div_const (sum_tendsto fun e he => ?_) _
      have hq' : ∀ y, .nonterminal y ∈ e.terms → Tendsto (fun n => endChance g (fun _ => A) n 0 y) atTop (𝓝 1) :=
        fun y hy => tendsto_one_rat (hq y (hR x p hx hf e he y hy))
      have h1 := (prod_chance_tendsto hq').const_mul a
      have h2 := tally_tendsto (b := b) hq' (fun y hy => ih y (hR x p hx hf e he y hy))
      simpa [altCost] using h1.add h2

/-- In the limit the expected cost is at least that of any number of levels. -/
theorem meanCost_levels {A : Production → List Expression} {a b : ℚ} (ha : 0 ≤ a) (hb0 : 0 ≤ b) {R : Str → Prop}
    (hR : ∀ x p, R x → firstOf g x = some p → ∀ e ∈ A p, ∀ y, .nonterminal y ∈ e.terms → R y)
    (hb : ∀ x p, R x → firstOf g x = some p → ¬ Barren p) (hq : ∀ x, R x → endLimit g (fun _ => A) 0 x = 1) (j : Nat) (x : Str) (hx : R x) {ε : ℚ}
    (hε : 0 < ε) : ∃ N, ∀ n, N ≤ n → levelCost g A a b j x - ε ≤ meanCost g (fun _ => A) a b n 0 x := by
  have h := lowCost_tendsto (a := a) (b := b) hR hb hq j x hx
  obtain ⟨N, hN⟩ := eventually_atTop.1 ((tendsto_order.1 h).1 (levelCost g A a b j x - ε) (by linarith))
  exact ⟨N, fun n hn => le_trans (hN n hn).le (lowCost_le ha hb0 j n 0 x)⟩

/-- With non-decreasing weight the levels cost more and more. -/
theorem levelCost_grows {A : Production → List Expression} {R : Str → Prop}
    (hR : ∀ x p, R x → firstOf g x = some p → ∀ e ∈ A p, ∀ y, .nonterminal y ∈ e.terms → R y) {v : Str → ℚ} (hv : ∀ x, 0 ≤ v x ∧ v x ≤ 1)
    (hA : ∀ x p, R x → firstOf g x = some p → A p ≠ []) (hund : ∀ x, firstOf g x = none → v x = 0)
    (hav : ∀ x p, R x → firstOf g x = some p → v x * (A p).length ≤ ((A p).map (offspring v)).sum) (j : Nat) (x : Str) (hx : R x) :
    (j : ℚ) * v x ≤ levelCost g A 1 0 j x := by
  induction j generalizing x with
  | zero => simp [levelCost]
  | succ j ih =>
    simp only [levelCost]
    cases hf : firstOf g x with
    | none => simp [hund x hf]
    | some p =>
      simp only
      have hlen : (0 : ℚ) < (A p).length := by exact_mod_cast List.length_pos_iff.mpr (hA x p hx hf)
      rw [le_div_iff₀ hlen]
      have h1 : ∀ e ∈ A p, 1 + j * offspring v e ≤ altCost 1 0 (levelCost g A 1 0 j) e := by
        intro e he
        unfold altCost offspring
        rw [← List.sum_map_mul_left]
        refine add_le_add (le_refl _) (sum_map_mono_rat fun t ht => ?_)
        cases t with
        | terminal u => simp [termWeight, termCost]
        | nonterminal y => exact ih y (hR x p hx hf e he y ht)
      have h2 := sum_map_mono_rat h1
      have h3 : ((A p).map fun e => 1 + (j : ℚ) * offspring v e).sum = (A p).length + j * ((A p).map (offspring v)).sum := by
        generalize A p = l
        induction l with
        | nil => simp
        | cons e l ihl => simp only [List.map_cons, List.sum_cons, ihl, List.length_cons, Nat.cast_add, Nat.cast_one]; ring
      rw [h3] at h2
      have h4 := mul_le_mul_of_nonneg_left (hav x p hx hf) (Nat.cast_nonneg (α := ℚ) j)
      have h5 := mul_le_mul_of_nonneg_right (hv x).2 hlen.le
      push_cast
      nlinarith

/-- With decreasing weights the levels come close to a solution of the equations. -/
theorem levelCost_close {A : Production → List Expression} {a b : ℚ} {R : Str → Prop}
    (hR : ∀ x p, R x → firstOf g x = some p → ∀ e ∈ A p, ∀ y, .nonterminal y ∈ e.terms → R y) {v w : Str → ℚ} {m : ℚ} (hm : 0 ≤ m)
    (hA : ∀ x p, R x → firstOf g x = some p → A p ≠ []) (hw : ∀ x, 0 ≤ w x) (hvw : ∀ x, R x → v x ≤ w x)
    (hund : ∀ x, R x → firstOf g x = none → v x = b * x.length)
    (heq : ∀ x p, R x → firstOf g x = some p → v x * (A p).length = ((A p).map (altCost a b v)).sum)
    (hav : ∀ x p, R x → firstOf g x = some p → ((A p).map (offspring w)).sum ≤ m * w x * (A p).length) (j : Nat) (x : Str) (hx : R x) :
    v x - m ^ j * w x ≤ levelCost g A a b j x := by
  induction j generalizing x with
  | zero => simp [levelCost]; exact hvw x hx
  | succ j ih =>
    simp only [levelCost]
    have hmj := pow_nonneg hm (j + 1)
    cases hf : firstOf g x with
    | none => simp only; rw [hund x hx hf]; have := mul_nonneg hmj (hw x); linarith
    | some p =>
      simp only
      have hlen : (0 : ℚ) < (A p).length := by exact_mod_cast List.length_pos_iff.mpr (hA x p hx hf)
      rw [le_div_iff₀ hlen]
      have h1 : ∀ e ∈ A p, altCost a b v e - m ^ j * offspring w e ≤ altCost a b (levelCost g A a b j) e := by
        intro e he
        unfold altCost offspring
        have : ∀ ts : List Term, (∀ y, .nonterminal y ∈ ts → R y) →
            (ts.map (termCost b v)).sum - m ^ j * (ts.map (termWeight w)).sum ≤ (ts.map (termCost b (levelCost g A a b j))).sum := by
          intro ts
          induction ts with
          | nil => simp
          | cons t ts iht =>
            intro h
            have h2 := iht fun y hy => h y (by simp [hy])
            simp only [List.map_cons, List.sum_cons]
            cases t with
            | terminal u => simp only [termCost, termWeight]; linarith
            | nonterminal y => simp only [termCost, termWeight]; linarith [ih y (h y (by simp))]
        have := this e.terms fun y hy => hR x p hx hf e he y hy
        linarith
      have h2 := sum_map_mono_rat h1
      have h3 : ((A p).map fun e => altCost a b v e - m ^ j * offspring w e).sum =
          ((A p).map (altCost a b v)).sum - m ^ j * ((A p).map (offspring w)).sum := by
        generalize A p = l
        induction l with
        | nil => simp
        | cons e l ihl => simp only [List.map_cons, List.sum_cons, ihl]; ring
      rw [h3, ← heq x p hx hf] at h2
      have h4 := mul_le_mul_of_nonneg_left (hav x p hx hf) (pow_nonneg hm j)
      rw [pow_succ]
      nlinarith

end Bnf
