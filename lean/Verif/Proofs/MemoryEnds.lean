import Verif.Proofs.MemoryChance
import Verif.Proofs.Extinction

/-!
# Strategies that deviate from the random walk finitely often
-/

set_option autoImplicit false

namespace Bnf
open Spec Filter Topology

variable {M : Type} {g : Grammar} {alts : M → Nat → Production → List (Expression × M)}

/-- The expected value of `F` of the memory afterwards, over the runs that end. -/
def wTerms (w : Str → M → (M → ℝ) → ℝ) : List Term → M → (M → ℝ) → ℝ
  | [], m, F => F m
  | .terminal _ :: ts, m, F => wTerms w ts m F
  | .nonterminal x :: ts, m, F => w x m fun m1 => wTerms w ts m1 F

noncomputable def wRuns (g : Grammar) (alts : M → Nat → Production → List (Expression × M)) : Nat → Str → M → (M → ℝ) → ℝ
  | 0, _, _, _ => 0
  | n + 1, x, m, F =>
    match firstOf g x with
    | none => F m
    | some p => if Barren p then 0 else
      ((alts m (posOf g x) p).map fun e => wTerms (wRuns g alts n) e.1.terms e.2 F).sum / (alts m (posOf g x) p).length

/-! ## Distributions -/

def massF (D : MemDist M) (F : M → ℝ) : ℝ := (D.map fun o => (o.2.2 : ℝ) * F o.2.1).sum

theorem massF_flatMap {α : Type} (l : List α) (f : α → MemDist M) (F : M → ℝ) : massF (l.flatMap f) F = (l.map fun a => massF (f a) F).sum := by
  unfold massF
  induction l with
  | nil => rfl
  | cons a l ih => simp only [List.flatMap_cons, List.map_append, List.sum_append, List.map_cons, List.sum_cons, ih]

theorem massF_map {f : Str × M × ℚ → Str × M × ℚ} {c : ℚ} (D : MemDist M) (F : M → ℝ) (h : ∀ o ∈ D, (f o).2.1 = o.2.1 ∧ (f o).2.2 = c * o.2.2) :
    massF (D.map f) F = c * massF D F := by
  unfold massF
  rw [List.map_map, ← List.sum_map_mul_left]
  congr 1
  refine List.map_congr_left fun o ho => ?_
  obtain ⟨h1, h2⟩ := h o ho
  simp only [Function.comp_apply, h1, h2, Rat.cast_mul, mul_assoc]

theorem massF_terms {D : M → Str → MemDist M} {w : Str → M → (M → ℝ) → ℝ} (h : ∀ x m F, massF (D m x) F = w x m F) (ts : List Term) (m : M)
    (F : M → ℝ) : massF (memTerms D ts m) F = wTerms w ts m F := by
  induction ts generalizing m with
  | nil => simp [memTerms, wTerms, massF]
  | cons t ts ih =>
    cases t with
    | terminal u =>
      simp only [memTerms, wTerms]
      rw [massF_map (f := fun o => (u ++ o.1, o.2.1, o.2.2)) (c := 1) _ F fun o _ => ⟨rfl, by simp⟩, ih]
      simp
    | nonterminal x =>
      simp only [memTerms, wTerms]
      rw [massF_flatMap, ← h]
      unfold massF
      congr 1
      refine List.map_congr_left fun o _ => ?_
      rw [show (fun o' : Str × M × ℚ => (o.1 ++ o'.1, o'.2.1, o.2.2 * o'.2.2)) = fun o' => (o.1 ++ o'.1, o'.2.1, o.2.2 * o'.2.2) from rfl]
      have := massF_map (f := fun o' => (o.1 ++ o'.1, o'.2.1, o.2.2 * o'.2.2)) (c := o.2.2) (memTerms D ts o.2.1) F fun _ _ => ⟨rfl, rfl⟩
      unfold massF at this
      rw [this]
      have := ih o.2.1
      unfold massF at this
      rw [this]

theorem massF_runs (n : Nat) (x : Str) (m : M) (F : M → ℝ) : massF (memDist g alts n m x) F = wRuns g alts n x m F := by
  induction n generalizing x m F with
  | zero => simp [memDist, wRuns, massF]
  | succ n ih =>
    simp only [memDist, wRuns]
    cases firstOf g x with
    | none => simp [massF]
    | some p =>
      simp only
      split
      · simp [massF]
      · rw [massF_flatMap, div_eq_mul_inv, ← List.sum_map_mul_right]
        congr 1
        refine List.map_congr_left fun e _ => ?_
        rw [massF_map (f := fun o => (o.1, o.2.1, o.2.2 / ((alts m (posOf g x) p).length : ℚ))) (c := ((alts m (posOf g x) p).length : ℚ)⁻¹) _ F fun o _ => ⟨rfl, by rw [div_eq_mul_inv, mul_comm]⟩,
          massF_terms (fun x m F => ih x m F), mul_comm]
        simp

/-! ## Monotonicity -/

section
variable {I : M → Prop} (hI : ∀ m x p e, I m → firstOf g x = some p → e ∈ alts m (posOf g x) p → I e.2)

def MonoI (I : M → Prop) (w w' : Str → M → (M → ℝ) → ℝ) : Prop :=
  ∀ x m, I m → ∀ F G : M → ℝ, (∀ m, I m → 0 ≤ F m) → (∀ m, I m → F m ≤ G m) → 0 ≤ w x m F ∧ w x m F ≤ w' x m G

theorem MonoI.terms {w w' : Str → M → (M → ℝ) → ℝ} (h : MonoI I w w') (ts : List Term) (m : M) (hm : I m) (F G : M → ℝ) (h0 : ∀ m, I m → 0 ≤ F m)
    (hl : ∀ m, I m → F m ≤ G m) : 0 ≤ wTerms w ts m F ∧ wTerms w ts m F ≤ wTerms w' ts m G := by
  induction ts generalizing m with
  | nil => exact ⟨h0 m hm, hl m hm⟩
  | cons t ts ih =>
    cases t with
    | terminal u => exact ih m hm
    | nonterminal x => exact h x m hm _ _ (fun m' hm' => (ih m' hm').1) fun m' hm' => (ih m' hm').2

include hI in
theorem MonoI.succ {w w' : Nat} (h : MonoI I (wRuns g alts w) (wRuns g alts w')) : MonoI I (wRuns g alts (w + 1)) (wRuns g alts (w' + 1)) := by
  intro x m hm F G h0 hl
  simp only [wRuns]
  cases hf : firstOf g x with
  | none => exact ⟨h0 m hm, hl m hm⟩
  | some p =>
    simp only
    split
    · exact ⟨le_refl _, le_refl _⟩
    · have key := fun e he => h.terms e.1.terms e.2 (hI m x p e hm hf he) F G h0 hl
      refine ⟨div_nonneg (List.sum_nonneg fun q hq => ?_) (Nat.cast_nonneg _),
        div_le_div_of_nonneg_right (sum_map_mono fun e he => (key e he).2) (Nat.cast_nonneg _)⟩
      obtain ⟨e, he, rfl⟩ := List.mem_map.mp hq
      exact (key e he).1

include hI in
theorem monoI_self (n : Nat) : MonoI I (wRuns g alts n) (wRuns g alts n) := by
  induction n with
  | zero => exact fun x m _ F G _ _ => ⟨le_refl _, le_refl _⟩
  | succ n ih => exact MonoI.succ hI ih

include hI in
theorem monoI_le {n n' : Nat} (h : n ≤ n') : MonoI I (wRuns g alts n) (wRuns g alts n') := by
  induction n generalizing n' with
  | zero =>
    intro x m hm F G h0 hl
    exact ⟨le_refl _, (monoI_self hI n' x m hm G G (fun m hm => (h0 m hm).trans (hl m hm)) fun _ _ => le_refl _).1⟩
  | succ n ih =>
    cases n' with
    | zero => omega
    | succ n' => exact MonoI.succ hI (ih (by omega))

/-! ## Linearity, bounds, limits -/

theorem wTerms_scale {w : Str → M → (M → ℝ) → ℝ} {c : ℝ} (h : ∀ x m F, w x m (fun m => c * F m) = c * w x m F) (ts : List Term) (m : M) (F : M → ℝ) :
    wTerms w ts m (fun m => c * F m) = c * wTerms w ts m F := by
  induction ts generalizing m with
  | nil => rfl
  | cons t ts ih =>
    cases t with
    | terminal u => exact ih m
    | nonterminal x =>
      simp only [wTerms]
      rw [← h]
      congr 1
      funext m1
      exact ih m1

theorem wRuns_scale (c : ℝ) (n : Nat) : ∀ (x : Str) (m : M) (F : M → ℝ), wRuns g alts n x m (fun m => c * F m) = c * wRuns g alts n x m F := by
  induction n with
  | zero => intro x m F; simp [wRuns]
  | succ n ih =>
    intro x m F
    simp only [wRuns]
    cases firstOf g x with
    | none => rfl
    | some p =>
      simp only
      split
      · simp
      · rw [← mul_div_assoc, ← List.sum_map_mul_left]
        congr 2
        exact List.map_congr_left fun e _ => wTerms_scale ih _ _ _

theorem wTerms_le_one {w : Str → M → (M → ℝ) → ℝ} (h : ∀ x m F, (∀ m, F m ≤ 1) → w x m F ≤ 1) (ts : List Term) (m : M) (F : M → ℝ)
    (hF : ∀ m, F m ≤ 1) : wTerms w ts m F ≤ 1 := by
  induction ts generalizing m with
  | nil => exact hF m
  | cons t ts ih =>
    cases t with
    | terminal u => exact ih m
    | nonterminal x => exact h x m _ ih

theorem wRuns_le_one (n : Nat) : ∀ (x : Str) (m : M) (F : M → ℝ), (∀ m, F m ≤ 1) → wRuns g alts n x m F ≤ 1 := by
  induction n with
  | zero => intro x m F _; simp [wRuns]
  | succ n ih =>
    intro x m F hF
    simp only [wRuns]
    cases firstOf g x with
    | none => exact hF m
    | some p =>
      simp only
      split
      · exact zero_le_one
      · refine div_le_one_of_le₀ ?_ (Nat.cast_nonneg _)
        refine (List.sum_le_card_nsmul _ 1 fun q hq => ?_).trans (by simp)
        obtain ⟨e, _, rfl⟩ := List.mem_map.mp hq
        exact wTerms_le_one ih _ _ _ hF

theorem wTerms_tendsto {w : Str → M → (M → ℝ) → ℝ}
    (h : ∀ x m (F : Nat → M → ℝ) G, (∀ m, Tendsto (fun k => F k m) atTop (𝓝 (G m))) → Tendsto (fun k => w x m (F k)) atTop (𝓝 (w x m G)))
    (ts : List Term) (m : M) (F : Nat → M → ℝ) (G : M → ℝ) (hF : ∀ m, Tendsto (fun k => F k m) atTop (𝓝 (G m))) :
    Tendsto (fun k => wTerms w ts m (F k)) atTop (𝓝 (wTerms w ts m G)) := by
  induction ts generalizing m with
  | nil => exact hF m
  | cons t ts ih =>
    cases t with
    | terminal u => exact ih m
    | nonterminal x => exact h x m _ _ ih

theorem wRuns_tendsto (n : Nat) : ∀ (x : Str) (m : M) (F : Nat → M → ℝ) (G : M → ℝ), (∀ m, Tendsto (fun k => F k m) atTop (𝓝 (G m))) →
    Tendsto (fun k => wRuns g alts n x m (F k)) atTop (𝓝 (wRuns g alts n x m G)) := by
  induction n with
  | zero => intro x m F G _; exact tendsto_const_nhds
  | succ n ih =>
    intro x m F G hF
    simp only [wRuns]
    cases firstOf g x with
    | none => exact hF m
    | some p =>
      simp only
      split
      · exact tendsto_const_nhds
      · refine Tendsto.div_const ?_ _
        exact tendsto_list_sum (f := fun (e : Expression × M) k => wTerms (wRuns g alts n) e.1.terms e.2 (F k)) _ fun e _ => wTerms_tendsto ih _ _ _ _ hF

/-! ## The probability of ending -/

noncomputable def endsM (g : Grammar) (alts : M → Nat → Production → List (Expression × M)) (x : Str) (m : M) : ℝ := ⨆ n, wRuns g alts n x m fun _ => 1

noncomputable def endsTermsM (g : Grammar) (alts : M → Nat → Production → List (Expression × M)) (ts : List Term) (m : M) : ℝ :=
  ⨆ n, wTerms (wRuns g alts n) ts m fun _ => 1

theorem allMem (m : M) (x : Str) (p : Production) (e : Expression × M) : (fun _ : M => True) m → firstOf g x = some p → e ∈ alts m (posOf g x) p →
    (fun _ : M => True) e.2 := fun _ _ _ => trivial

theorem endsM_bdd (x : Str) (m : M) : BddAbove (Set.range fun n => wRuns g alts n x m fun _ => 1) :=
  ⟨1, by rintro _ ⟨n, rfl⟩; exact wRuns_le_one n x m _ fun _ => le_refl _⟩

theorem endsTermsM_bdd (ts : List Term) (m : M) : BddAbove (Set.range fun n => wTerms (wRuns g alts n) ts m fun _ => 1) :=
  ⟨1, by rintro _ ⟨n, rfl⟩; exact wTerms_le_one (wRuns_le_one n) ts m _ fun _ => le_refl _⟩

theorem endsTermsM_tendsto (ts : List Term) (m : M) :
    Tendsto (fun n => wTerms (wRuns g alts n) ts m fun _ => 1) atTop (𝓝 (endsTermsM g alts ts m)) :=
  tendsto_atTop_ciSup (fun _ _ h => ((monoI_le allMem h).terms ts m trivial _ _ (fun _ _ => zero_le_one) fun _ _ => le_refl _).2) (endsTermsM_bdd ts m)

theorem endsM_tendsto (x : Str) (m : M) : Tendsto (fun n => wRuns g alts n x m fun _ => 1) atTop (𝓝 (endsM g alts x m)) :=
  tendsto_atTop_ciSup (fun _ _ h => (monoI_le allMem h x m trivial _ _ (fun _ _ => zero_le_one) fun _ _ => le_refl _).2) (endsM_bdd x m)

theorem endsM_le_one (x : Str) (m : M) : endsM g alts x m ≤ 1 := ciSup_le fun n => wRuns_le_one n x m _ fun _ => le_refl _

theorem endsM_nonneg (x : Str) (m : M) : 0 ≤ endsM g alts x m :=
  (monoI_self allMem 0 x m trivial _ _ (fun _ _ => zero_le_one) fun _ _ => le_refl _).1.trans (le_ciSup (endsM_bdd x m) 0)

theorem endsTermsM_cons (x : Str) (ts : List Term) (m : M) (n : Nat) :
    wRuns g alts n x m (endsTermsM g alts ts) ≤ endsTermsM g alts (.nonterminal x :: ts) m := by
  refine le_of_tendsto (wRuns_tendsto n x m (fun k m1 => wTerms (wRuns g alts k) ts m1 fun _ => 1) _ fun m1 => endsTermsM_tendsto ts m1) ?_
  filter_upwards [eventually_ge_atTop n] with k hk
  refine le_trans ?_ (le_ciSup (endsTermsM_bdd (.nonterminal x :: ts) m) k)
  simp only [wTerms]
  exact (monoI_le allMem hk x m trivial _ _ (fun m1 _ => ((monoI_self allMem k).terms ts m1 trivial _ _ (fun _ _ => zero_le_one) fun _ _ => le_refl _).1)
    fun _ _ => le_refl _).2

include hI in
/-- If from every memory with `I` each nonterminal ends with probability `q` or more, then lists of terms end with the product. -/
theorem endsTermsM_prod {q : Str → ℝ} (hq0 : ∀ x, 0 ≤ q x) {ts : List Term} (h : ∀ x, .nonterminal x ∈ ts → ∀ m, I m → q x ≤ endsM g alts x m) (m : M)
    (hm : I m) : (ts.map (termEnds q)).prod ≤ endsTermsM g alts ts m := by
  induction ts generalizing m with
  | nil =>
    refine le_of_eq ?_
    have : endsTermsM g alts [] m = ⨆ _ : Nat, (1 : ℝ) := rfl
    rw [this, ciSup_const]
    simp
  | cons t ts ih =>
    have ih' := ih (fun x hx => h x (List.mem_cons_of_mem _ hx))
    simp only [List.map_cons, List.prod_cons]
    cases t with
    | terminal u =>
      simp only [termEnds, one_mul]
      exact ih' m hm
    | nonterminal x =>
      simp only [termEnds]
      have hp := prod_termEnds_nonneg hq0 ts
      have h1 : ∀ n, (ts.map (termEnds q)).prod * wRuns g alts n x m (fun _ => 1) ≤ endsTermsM g alts (.nonterminal x :: ts) m := by
        intro n
        refine le_trans ?_ (endsTermsM_cons x ts m n)
        rw [← wRuns_scale]
        exact (monoI_self hI n x m hm _ _ (fun _ _ => by simpa using hp) fun m1 hm1 => by simpa using ih' m1 hm1).2
      have h2 : (ts.map (termEnds q)).prod * endsM g alts x m ≤ endsTermsM g alts (.nonterminal x :: ts) m :=
        le_of_tendsto ((endsM_tendsto x m).const_mul _) (Eventually.of_forall h1)
      refine le_trans ?_ h2
      rw [mul_comm]
      exact mul_le_mul_of_nonneg_left (h x List.mem_cons_self m hm) hp

end

theorem endsM_some {x : Str} {p : Production} (hf : firstOf g x = some p) (hb : ¬ Barren p) (m : M) :
    endsM g alts x m = ((alts m (posOf g x) p).map fun e => endsTermsM g alts e.1.terms e.2).sum / (alts m (posOf g x) p).length := by
  have h1 := (endsM_tendsto (g := g) (alts := alts) x m).comp (tendsto_add_atTop_nat 1)
  refine tendsto_nhds_unique h1 ?_
  have h2 : ∀ n, wRuns g alts (n + 1) x m (fun _ => 1) =
      ((alts m (posOf g x) p).map fun e => wTerms (wRuns g alts n) e.1.terms e.2 fun _ => 1).sum / (alts m (posOf g x) p).length := by
    intro n
    simp only [wRuns, hf, if_neg hb]
  refine Tendsto.congr (fun n => (h2 n).symm) (Tendsto.div_const ?_ _)
  exact tendsto_list_sum (f := fun (e : Expression × M) n => wTerms (wRuns g alts n) e.1.terms e.2 fun _ => 1) _ fun e _ => endsTermsM_tendsto _ _

theorem endsM_none {x : Str} (hf : firstOf g x = none) (m : M) : endsM g alts x m = 1 := by
  refine le_antisymm (endsM_le_one x m) ?_
  refine le_trans (le_of_eq ?_) (le_ciSup (endsM_bdd x m) 1)
  simp [wRuns, hf]

/-- A strategy that chooses like the random walk, except that finitely often (each time `u` decreases) it may choose otherwise, ends with probability 1 if the
random walk does, from all nonterminals met. -/
theorem endsM_finite {R : Str → Prop} (hR : ∀ x p, R x → firstOf g x = some p → ∀ e ∈ p.rhs, ∀ y, .nonterminal y ∈ e.terms → R y)
    (hw : ∀ x, R x → endLimit g uniformAlts 0 x = 1) (u : M → Nat)
    (hu : ∀ m x p, firstOf g x = some p →
      ((alts m (posOf g x) p).map (·.1) = p.rhs ∧ ∀ e ∈ alts m (posOf g x) p, u e.2 ≤ u m) ∨
      (alts m (posOf g x) p ≠ [] ∧ ∀ e ∈ alts m (posOf g x) p, e.1 ∈ p.rhs ∧ u e.2 < u m)) :
    ∀ k m, u m ≤ k → ∀ x, R x → endsM g alts x m = 1 := by
  have hbarren : ∀ x p, R x → firstOf g x = some p → ¬ Barren p := by
    intro x p hx hf hb
    have h1 := hw x hx
    rw [endLimit_eq, afterOne, hf] at h1
    simp only [if_pos hb] at h1
    exact zero_ne_one h1
  have hone : ∀ ts : List Term, (ts.map (termEnds fun _ => 1)).prod = 1 := by
    intro ts
    induction ts with
    | nil => rfl
    | cons t ts ih => cases t <;> simp [termEnds, ih]
  intro k
  induction k using Nat.strong_induction_on with
  | _ k ih =>
    -- chances at least those of the random walk
    have main : ∀ j m, u m ≤ k → ∀ x, R x → ((endChance g uniformAlts j 0 x : ℚ) : ℝ) ≤ endsM g alts x m := by
      intro j
      induction j with
      | zero => intro m hm x hx; simpa [endChance] using endsM_nonneg x m
      | succ j ihj =>
        intro m hm x hx
        cases hf : firstOf g x with
        | none => rw [endsM_none hf]; exact (endChance_bounds _ _ _).2
        | some p =>
          have hb := hbarren x p hx hf
          have hI : ∀ k, ∀ m x p (e : Expression × M), u m ≤ k → firstOf g x = some p → e ∈ alts m (posOf g x) p → u e.2 ≤ k := by
            intro k m x p e hm hf he
            rcases hu m x p hf with ⟨_, h⟩ | ⟨_, h⟩
            · exact (h e he).trans hm
            · exact (h e he).2.le.trans hm
          rw [endsM_some hf hb]
          rcases hu m x p hf with ⟨h1, h2⟩ | ⟨h1, h2⟩
          · rw [endChance_succ, afterOne, hf]
            simp only [if_neg hb, uniformAlts]
            rw [← h1, List.map_map, List.length_map]
            refine div_le_div_of_nonneg_right (sum_map_mono fun e he => ?_) (Nat.cast_nonneg _)
            have he' : e.1 ∈ p.rhs := by rw [← h1]; exact List.mem_map_of_mem he
            refine endsTermsM_prod (I := fun m => u m ≤ k) (hI k) (fun y => (endChance_bounds _ _ _).1) (fun y hy m' hm' => ?_) e.2 ((h2 e he).trans hm)
            rw [show endChance g uniformAlts j (0 + 1) y = endChance g uniformAlts j 0 y from endChance_const (fun p => p.rhs) j (0 + 1) y]
            exact ihj m' hm' y (hR x p hx hf e.1 he' y hy)
          · refine (endChance_bounds _ _ _).2.trans ?_
            rw [le_div_iff₀ (by exact_mod_cast List.length_pos_iff.mpr h1), one_mul]
            have : ((alts m (posOf g x) p).length : ℝ) = ((alts m (posOf g x) p).map fun _ => (1 : ℝ)).sum := by simp
            rw [this]
            refine sum_map_mono fun e he => ?_
            obtain ⟨h3, h4⟩ := h2 e he
            rw [← hone e.1.terms]
            refine endsTermsM_prod (I := fun m => u m ≤ u e.2) (hI _) (fun _ => zero_le_one) (fun y hy m' hm' => ?_) e.2 (le_refl _)
            exact (ih (u e.2) (by omega) m' hm' y (hR x p hx hf e.1 h3 y hy)).ge
    intro m hm x hx
    refine le_antisymm (endsM_le_one x m) ?_
    rw [← hw x hx]
    exact ciSup_le fun j => main j m hm x hx

end Bnf
