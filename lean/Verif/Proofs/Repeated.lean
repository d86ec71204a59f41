import Mathlib.NumberTheory.Harmonic.Defs
import Mathlib.Analysis.SpecificLimits.Basic
import Mathlib.Topology.Algebra.InfiniteSum.Real
import Verif.Spec.Repeated
import Verif.Proofs.Chance

/-!
# Several calls of generation in a row: lemmas
-/

set_option autoImplicit false

namespace Bnf
open Bnf.Spec

/-- Lists of outcomes with their probabilities. -/
def rowDist (D : Dist) : Nat → List (List Str × ℚ)
  | 0 => [([], 1)]
  | k + 1 => D.flatMap fun o => (rowDist D k).map fun o' => (o.1 :: o'.1, o.2 * o'.2)

def rowMass (R : List (List Str × ℚ)) (Q : List Str → Prop) [DecidablePred Q] : ℚ := (R.map fun o => if Q o.1 then o.2 else 0).sum

abbrev RowRun := List Nat × ℚ × List Str

def rowRuns (rs : List Run) : Nat → List RowRun
  | 0 => [([], 1, [])]
  | k + 1 => rs.flatMap fun r => (rowRuns rs k).map fun r' => (r.1 ++ r'.1, r.2.1 * r'.2.1, r.2.2 :: r'.2.2)

theorem rowRuns_dist {rs : List Run} {D : Dist} (h : rs.map (fun r => (r.2.2, r.2.1)) = D) (k : Nat) :
    (rowRuns rs k).map (fun r => (r.2.2, r.2.1)) = rowDist D k := by
  induction k with
  | zero => rfl
  | succ k ih =>
    rw [rowRuns, rowDist, ← ih, ← h, List.map_flatMap, List.flatMap_map]
    simp only [List.map_map]
    rfl

section
variable {run : List Nat × ℚ → GenRes (List Nat × ℚ)} {rs : List Run}

theorem rowRuns_sound (hs : ∀ r ∈ rs, ∀ rest v, run (r.1 ++ rest, v) = .done (.ok r.2.2) (rest, v * r.2.1)) (k : Nat) :
    ∀ r ∈ rowRuns rs k, ∀ rest v, inARow run k (r.1 ++ rest, v) = some (r.2.2, (rest, v * r.2.1)) := by
  induction k with
  | zero =>
    intro r hr rest v
    simp only [rowRuns, List.mem_singleton] at hr
    subst hr
    simp [inARow]
  | succ k ih =>
    intro r hr rest v
    simp only [rowRuns, List.mem_flatMap, List.mem_map] at hr
    obtain ⟨r1, h1, r2, h2, rfl⟩ := hr
    simp only [inARow, List.append_assoc]
    rw [hs r1 h1]
    simp only
    rw [ih r2 h2]
    simp [mul_assoc]

theorem inARow_dead (hd : ∀ t s st, run (t, 0) = .done (.ok s) st → st.2 = 0) (k : Nat) :
    ∀ t r, inARow run k (t, 0) = some r → r.2.2 = 0 := by
  induction k with
  | zero => intro t r h; simp only [inARow, Option.some.injEq] at h; subst h; rfl
  | succ k ih =>
    intro t r h
    simp only [inARow] at h
    cases hx : run (t, 0) with
    | fuel => rw [hx] at h; cases h
    | panic => rw [hx] at h; cases h
    | done q st =>
      rw [hx] at h
      cases q with
      | error e => simp at h
      | ok s =>
        simp only [Option.map_eq_some_iff] at h
        obtain ⟨r', h1, rfl⟩ := h
        have h0 := hd t s st hx
        obtain ⟨t', w⟩ := st
        simp only at h0
        subst h0
        exact ih t' r' h1

theorem rowRuns_complete (hd : ∀ t s st, run (t, 0) = .done (.ok s) st → st.2 = 0)
    (hc : ∀ t v s t' v', run (t, v) = .done (.ok s) (t', v') → v' ≠ 0 → ∃ r ∈ rs, r.2.2 = s ∧ t = r.1 ++ t' ∧ v' = v * r.2.1) (k : Nat) :
    ∀ t v ss t' v', inARow run k (t, v) = some (ss, (t', v')) → v' ≠ 0 → ∃ r ∈ rowRuns rs k, r.2.2 = ss ∧ t = r.1 ++ t' ∧ v' = v * r.2.1 := by
  induction k with
  | zero =>
    intro t v ss t' v' h _
    simp only [inARow, Option.some.injEq, Prod.mk.injEq] at h
    obtain ⟨rfl, rfl, rfl⟩ := h
    exact ⟨_, List.mem_singleton_self _, rfl, rfl, by simp⟩
  | succ k ih =>
    intro t v ss t' v' h hv
    simp only [inARow] at h
    cases hx : run (t, v) with
    | fuel => rw [hx] at h; cases h
    | panic => rw [hx] at h; cases h
    | done q st =>
      rw [hx] at h
      cases q with
      | error e => simp at h
      | ok s =>
        simp only [Option.map_eq_some_iff] at h
        obtain ⟨⟨ss', t2, v2⟩, h1, h2⟩ := h
        simp only [Prod.mk.injEq] at h2
        obtain ⟨rfl, rfl, rfl⟩ := h2
        obtain ⟨t1, v1⟩ := st
        have hv1 : v1 ≠ 0 := by
          rintro rfl
          exact hv (inARow_dead hd k _ _ h1)
        obtain ⟨r1, k1, rfl, k2, k3⟩ := hc t v s t1 v1 hx hv1
        obtain ⟨r2, l1, rfl, l2, l3⟩ := ih t1 v1 ss' t2 v2 h1 hv
        refine ⟨(r1.1 ++ r2.1, r1.2.1 * r2.2.1, r1.2.2 :: r2.2.2), ?_, rfl, ?_, ?_⟩
        · simp only [rowRuns, List.mem_flatMap, List.mem_map]
          exact ⟨r1, k1, r2, l1, rfl⟩
        · rw [k2, l2, List.append_assoc]
        · rw [l3, k3, mul_assoc]

theorem rowRuns_nodup (hs : ∀ r ∈ rs, ∀ rest v, run (r.1 ++ rest, v) = .done (.ok r.2.2) (rest, v * r.2.1))
    (hn : (rs.map (·.1)).Nodup) (k : Nat) : ((rowRuns rs k).map (·.1)).Nodup := by
  induction k with
  | zero => simp [rowRuns]
  | succ k ih =>
    simp only [rowRuns, List.map_flatMap, List.map_map]
    rw [List.nodup_flatMap]
    constructor
    · intro r hr
      show ((rowRuns rs k).map ((fun t => r.1 ++ t) ∘ (·.1))).Nodup
      rw [← List.map_map]
      exact ih.map (fun a b h => List.append_cancel_left h)
    · have hpw := hn
      rw [List.Nodup, List.pairwise_map] at hpw
      refine hpw.imp_of_mem ?_
      intro r r' hr hr' hne t ht ht'
      simp only [Function.comp_apply, List.mem_map] at ht ht'
      obtain ⟨q, _, rfl⟩ := ht
      obtain ⟨q', _, hq⟩ := ht'
      have h1 := hs r hr q.1 1
      have h2 := hs r' hr' q'.1 1
      rw [hq, h1] at h2
      simp only [GenRes.done.injEq, Prod.mk.injEq] at h2
      obtain ⟨_, h3, _⟩ := h2
      rw [h3] at hq
      exact hne (List.append_cancel_right hq).symm

theorem rowChance_of (hs : ∀ r ∈ rs, ∀ rest v, run (r.1 ++ rest, v) = .done (.ok r.2.2) (rest, v * r.2.1))
    (hd : ∀ t s st, run (t, 0) = .done (.ok s) st → st.2 = 0)
    (hc : ∀ t v s t' v', run (t, v) = .done (.ok s) (t', v') → v' ≠ 0 → ∃ r ∈ rs, r.2.2 = s ∧ t = r.1 ++ t' ∧ v' = v * r.2.1)
    (hn : (rs.map (·.1)).Nodup) {D : Dist} (hD : rs.map (fun r => (r.2.2, r.2.1)) = D) (k : Nat) (Q : List Str → Prop) [DecidablePred Q] :
    HasRowChance run k Q (rowMass (rowDist D k) Q) := by
  refine ⟨(rowRuns rs k).map (·.1), rowRuns_nodup hs hn k, fun t ht => ?_, ?_⟩
  · cases hx : inARow run k (t, 1) with
    | none => rw [hx] at ht; simp [rowWeight] at ht
    | some r =>
      obtain ⟨ss, t', v'⟩ := r
      rw [hx] at ht
      cases t' with
      | cons a as => simp [rowWeight] at ht
      | nil =>
        have hv : v' ≠ 0 := by
          rintro rfl
          simp [rowWeight] at ht
        obtain ⟨r, h1, _, h2, _⟩ := rowRuns_complete hd hc k t 1 ss [] v' hx hv
        rw [List.append_nil] at h2
        exact List.mem_map.mpr ⟨r, h1, h2.symm⟩
  · rw [rowMass, ← rowRuns_dist hD, List.map_map, List.map_map]
    congr 1
    apply List.map_congr_left
    intro r hr
    have := rowRuns_sound hs k r hr [] 1
    rw [List.append_nil] at this
    simp only [Function.comp_apply, this, rowWeight, one_mul]

end

theorem rowChance_traverse {G : Production → Prop} {g : Grammar} (hG : ∀ p ∈ g.productions, G p) {S : Strategy (List Nat × ℚ)}
    {alts : Nat → Production → List Expression} (hS : Draws G S alts) (n d : Nat) (x : Str) (k : Nat) (Q : List Str → Prop) [DecidablePred Q] :
    HasRowChance (fun st => traverse g S (acceptAll _) n x d st) k Q (rowMass (rowDist (dist g alts n d x) k) Q) :=
  rowChance_of (runs_sound hG hS n d x) (traverse_dead hG hS n d x) (runs_complete hG hS n d x) (runs_nodup hG hS n d x) (runs_dist g alts n d x) k Q

theorem hasRowChance_unique {run : List Nat × ℚ → GenRes (List Nat × ℚ)} {k : Nat} {Q : List Str → Prop} [DecidablePred Q] {p q : ℚ}
    (h : HasRowChance run k Q p) (h' : HasRowChance run k Q q) : p = q := by
  obtain ⟨l, h1, h2, rfl⟩ := h
  obtain ⟨l', h3, h4, rfl⟩ := h'
  exact sum_eq_of_cover h1 h3 h2 h4

theorem inARow_length {σ : Type} {run : σ → GenRes σ} : ∀ {k : Nat} {st : σ} {r : List Str × σ}, inARow run k st = some r → r.1.length = k
  | 0, _, _, h => by simp only [inARow, Option.some.injEq] at h; subst h; rfl
  | k + 1, st, r, h => by
    simp only [inARow] at h
    cases hx : run st with
    | fuel => rw [hx] at h; cases h
    | panic => rw [hx] at h; cases h
    | done q st' =>
      rw [hx] at h
      cases q with
      | error e => simp at h
      | ok s =>
        simp only [Option.map_eq_some_iff] at h
        obtain ⟨r', h1, rfl⟩ := h
        simp [inARow_length h1]

theorem rowChance_congr {run : List Nat × ℚ → GenRes (List Nat × ℚ)} {k : Nat} {Q Q' : List Str → Prop} [DecidablePred Q] [DecidablePred Q'] {p : ℚ}
    (h : ∀ ss : List Str, ss.length = k → (Q ss ↔ Q' ss)) (hp : HasRowChance run k Q p) : HasRowChance run k Q' p := by
  have key : ∀ t, rowWeight Q (inARow run k (t, 1)) = rowWeight Q' (inARow run k (t, 1)) := by
    intro t
    cases hx : inARow run k (t, 1) with
    | none => rfl
    | some r =>
      obtain ⟨ss, t', w⟩ := r
      have hl := inARow_length hx
      cases t' with
      | nil => simp only [rowWeight, h ss hl]
      | cons _ _ => rfl
  obtain ⟨l, h1, h2, h3⟩ := hp
  exact ⟨l, h1, fun t ht => h2 t (by rw [key]; exact ht), by simpa only [key] using h3⟩

/-! ## Masses -/

/-- Split off the first call. -/
theorem rowMass_succ (D : Dist) (k : Nat) (Q : List Str → Prop) [DecidablePred Q] :
    rowMass (rowDist D (k + 1)) Q = (D.map fun o => o.2 * rowMass (rowDist D k) (fun ss => Q (o.1 :: ss))).sum := by
  unfold rowMass
  rw [rowDist, List.map_flatMap, sum_flatMap]
  congr 1
  apply List.map_congr_left
  intro o _
  rw [List.map_map, ← List.sum_map_mul_left]
  congr 1
  apply List.map_congr_left
  intro o' _
  simp only [Function.comp_apply]
  split <;> simp

theorem rowMass_congr (R : List (List Str × ℚ)) {Q Q' : List Str → Prop} [DecidablePred Q] [DecidablePred Q'] (h : ∀ ss, Q ss ↔ Q' ss) :
    rowMass R Q = rowMass R Q' := by
  unfold rowMass
  congr 1
  apply List.map_congr_left
  intro o _
  simp [h]

theorem rowMass_false (R : List (List Str × ℚ)) (Q : List Str → Prop) [DecidablePred Q] (h : ∀ ss, ¬ Q ss) : rowMass R Q = 0 := by
  unfold rowMass
  simp [h]

/-- Independence. -/
theorem rowMass_product (D : Dist) : ∀ Ps : List (Str → Bool),
    rowMass (rowDist D Ps.length) (fun ss => ∀ x ∈ Ps.zip ss, x.1 x.2 = true) = (Ps.map D.mass).prod
  | [] => by simp [rowMass, rowDist]
  | P :: Ps => by
    rw [List.length_cons, rowMass_succ, List.map_cons, List.prod_cons, ← rowMass_product D Ps, Dist.mass, ← List.sum_map_mul_right]
    congr 1
    apply List.map_congr_left
    intro o _
    simp only [List.zip_cons_cons, List.mem_cons, forall_eq_or_imp]
    by_cases hP : P o.1 = true
    · simp only [hP, true_and, if_true]
    · simp only [hP, false_and, Bool.false_eq_true, if_false, zero_mul]
      rw [rowMass_false _ _ (fun _ h => h), mul_zero]

/-! ## Listed sentences -/

theorem listGrammar_dist (s : Str) {L : List Str} (hL : L ≠ []) (n d : Nat) :
    dist (listGrammar s L) uniformAlts (n + 1) d s = L.map fun t => (t, 1 / (L.length : ℚ)) := by
  have h1 : firstOf (listGrammar s L) s = some ⟨.nonterminal s, L.map fun t => ⟨[.terminal t]⟩⟩ := by simp [firstOf, listGrammar]
  have h2 : ¬ Barren ⟨.nonterminal s, L.map fun t => ⟨[.terminal t]⟩⟩ := by
    rintro (h | h)
    · simp at h; exact hL h
    · cases L with
      | nil => exact hL rfl
      | cons a L => simp at h
  rw [Spec.dist, h1]
  simp only
  rw [if_neg h2]
  simp only [uniformAlts, List.length_map, List.flatMap_map, distTerms, List.map_cons, List.map_nil, List.append_nil]
  rw [← List.map_eq_flatMap]

theorem count_unseen {L : List Str} (hL : L.Nodup) (seen : List Str) {t : Str} (ht : t ∈ L) :
    (L.countP fun u => decide (u ∉ t :: seen)) + (if t ∈ seen then 0 else 1) = L.countP fun u => decide (u ∉ seen) := by
  induction L with
  | nil => simp at ht
  | cons a L ih =>
    obtain ⟨h1, h2⟩ := List.nodup_cons.mp hL
    rw [List.countP_cons, List.countP_cons]
    rcases List.mem_cons.mp ht with rfl | ht
    · have : (L.countP fun u => decide (u ∉ t :: seen)) = L.countP fun u => decide (u ∉ seen) := by
        apply List.countP_congr
        intro u hu
        have : u ≠ t := fun h => h1 (h ▸ hu)
        simp [this]
      rw [this]
      by_cases h : t ∈ seen <;> simp [h]
    · have ih := ih h2 ht
      have : a ≠ t := fun h => h1 (h ▸ ht)
      rw [← ih]
      by_cases h : a ∈ seen <;> simp [h, this] <;> omega

theorem missing_zero_right (n k : Nat) : missing n k 0 = 0 := by cases k <;> simp [missing]

theorem sum_split (L : List Str) (p : Str → Bool) (a b : ℚ) :
    (L.map fun t => if p t then a else b).sum = L.countP p * a + (L.length - L.countP p) * b := by
  induction L with
  | nil => simp
  | cons t L ih =>
    rw [List.map_cons, List.sum_cons, ih, List.countP_cons, List.length_cons]
    by_cases h : p t = true
    · simp only [h, if_true]; push_cast; ring
    · simp only [h, Bool.false_eq_true, if_false]; push_cast; ring

theorem rowMass_missing {L : List Str} (hL : L.Nodup) (hne : L ≠ []) (k : Nat) (seen : List Str) :
    rowMass (rowDist (L.map fun t => (t, 1 / (L.length : ℚ))) k) (fun ss => ∃ t ∈ L, t ∉ seen ∧ t ∉ ss) =
      missing L.length k (L.countP fun u => decide (u ∉ seen)) := by
  have hn : (L.length : ℚ) ≠ 0 := by simpa using hne
  induction k generalizing seen with
  | zero =>
    simp only [rowDist, rowMass, List.map_cons, List.map_nil, List.sum_cons, List.sum_nil, List.not_mem_nil, not_false_eq_true, and_true, add_zero, missing]
    by_cases h : ∃ t ∈ L, t ∉ seen
    · rw [if_pos h, if_neg]
      obtain ⟨t, h1, h2⟩ := h
      have := List.countP_pos_iff (p := fun u => decide (u ∉ seen)).mpr ⟨t, h1, by simpa using h2⟩
      omega
    · rw [if_neg h, if_pos]
      rw [List.countP_eq_zero]
      intro t ht
      simp only [decide_eq_true_eq, not_not]
      by_contra h'
      exact h ⟨t, ht, h'⟩
  | succ k ih =>
    rw [rowMass_succ, List.map_map]
    have step : ∀ t ∈ L, ((fun o : Str × ℚ => o.2 * rowMass (rowDist (L.map fun t => (t, 1 / (L.length : ℚ))) k)
        (fun ss => ∃ u ∈ L, u ∉ seen ∧ u ∉ o.1 :: ss)) ∘ fun t => (t, 1 / (L.length : ℚ))) t =
        if decide (t ∉ seen) then 1 / (L.length : ℚ) * missing L.length k ((L.countP fun u => decide (u ∉ seen)) - 1)
        else 1 / (L.length : ℚ) * missing L.length k (L.countP fun u => decide (u ∉ seen)) := by
      intro t ht
      have h1 : rowMass (rowDist (L.map fun t => (t, 1 / (L.length : ℚ))) k) (fun ss => ∃ u ∈ L, u ∉ seen ∧ u ∉ t :: ss) =
          rowMass (rowDist (L.map fun t => (t, 1 / (L.length : ℚ))) k) (fun ss => ∃ u ∈ L, u ∉ t :: seen ∧ u ∉ ss) := by
        apply rowMass_congr
        intro ss
        simp only [List.mem_cons, not_or]
        exact ⟨fun ⟨u, a, b, c, d⟩ => ⟨u, a, ⟨c, b⟩, d⟩, fun ⟨u, a, ⟨c, b⟩, d⟩ => ⟨u, a, b, c, d⟩⟩
      have h2 := count_unseen hL seen ht
      simp only [Function.comp_apply]
      rw [h1, ih]
      by_cases h : t ∈ seen
      · simp only [h, if_true, add_zero, not_true_eq_false, decide_false, Bool.false_eq_true, if_false] at h2 ⊢
        rw [h2]
      · simp only [h, if_false, not_false_eq_true, decide_true, if_true] at h2 ⊢
        rw [← h2, Nat.add_sub_cancel]
    rw [List.map_congr_left step, sum_split]
    cases hm : L.countP fun u => decide (u ∉ seen) with
    | zero => simp [missing_zero_right]
    | succ m =>
      rw [Nat.add_sub_cancel, missing]
      push_cast
      field_simp

/-! ## The expected number of draws -/

theorem missing_bounds {n : Nat} (k : Nat) : ∀ m ≤ n, 0 ≤ missing n k m ∧ missing n k m ≤ 1 := by
  induction k with
  | zero => intro m _; unfold missing; split <;> norm_num
  | succ k ih =>
    intro m hm
    cases m with
    | zero => simp [missing]
    | succ m =>
      have h1 := ih m (by omega)
      have h2 := ih (m + 1) hm
      have hn : (0 : ℚ) < n := by exact_mod_cast (by omega : 0 < n)
      have h3 : (0 : ℚ) ≤ (m + 1 : ℚ) / n := by positivity
      have h4 : (m + 1 : ℚ) / n ≤ 1 := by rw [div_le_one hn]; exact_mod_cast hm
      rw [missing]
      constructor
      · nlinarith
      · nlinarith

/-- In exactly as many draws as things are missing, they all appear with probability m! / n ^ m. -/
theorem missing_self (n : Nat) : ∀ m ≤ n, 0 < n → (∀ k < m, missing n k m = 1) ∧ missing n m m = 1 - (m.factorial : ℚ) / n ^ m := by
  intro m
  induction m with
  | zero => intro _ _; simp [missing]
  | succ m ih =>
    intro hm hn
    obtain ⟨h1, h2⟩ := ih (by omega) hn
    have h3 : ∀ k < m + 1, missing n k (m + 1) = 1 := by
      intro k
      induction k with
      | zero => intro _; simp [missing]
      | succ k ihk =>
        intro hk
        rw [missing, h1 k (by omega), ihk (by omega)]
        ring
    refine ⟨h3, ?_⟩
    have hn' : (n : ℚ) ≠ 0 := by exact_mod_cast hn.ne'
    rw [missing, h2, h3 m (by omega), Nat.factorial_succ]
    push_cast
    field_simp
    ring

theorem missing_partial {n : Nat} (hn : 0 < n) (K : Nat) : ∀ m ≤ n, (∑ k ∈ Finset.range K, missing n k m) ≤ n * harmonic m := by
  induction K with
  | zero =>
    intro m _
    simp only [Finset.range_zero, Finset.sum_empty]
    have : 0 ≤ harmonic m := Finset.sum_nonneg fun i _ => by positivity
    positivity
  | succ K ih =>
    intro m hm
    rw [Finset.sum_range_succ']
    cases m with
    | zero => simp [missing_zero_right]
    | succ m =>
      have h1 := ih m (by omega)
      have h2 := ih (m + 1) hm
      have hn' : (0 : ℚ) < n := by exact_mod_cast hn
      have h3 : (0 : ℚ) ≤ (m + 1 : ℚ) / n := by positivity
      have h4 : (m + 1 : ℚ) / n ≤ 1 := by rw [div_le_one hn']; exact_mod_cast hm
      simp only [missing, Nat.add_eq_zero_iff, one_ne_zero, and_false, if_false]
      rw [Finset.sum_add_distrib, ← Finset.mul_sum, ← Finset.mul_sum]
      rw [harmonic_succ] at h2 ⊢
      have h5 := mul_le_mul_of_nonneg_left h1 h3
      have h6 := mul_le_mul_of_nonneg_left h2 (sub_nonneg.mpr h4)
      have h7 : (m + 1 : ℚ) / n * (n * harmonic m) + (1 - (m + 1 : ℚ) / n) * (n * (harmonic m + (↑(m + 1) : ℚ)⁻¹)) + 1 = n * (harmonic m + (↑(m + 1) : ℚ)⁻¹) := by
        push_cast
        field_simp
        ring
      linarith

/-- The expected number of draws until nothing is missing. -/
theorem missing_hasSum {n : Nat} (hn : 0 < n) : ∀ m ≤ n, HasSum (fun k => (missing n k m : ℝ)) ((n * harmonic m : ℚ) : ℝ) := by
  have hs : ∀ m ≤ n, Summable (fun k => (missing n k m : ℝ)) := by
    intro m hm
    refine summable_of_sum_range_le (c := ((n * harmonic m : ℚ) : ℝ)) (fun k => by exact_mod_cast (missing_bounds k m hm).1) fun K => ?_
    have := missing_partial hn K m hm
    exact_mod_cast this
  intro m
  induction m with
  | zero => intro _; simpa [missing_zero_right] using (hasSum_zero : HasSum (fun _ : ℕ => (0 : ℝ)) 0)
  | succ m ih =>
    intro hm
    have h1 := ih (by omega)
    have h2 := (hs (m + 1) hm).hasSum
    set T := ∑' k, (missing n k (m + 1) : ℝ) with hT
    have h3 : HasSum (fun k => (missing n (k + 1) (m + 1) : ℝ)) ((m + 1 : ℝ) / n * ((n * harmonic m : ℚ) : ℝ) + (1 - (m + 1 : ℝ) / n) * T) := by
      have := (h1.mul_left ((m + 1 : ℝ) / n)).add (h2.mul_left (1 - (m + 1 : ℝ) / n))
      refine this.congr_fun ?_
      intro k
      simp [missing]
    have h4 : HasSum (fun k => (missing n (k + 1) (m + 1) : ℝ)) (T - 1) := by
      have := (hasSum_nat_add_iff' (f := fun k => (missing n k (m + 1) : ℝ)) 1).mpr h2
      simpa [missing] using this
    have h5 := h3.unique h4
    have hn' : (n : ℝ) ≠ 0 := by exact_mod_cast hn.ne'
    have h6 : T = ((n * harmonic (m + 1) : ℚ) : ℝ) := by
      rw [harmonic_succ]
      push_cast at h5 ⊢
      have hm' : ((m : ℝ) + 1) ≠ 0 := by positivity
      field_simp at h5 ⊢
      linarith
    rw [← h6]
    exact h2

end Bnf
