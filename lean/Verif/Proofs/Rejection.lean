import Mathlib.Topology.Algebra.Order.LiminfLimsup
import Mathlib.Topology.Order.MonotoneConvergence
import Mathlib.Topology.Instances.Real.Lemmas
import Verif.Spec.Rejection
import Verif.Proofs.Extinction

/-!
# Generation with a callback: rejection sampling
-/

set_option autoImplicit false

namespace Bnf
open Bnf.Spec Filter Topology

theorem verdict_apply (ok : Str → Str → Bool) (st : List Nat × ℚ) (x s : Str) : verdict ok st x s = (ok x s, st) := rfl

/-! ## Runs with repetitions -/

def keptRuns (g : Grammar) (alts : Nat → Production → List Expression) (ok : Str → Str → Bool) : Nat → Nat → Str → List Run
  | 0, _, _ => []
  | n + 1, d, x =>
    match firstOf g x with
    | none => [([], 1, x)]
    | some p => if Barren p then [] else
      (alts d p).zipIdx.flatMap fun e => (runsTerms (keptRuns g alts ok n (d + 1)) e.1.terms).flatMap fun r =>
        if ok x r.2.2 then [(e.2 :: r.1, r.2.1 / (alts d p).length, r.2.2)]
        else (keptRuns g alts ok n d x).map fun r' => (e.2 :: (r.1 ++ r'.1), r.2.1 / (alts d p).length * r'.2.1, r'.2.2)

theorem keptRuns_dist (g : Grammar) (alts : Nat → Production → List Expression) (ok : Str → Str → Bool) (n d : Nat) (x : Str) :
    (keptRuns g alts ok n d x).map (fun r => (r.2.2, r.2.1)) = distKept g alts ok n d x := by
  induction n generalizing d x with
  | zero => rfl
  | succ n ih =>
    simp only [keptRuns, distKept]
    cases firstOf g x with
    | none => rfl
    | some p =>
      simp only
      by_cases hb : Barren p
      · rw [if_pos hb, if_pos hb]; rfl
      · rw [if_neg hb, if_neg hb]
        rw [List.map_flatMap, ← flatMap_zipIdx _ (alts d p) 0]
        congr 1
        funext e
        rw [← runsTerms_dist (ih (d + 1)), List.map_flatMap, List.flatMap_map]
        congr 1
        funext r
        by_cases h : ok x r.2.2 = true
        · simp only [h, if_true, List.map_cons, List.map_nil]
        · simp only [h, Bool.false_eq_true, if_false, List.map_map, ← ih d x]
          rfl

section
variable {G : Production → Prop} {g : Grammar} (hG : ∀ p ∈ g.productions, G p) {S : Strategy (List Nat × ℚ)} {alts : Nat → Production → List Expression}
  {ok : Str → Str → Bool}

include hG in
theorem keptRuns_sound (hS : Draws G S alts) (n d : Nat) (x : Str) : ∀ r, r ∈ keptRuns g alts ok n d x → ∀ rest v,
    traverse g S (verdict ok) n x d (r.1 ++ rest, v) = .done (.ok r.2.2) (rest, v * r.2.1) := by
  induction n generalizing d x with
  | zero => intro r hr; simp [keptRuns] at hr
  | succ n ih =>
    intro r hr rest v
    simp only [keptRuns] at hr
    cases hf : firstOf g x with
    | none =>
      rw [hf] at hr
      simp only [List.mem_singleton] at hr
      subst hr
      rw [traverse, firstOf_none hf]
      simp
    | some p =>
      rw [hf] at hr
      simp only at hr
      by_cases hb : Barren p
      · rw [if_pos hb] at hr; simp at hr
      · rw [if_neg hb] at hr
        simp only [List.mem_flatMap] at hr
        obtain ⟨⟨e, i⟩, he, r', hr', hr⟩ := hr
        obtain ⟨a, ha⟩ := firstOf_some hf
        have hc : productionHasNoChoice p = false := by
          rw [Bool.eq_false_iff]; intro h; exact hb ((barren_iff p).mp h)
        have hne : p.rhs ≠ [] := fun h => hb (.inl h)
        have hi := List.mem_zipIdx he
        simp only [Nat.zero_add, Nat.zero_le, Nat.sub_zero, true_and] at hi
        have hev := fun rest v => runsTerms_sound (trav := fun nt st => traverse g S (verdict ok) n nt (d + 1) st)
          (fun y r hr => ih (d + 1) y r hr) hr' rest v
        rw [traverse, ha]
        simp only [hc, Bool.false_eq_true, if_false]
        by_cases hk : ok x r'.2.2 = true
        · rw [if_pos hk] at hr
          simp only [List.mem_singleton] at hr
          subst hr
          simp only [List.cons_append]
          rw [hS.step i _ v a p d (hG p (firstOf_mem hf)) hne hi.1]
          simp only [← hi.2]
          rw [hev]
          simp only [verdict_apply, hk, if_true, GenRes.done.injEq, true_and, Prod.mk.injEq]
          ring
        · rw [if_neg hk] at hr
          simp only [List.mem_map] at hr
          obtain ⟨r2, hr2, rfl⟩ := hr
          simp only [List.cons_append, List.append_assoc]
          rw [hS.step i _ v a p d (hG p (firstOf_mem hf)) hne hi.1]
          simp only [← hi.2]
          rw [hev]
          simp only [verdict_apply, hk, Bool.false_eq_true, if_false]
          rw [ih d x r2 hr2 rest (v / (alts d p).length * r'.2.1)]
          simp only [GenRes.done.injEq, true_and, Prod.mk.injEq]
          ring

include hG in
theorem kept_dead (hS : Draws G S alts) (n d : Nat) : Dead (fun x st => traverse g S (verdict ok) n x d st) := by
  induction n generalizing d with
  | zero => intro x t s st h; simp [traverse] at h
  | succ n ih =>
    intro x t s st h
    simp only [traverse] at h
    cases hf : findProduction x g.productions 0 with
    | none =>
      rw [hf] at h
      injection h with _ h; subst h; rfl
    | some ap =>
      obtain ⟨a, p⟩ := ap
      rw [hf] at h
      simp only at h
      by_cases hc : productionHasNoChoice p = true
      · rw [if_pos hc] at h; simp at h
      · rw [if_neg hc] at h
        have hne : p.rhs ≠ [] := fun h0 => hc ((barren_iff p).mpr (.inl h0))
        obtain ⟨e, he⟩ := hS.dead t a p d (hG p (findProduction_mem hf)) hne
        rw [he] at h
        simp only at h
        cases hx : evalTerms (fun nt st => traverse g S (verdict ok) n nt (d + 1) st) e.terms [] (t.tail, 0) with
        | fuel => rw [hx] at h; cases h
        | panic => rw [hx] at h; cases h
        | done r st' =>
          rw [hx] at h
          cases r with
          | error e => simp at h
          | ok s' =>
            have h0 := evalTerms_dead (ih (d + 1)) _ _ _ hx
            obtain ⟨t', w⟩ := st'
            simp only at h0
            subst h0
            by_cases hk : ok x s' = true
            · simp only [verdict_apply, hk, if_true] at h
              injection h with _ h; subst h; rfl
            · simp only [verdict_apply, hk, Bool.false_eq_true, if_false] at h
              exact ih d x t' s st h

include hG in
theorem keptRuns_complete (hS : Draws G S alts) (n d : Nat) : ∀ x t v s t' v',
    traverse g S (verdict ok) n x d (t, v) = .done (.ok s) (t', v') → v' ≠ 0 →
      ∃ r ∈ keptRuns g alts ok n d x, r.2.2 = s ∧ t = r.1 ++ t' ∧ v' = v * r.2.1 := by
  induction n generalizing d with
  | zero => intro x t v s t' v' h; simp [traverse] at h
  | succ n ih =>
    intro x t v s t' v' h hv
    simp only [traverse] at h
    simp only [keptRuns]
    cases hf : firstOf g x with
    | none =>
      rw [firstOf_none hf] at h
      simp only [GenRes.done.injEq, Except.ok.injEq, Prod.mk.injEq] at h
      obtain ⟨rfl, rfl, rfl⟩ := h
      exact ⟨_, List.mem_singleton_self _, rfl, rfl, by simp⟩
    | some p =>
      obtain ⟨a, ha⟩ := firstOf_some hf
      rw [ha] at h
      simp only at h ⊢
      by_cases hc : productionHasNoChoice p = true
      · rw [if_pos hc] at h; simp at h
      · rw [if_neg hc] at h
        have hb : ¬ Barren p := fun h0 => hc ((barren_iff p).mpr h0)
        have hne : p.rhs ≠ [] := fun h0 => hb (.inl h0)
        rw [if_neg hb]
        by_cases ht : ∃ y ys, t = y :: ys ∧ y < (alts d p).length
        · obtain ⟨y, ys, rfl, hy⟩ := ht
          rw [hS.step y ys v a p d (hG p (firstOf_mem hf)) hne hy] at h
          simp only at h
          have hmem : ((alts d p)[y], y) ∈ (alts d p).zipIdx := by
            rw [List.mem_zipIdx_iff_getElem?]
            exact List.getElem?_eq_getElem hy
          cases hx : evalTerms (fun nt st => traverse g S (verdict ok) n nt (d + 1) st) (alts d p)[y].terms [] (ys, v / (alts d p).length) with
          | fuel => rw [hx] at h; cases h
          | panic => rw [hx] at h; cases h
          | done r st' =>
            rw [hx] at h
            cases r with
            | error e => simp at h
            | ok s' =>
              obtain ⟨t1, v1⟩ := st'
              by_cases hk : ok x s' = true
              · simp only [verdict_apply, hk, if_true] at h
                simp only [GenRes.done.injEq, Except.ok.injEq, Prod.mk.injEq] at h
                obtain ⟨rfl, rfl, rfl⟩ := h
                obtain ⟨r, h1, rfl, h2, h3⟩ := runsTerms_complete (kept_dead hG hS n (d + 1)) (ih (d + 1)) _ _ _ hx hv
                refine ⟨(y :: r.1, r.2.1 / (alts d p).length, r.2.2), ?_, rfl, ?_, ?_⟩
                · simp only [List.mem_flatMap]
                  exact ⟨_, hmem, r, h1, by rw [if_pos hk]; simp⟩
                · rw [h2]; rfl
                · rw [h3]; ring
              · simp only [verdict_apply, hk, Bool.false_eq_true, if_false] at h
                have hv1 : v1 ≠ 0 := by
                  rintro rfl
                  exact hv (kept_dead (ok := ok) hG hS n d x _ _ _ h)
                obtain ⟨r, h1, rfl, h2, h3⟩ := runsTerms_complete (kept_dead hG hS n (d + 1)) (ih (d + 1)) _ _ _ hx hv1
                obtain ⟨r2, k1, k2, k3, k4⟩ := ih d x t1 v1 s t' v' h hv
                refine ⟨(y :: (r.1 ++ r2.1), r.2.1 / (alts d p).length * r2.2.1, r2.2.2), ?_, k2, ?_, ?_⟩
                · simp only [List.mem_flatMap]
                  exact ⟨_, hmem, r, h1, by rw [if_neg hk]; exact List.mem_map.mpr ⟨r2, k1, rfl⟩⟩
                · rw [h2, k3]; simp
                · rw [k4, h3]; ring
        · exfalso
          obtain ⟨e, he⟩ := hS.zero t v a p d (hG p (firstOf_mem hf)) hne (fun y ys hy => by
            by_contra hlt; exact ht ⟨y, ys, hy, by omega⟩)
          rw [he] at h
          simp only at h
          cases hx : evalTerms (fun nt st => traverse g S (verdict ok) n nt (d + 1) st) e.terms [] (t.tail, 0) with
          | fuel => rw [hx] at h; cases h
          | panic => rw [hx] at h; cases h
          | done r st' =>
            rw [hx] at h
            cases r with
            | error e => simp at h
            | ok s' =>
              have h0 := evalTerms_dead (kept_dead (ok := ok) hG hS n (d + 1)) _ _ _ hx
              obtain ⟨t1, v1⟩ := st'
              simp only at h0
              subst h0
              by_cases hk : ok x s' = true
              · simp only [verdict_apply, hk, if_true] at h
                simp only [GenRes.done.injEq, Prod.mk.injEq] at h
                exact hv h.2.2.symm
              · simp only [verdict_apply, hk, Bool.false_eq_true, if_false] at h
                exact hv (kept_dead (ok := ok) hG hS n d x _ _ _ h)

include hG in
theorem keptRuns_prefix_free (hS : Draws G S alts) {n d : Nat} {x : Str} {r r' : Run} (h : r ∈ keptRuns g alts ok n d x)
    (h' : r' ∈ keptRuns g alts ok n d x) {a a' : List Nat} (he : r.1 ++ a = r'.1 ++ a') : r.1 = r'.1 ∧ a = a' := by
  have h1 := keptRuns_sound (g := g) hG hS n d x r h a 1
  have h2 := keptRuns_sound (g := g) hG hS n d x r' h' a' 1
  rw [he, h2] at h1
  simp only [GenRes.done.injEq, Prod.mk.injEq] at h1
  obtain ⟨_, rfl, _⟩ := h1
  exact ⟨List.append_cancel_right he, rfl⟩

theorem runsTerms_prefix_free {rs : Str → List Run} {trav : Str → List Nat × ℚ → GenRes (List Nat × ℚ)}
    (h : ∀ x r, r ∈ rs x → ∀ rest v, trav x (r.1 ++ rest, v) = .done (.ok r.2.2) (rest, v * r.2.1)) {ts : List Term} {r r' : Run}
    (hr : r ∈ runsTerms rs ts) (hr' : r' ∈ runsTerms rs ts) {a a' : List Nat} (he : r.1 ++ a = r'.1 ++ a') :
    r.1 = r'.1 ∧ a = a' := by
  have h1 := runsTerms_sound h hr a 1
  have h2 := runsTerms_sound h hr' a' 1
  rw [he, h2] at h1
  simp only [GenRes.done.injEq, Prod.mk.injEq] at h1
  obtain ⟨_, rfl, _⟩ := h1
  exact ⟨List.append_cancel_right he, rfl⟩

include hG in
theorem keptRuns_nodup (hS : Draws G S alts) (n d : Nat) (x : Str) : ((keptRuns g alts ok n d x).map (·.1)).Nodup := by
  induction n generalizing d x with
  | zero => simp [keptRuns]
  | succ n ih =>
    simp only [keptRuns]
    split
    · simp
    · split
      · simp
      · rename_i p _ _
        rw [List.map_flatMap, List.nodup_flatMap]
        have hts := fun ts => runsTerms_nodup (rs := keptRuns g alts ok n (d + 1)) (ih (d + 1))
          (fun y r r' a a' h h' he => keptRuns_prefix_free hG hS h h' he) ts
        constructor
        · rintro ⟨e, i⟩ _
          rw [List.map_flatMap, List.nodup_flatMap]
          constructor
          · intro r _
            by_cases hk : ok x r.2.2 = true
            · simp only [hk, if_true, List.map_cons, List.map_nil]; exact List.nodup_singleton _
            · simp only [hk, Bool.false_eq_true, if_false, List.map_map]
              have : ((fun r : Run => r.1) ∘ fun r' : Run => (i :: (r.1 ++ r'.1), r.2.1 / ((alts d p).length : ℚ) * r'.2.1, r'.2.2)) =
                  (fun t => i :: (r.1 ++ t)) ∘ (·.1) := rfl
              rw [this, ← List.map_map]
              exact (ih d x).map (fun a b h => by
                injection h with _ h
                exact List.append_cancel_left h)
          · have hpw := hts e.terms
            rw [List.Nodup, List.pairwise_map] at hpw
            refine hpw.imp_of_mem ?_
            intro r r' hr hr' hne t ht ht'
            have hform : ∀ q : Run, t ∈ (List.map (fun r : Run => r.1) (if ok x q.2.2 = true then
                [((i :: q.1, q.2.1 / ((alts d p).length : ℚ), q.2.2) : Run)] else
                (keptRuns g alts ok n d x).map fun r' => (i :: (q.1 ++ r'.1), q.2.1 / ((alts d p).length : ℚ) * r'.2.1, r'.2.2))) →
                ∃ b, t = i :: (q.1 ++ b) := by
              intro q hq
              by_cases hk : ok x q.2.2 = true
              · simp only [hk, if_true, List.map_cons, List.map_nil, List.mem_singleton] at hq
                exact ⟨[], by simpa using hq⟩
              · simp only [hk, Bool.false_eq_true, if_false, List.map_map, List.mem_map] at hq
                obtain ⟨q', _, rfl⟩ := hq
                exact ⟨q'.1, rfl⟩
            obtain ⟨b, hb⟩ := hform r ht
            obtain ⟨b', hb'⟩ := hform r' ht'
            rw [hb] at hb'
            injection hb' with _ hb'
            exact hne (runsTerms_prefix_free (trav := fun nt st => traverse g S (verdict ok) n nt (d + 1) st)
              (fun y r hr => keptRuns_sound hG hS n (d + 1) y r hr) hr hr' hb').1
        · have hpw : ((alts d p).zipIdx.map (·.2)).Nodup := by
            rw [List.zipIdx_map_snd]
            exact List.nodup_range'
          rw [List.Nodup, List.pairwise_map] at hpw
          refine hpw.imp ?_
          rintro ⟨e, i⟩ ⟨e', i'⟩ hne t ht ht'
          have hform : ∀ (e : Expression) (i : Nat), t ∈ (List.map (fun r : Run => r.1) ((runsTerms (keptRuns g alts ok n (d + 1)) e.terms).flatMap fun r =>
              if ok x r.2.2 = true then [((i :: r.1, r.2.1 / ((alts d p).length : ℚ), r.2.2) : Run)]
              else (keptRuns g alts ok n d x).map fun r' => (i :: (r.1 ++ r'.1), r.2.1 / ((alts d p).length : ℚ) * r'.2.1, r'.2.2))) →
              t.head? = some i := by
            intro e i h
            simp only [List.mem_map, List.mem_flatMap] at h
            obtain ⟨q, ⟨r, _, hq⟩, rfl⟩ := h
            by_cases hk : ok x r.2.2 = true
            · rw [if_pos hk, List.mem_singleton] at hq
              rw [hq]; rfl
            · rw [if_neg hk, List.mem_map] at hq
              obtain ⟨q', _, rfl⟩ := hq
              rfl
          have h1 := hform e i ht
          have h2 := hform e' i' ht'
          rw [h1] at h2
          injection h2 with h2
          exact hne h2

include hG in
theorem chance_of_keptRuns (hS : Draws G S alts) (n d : Nat) (x : Str) (P : Str → Bool) :
    HasChance (fun st => traverse g S (verdict ok) n x d st) P ((distKept g alts ok n d x).mass P) := by
  refine ⟨(keptRuns g alts ok n d x).map (·.1), keptRuns_nodup hG hS n d x, fun t ht => ?_, ?_⟩
  · cases hx : traverse g S (verdict ok) n x d (t, 1) with
    | fuel => simp only [hx, weightOf] at ht; exact absurd rfl ht
    | panic => simp only [hx, weightOf] at ht; exact absurd rfl ht
    | done r st =>
      obtain ⟨t', v'⟩ := st
      cases r with
      | error e => simp only [hx, weightOf] at ht; exact absurd rfl ht
      | ok s =>
        cases t' with
        | cons a as => simp only [hx, weightOf] at ht; exact absurd rfl ht
        | nil =>
          simp only [hx, weightOf] at ht
          have hv : v' ≠ 0 := by
            rintro rfl
            apply ht
            split <;> rfl
          obtain ⟨r, h1, _, h2, _⟩ := keptRuns_complete hG hS n d x t 1 s [] v' hx hv
          rw [List.append_nil] at h2
          exact List.mem_map.mpr ⟨r, h1, h2.symm⟩
  · rw [Dist.mass, ← keptRuns_dist, List.map_map, List.map_map]
    congr 1
    apply List.map_congr_left
    intro r hr
    have := keptRuns_sound (g := g) hG hS n d x r hr [] 1
    rw [List.append_nil] at this
    simp only [Function.comp_apply, this, weightOf, one_mul]

include hG in
/-- Expanding the terms of an alternative. -/
theorem chance_of_keptTerms (hS : Draws G S alts) (n d : Nat) (ts : List Term) (P : Str → Bool) :
    HasChance (fun st => evalTerms (fun nt st => traverse g S (verdict ok) n nt d st) ts [] st) P
      ((distTerms (distKept g alts ok n d) ts).mass P) := by
  have hsound := fun r (hr : r ∈ runsTerms (keptRuns g alts ok n d) ts) => runsTerms_sound
    (trav := fun nt st => traverse g S (verdict ok) n nt d st) (fun y r hr => keptRuns_sound hG hS n d y r hr) hr
  refine ⟨(runsTerms (keptRuns g alts ok n d) ts).map (·.1), runsTerms_nodup (keptRuns_nodup hG hS n d)
    (fun y r r' a a' h h' he => keptRuns_prefix_free hG hS h h' he) ts, fun t ht => ?_, ?_⟩
  · cases hx : evalTerms (fun nt st => traverse g S (verdict ok) n nt d st) ts [] (t, 1) with
    | fuel => simp only [hx, weightOf] at ht; exact absurd rfl ht
    | panic => simp only [hx, weightOf] at ht; exact absurd rfl ht
    | done r st =>
      obtain ⟨t', v'⟩ := st
      cases r with
      | error e => simp only [hx, weightOf] at ht; exact absurd rfl ht
      | ok s =>
        cases t' with
        | cons a as => simp only [hx, weightOf] at ht; exact absurd rfl ht
        | nil =>
          simp only [hx, weightOf] at ht
          have hv : v' ≠ 0 := by
            rintro rfl
            apply ht
            split <;> rfl
          obtain ⟨r, h1, _, h2, _⟩ := runsTerms_complete (kept_dead hG hS n d) (keptRuns_complete hG hS n d) _ _ _ hx hv
          rw [List.append_nil] at h2
          exact List.mem_map.mpr ⟨r, h1, h2.symm⟩
  · rw [Dist.mass, ← runsTerms_dist (keptRuns_dist g alts ok n d), List.map_map, List.map_map]
    congr 1
    apply List.map_congr_left
    intro r hr
    have := hsound r hr [] 1
    rw [List.append_nil] at this
    simp only [Function.comp_apply, this, weightOf, one_mul]

end

theorem sum_map_mono_rat' {α : Type} {f k : α → ℚ} {l : List α} (h : ∀ a ∈ l, f a ≤ k a) : (l.map f).sum ≤ (l.map k).sum := by
  induction l with
  | nil => exact le_refl _
  | cons a l ih =>
    simp only [List.map_cons, List.sum_cons]
    exact add_le_add (h a (by simp)) (ih fun b hb => h b (by simp [hb]))

/-! ## Integrals -/

def integral (D : Dist) (h : Str → ℚ) : ℚ := (D.map fun o => o.2 * h o.1).sum

def indicator (P : Str → Bool) : Str → ℚ := fun s => if P s then 1 else 0

theorem indicator_bounds (P : Str → Bool) (s : Str) : 0 ≤ indicator P s ∧ indicator P s ≤ 1 := by
  unfold indicator; split <;> norm_num

theorem mass_integral (D : Dist) (P : Str → Bool) : D.mass P = integral D (indicator P) := by
  unfold Dist.mass integral indicator
  congr 1
  apply List.map_congr_left
  intro o _
  split <;> simp

theorem integral_flatMap {α : Type} (l : List α) (f : α → Dist) (h : Str → ℚ) :
    integral (l.flatMap f) h = (l.map fun a => integral (f a) h).sum := by
  simp only [integral, List.map_flatMap, sum_flatMap]

/-- All weights are nonnegative. -/
def NonnegDist (D : Dist) : Prop := ∀ o ∈ D, 0 ≤ o.2

theorem integral_nonneg {D : Dist} (hD : NonnegDist D) {h : Str → ℚ} (hh : ∀ s, 0 ≤ h s) : 0 ≤ integral D h := by
  apply List.sum_nonneg
  intro x hx
  obtain ⟨o, ho, rfl⟩ := List.mem_map.mp hx
  exact mul_nonneg (hD o ho) (hh _)

theorem integral_mono {D : Dist} (hD : NonnegDist D) {h k : Str → ℚ} (hh : ∀ s, h s ≤ k s) : integral D h ≤ integral D k := by
  induction D with
  | nil => exact le_refl _
  | cons o D ih =>
    have h1 : 0 ≤ o.2 := hD o (by simp)
    have := ih fun o' ho' => hD o' (by simp [ho'])
    simp only [integral, List.map_cons, List.sum_cons] at *
    exact add_le_add (mul_le_mul_of_nonneg_left (hh _) h1) this

theorem integral_linear (D : Dist) (h k : Str → ℚ) (c : ℚ) : integral D (fun s => h s + c * k s) = integral D h + c * integral D k := by
  induction D with
  | nil => simp [integral]
  | cons o D ih =>
    simp only [integral, List.map_cons, List.sum_cons] at *
    rw [ih]; ring

theorem integral_cons_terminal (D : Str → Dist) (u : Str) (ts : List Term) (h : Str → ℚ) :
    integral (distTerms D (.terminal u :: ts)) h = integral (distTerms D ts) fun s => h (u ++ s) := by
  simp only [integral, distTerms, List.map_map]; rfl

theorem integral_cons_nonterminal (D : Str → Dist) (x : Str) (ts : List Term) (h : Str → ℚ) :
    integral (distTerms D (.nonterminal x :: ts)) h = integral (D x) fun s => integral (distTerms D ts) fun s' => h (s ++ s') := by
  simp only [distTerms]
  rw [integral_flatMap]
  unfold integral
  congr 1
  apply List.map_congr_left
  intro o _
  rw [← sum_map_mul, List.map_map, List.map_map]
  congr 1
  apply List.map_congr_left
  intro o' _
  simp only [Function.comp_apply]
  ring

theorem integral_scale {D : Dist} {c : ℚ} (h : Str → ℚ) : integral (D.map fun o => (o.1, c * o.2)) h = c * integral D h := by
  unfold integral
  rw [← sum_map_mul, List.map_map, List.map_map]
  congr 1
  apply List.map_congr_left
  intro o _
  simp only [Function.comp_apply]
  ring

theorem distTerms_nonneg {D : Str → Dist} (h : ∀ x, NonnegDist (D x)) (ts : List Term) : NonnegDist (distTerms D ts) := by
  induction ts with
  | nil => intro o ho; simp only [distTerms, List.mem_singleton] at ho; subst ho; norm_num
  | cons t ts ih =>
    intro o ho
    cases t with
    | terminal u =>
      simp only [distTerms, List.mem_map] at ho
      obtain ⟨o', h1, rfl⟩ := ho
      exact ih o' h1
    | nonterminal x =>
      simp only [distTerms, List.mem_flatMap, List.mem_map] at ho
      obtain ⟨o1, h1, o2, h2, rfl⟩ := ho
      exact mul_nonneg (h x o1 h1) (ih o2 h2)

/-- One distribution is part of another. -/
def DistLe (D D' : Dist) : Prop := ∀ h : Str → ℚ, (∀ s, 0 ≤ h s) → integral D h ≤ integral D' h

theorem distTerms_le {D D' : Str → Dist} (hD : ∀ x, NonnegDist (D x)) (hD' : ∀ x, NonnegDist (D' x)) (hle : ∀ x, DistLe (D x) (D' x)) (ts : List Term) :
    DistLe (distTerms D ts) (distTerms D' ts) := by
  induction ts with
  | nil => intro h _; exact le_refl _
  | cons t ts ih =>
    intro h hh
    cases t with
    | terminal u =>
      rw [integral_cons_terminal, integral_cons_terminal]
      exact ih _ fun s => hh _
    | nonterminal x =>
      rw [integral_cons_nonterminal, integral_cons_nonterminal]
      refine le_trans (integral_mono (hD x) fun s => ih _ fun s' => hh _) (hle x _ fun s => ?_)
      exact integral_nonneg (distTerms_nonneg hD' ts) fun s' => hh _

theorem distTerms_le_one {D : Str → Dist} (h1 : ∀ x (h : Str → ℚ), (∀ s, h s ≤ 1) → integral (D x) h ≤ 1) (ts : List Term)
    (h : Str → ℚ) (hh : ∀ s, h s ≤ 1) : integral (distTerms D ts) h ≤ 1 := by
  induction ts generalizing h with
  | nil => simpa [distTerms, integral] using hh []
  | cons t ts ih =>
    cases t with
    | terminal u =>
      rw [integral_cons_terminal]
      exact ih _ fun s => hh _
    | nonterminal x =>
      rw [integral_cons_nonterminal]
      exact h1 x _ fun s => ih _ fun s' => hh _

/-! ## One attempt, and repetition -/

variable {g : Grammar} {alts : Nat → Production → List Expression} {ok : Str → Str → Bool}

/-- The average over the alternatives of one attempt. -/
def attempt (g : Grammar) (alts : Nat → Production → List Expression) (ok : Str → Str → Bool) (n d : Nat) (p : Production) (h : Str → ℚ) : ℚ :=
  ((alts d p).map fun e => integral (distTerms (distKept g alts ok n (d + 1)) e.terms) h).sum / (alts d p).length

theorem kept_nonneg (n d : Nat) (x : Str) : NonnegDist (distKept g alts ok n d x) := by
  induction n generalizing d x with
  | zero => intro o ho; simp [distKept] at ho
  | succ n ih =>
    intro o ho
    simp only [distKept] at ho
    cases hf : firstOf g x with
    | none => rw [hf] at ho; simp only [List.mem_singleton] at ho; subst ho; norm_num
    | some p =>
      rw [hf] at ho
      simp only at ho
      by_cases hb : Barren p
      · rw [if_pos hb] at ho; simp at ho
      · rw [if_neg hb, List.mem_flatMap] at ho
        obtain ⟨e, _, ho⟩ := ho
        rw [List.mem_flatMap] at ho
        obtain ⟨o1, h1, ho⟩ := ho
        have h0 := distTerms_nonneg (ih (d + 1)) e.terms o1 h1
        have hl : (0 : ℚ) ≤ (alts d p).length := Nat.cast_nonneg _
        by_cases hk : ok x o1.1 = true
        · rw [if_pos hk, List.mem_singleton] at ho
          subst ho
          exact div_nonneg h0 hl
        · rw [if_neg hk, List.mem_map] at ho
          obtain ⟨o2, h2, rfl⟩ := ho
          exact mul_nonneg (div_nonneg h0 hl) (ih d x o2 h2)

theorem kept_none {n d : Nat} {x : Str} (hf : firstOf g x = none) (h : Str → ℚ) : integral (distKept g alts ok (n + 1) d x) h = h x := by
  simp [distKept, hf, integral]

theorem kept_barren {n d : Nat} {x : Str} {p : Production} (hf : firstOf g x = some p) (hb : Barren p) (h : Str → ℚ) :
    integral (distKept g alts ok (n + 1) d x) h = 0 := by
  simp [distKept, hf, if_pos hb, integral]

theorem kept_some {n d : Nat} {x : Str} {p : Production} (hf : firstOf g x = some p) (hb : ¬ Barren p) (h : Str → ℚ) :
    integral (distKept g alts ok (n + 1) d x) h =
      attempt g alts ok n d p fun s => if ok x s then h s else integral (distKept g alts ok n d x) h := by
  simp only [distKept, hf, if_neg hb, attempt]
  rw [integral_flatMap, div_eq_mul_inv, mul_comm, ← sum_map_mul, List.map_map]
  congr 1
  apply List.map_congr_left
  intro e _
  simp only [Function.comp_apply]
  rw [integral_flatMap, integral, ← sum_map_mul, List.map_map]
  congr 1
  apply List.map_congr_left
  intro o _
  simp only [Function.comp_apply]
  by_cases hk : ok x o.1 = true
  · simp only [hk, if_true, integral, List.map_cons, List.map_nil, List.sum_cons, List.sum_nil]
    ring
  · simp only [hk, Bool.false_eq_true, if_false]
    rw [integral_scale]
    ring

theorem attempt_mono {n d : Nat} {p : Production} {h k : Str → ℚ} (hh : ∀ s, h s ≤ k s) : attempt g alts ok n d p h ≤ attempt g alts ok n d p k := by
  unfold attempt
  refine div_le_div_of_nonneg_right (sum_map_mono_rat' fun e _ => ?_) (Nat.cast_nonneg _)
  exact integral_mono (distTerms_nonneg (kept_nonneg n (d + 1)) _) hh

theorem attempt_nonneg {n d : Nat} {p : Production} {h : Str → ℚ} (hh : ∀ s, 0 ≤ h s) : 0 ≤ attempt g alts ok n d p h := by
  unfold attempt
  refine div_nonneg (List.sum_nonneg fun y hy => ?_) (Nat.cast_nonneg _)
  obtain ⟨e, _, rfl⟩ := List.mem_map.mp hy
  exact integral_nonneg (distTerms_nonneg (kept_nonneg n (d + 1)) _) hh

theorem attempt_linear (n d : Nat) (p : Production) (h k : Str → ℚ) (c : ℚ) :
    attempt g alts ok n d p (fun s => h s + c * k s) = attempt g alts ok n d p h + c * attempt g alts ok n d p k := by
  unfold attempt
  simp only [integral_linear]
  have : ∀ l : List Expression, (l.map fun e => integral (distTerms (distKept g alts ok n (d + 1)) e.terms) h +
      c * integral (distTerms (distKept g alts ok n (d + 1)) e.terms) k).sum =
      (l.map fun e => integral (distTerms (distKept g alts ok n (d + 1)) e.terms) h).sum +
      c * (l.map fun e => integral (distTerms (distKept g alts ok n (d + 1)) e.terms) k).sum := by
    intro l
    induction l with
    | nil => simp
    | cons e l ih => simp only [List.map_cons, List.sum_cons, ih]; ring
  rw [this]
  ring

theorem attempt_le_one {n d : Nat} {p : Production} (h1 : ∀ x (h : Str → ℚ), (∀ s, h s ≤ 1) → integral (distKept g alts ok n (d + 1) x) h ≤ 1)
    {h : Str → ℚ} (hh : ∀ s, h s ≤ 1) : attempt g alts ok n d p h ≤ 1 := by
  unfold attempt
  rcases Nat.eq_zero_or_pos (alts d p).length with h0 | h0
  · rw [h0]; norm_num
  · rw [div_le_one (by exact_mod_cast h0)]
    have := sum_map_mono_rat' (l := alts d p) (k := fun _ => (1 : ℚ))
      (f := fun e => integral (distTerms (distKept g alts ok n (d + 1)) e.terms) h) fun e _ => distTerms_le_one h1 _ _ hh
    simpa using this

theorem kept_le_one (n d : Nat) (x : Str) (h : Str → ℚ) (hh : ∀ s, h s ≤ 1) : integral (distKept g alts ok n d x) h ≤ 1 := by
  induction n generalizing d x h with
  | zero => simp [distKept, integral]
  | succ n ih =>
    cases hf : firstOf g x with
    | none => rw [kept_none hf]; exact hh _
    | some p =>
      by_cases hb : Barren p
      · rw [kept_barren hf hb]; norm_num
      · rw [kept_some hf hb]
        refine attempt_le_one (ih (d + 1)) fun s => ?_
        split
        · exact hh _
        · exact ih d x h hh

theorem attempt_step {n d : Nat} {p : Production} (hle : ∀ x, DistLe (distKept g alts ok n (d + 1) x) (distKept g alts ok (n + 1) (d + 1) x))
    {h : Str → ℚ} (hh : ∀ s, 0 ≤ h s) : attempt g alts ok n d p h ≤ attempt g alts ok (n + 1) d p h := by
  unfold attempt
  refine div_le_div_of_nonneg_right (sum_map_mono_rat' fun e _ => ?_) (Nat.cast_nonneg _)
  exact distTerms_le (kept_nonneg n (d + 1)) (kept_nonneg (n + 1) (d + 1)) hle _ h hh

theorem kept_step (n d : Nat) (x : Str) : DistLe (distKept g alts ok n d x) (distKept g alts ok (n + 1) d x) := by
  induction n generalizing d x with
  | zero => intro h hh; simp only [distKept]; exact integral_nonneg (kept_nonneg 1 d x) hh
  | succ n ih =>
    intro h hh
    cases hf : firstOf g x with
    | none => rw [kept_none hf, kept_none hf]
    | some p =>
      by_cases hb : Barren p
      · rw [kept_barren hf hb, kept_barren hf hb]
      · rw [kept_some hf hb, kept_some hf hb]
        refine le_trans (attempt_step (ih (d + 1)) fun s => ?_) (attempt_mono fun s => ?_)
        · split
          · exact hh _
          · exact integral_nonneg (kept_nonneg n d x) hh
        · split
          · exact le_refl _
          · exact ih d x h hh

theorem attempt_split (n d : Nat) (p : Production) (x : Str) (P : Str → Bool) (c : ℚ) :
    attempt g alts ok n d p (fun s => if ok x s then indicator P s else c) =
      attempt g alts ok n d p (indicator fun s => P s && ok x s) + c * attempt g alts ok n d p (indicator fun s => !ok x s) := by
  rw [← attempt_linear]
  congr 1
  funext s
  unfold indicator
  by_cases h : ok x s = true
  · by_cases h2 : P s = true <;> simp [h, h2]
  · simp [h]

/-- The probability after `n + 1` steps: the first attempt is accepted, or it is rejected and a later one is accepted. -/
theorem kept_mass_succ {n d : Nat} {x : Str} {p : Production} (hf : firstOf g x = some p) (hb : ¬ Barren p) (P : Str → Bool) :
    (distKept g alts ok (n + 1) d x).mass P = attempt g alts ok n d p (indicator fun s => P s && ok x s) +
      (distKept g alts ok n d x).mass P * attempt g alts ok n d p (indicator fun s => !ok x s) := by
  rw [mass_integral, mass_integral, kept_some hf hb, attempt_split]

/-! ## Limits -/

noncomputable def keptLimit (g : Grammar) (alts : Nat → Production → List Expression) (ok : Str → Str → Bool) (d : Nat) (x : Str) (P : Str → Bool) : ℝ :=
  ⨆ n, (((distKept g alts ok n d x).mass P : ℚ) : ℝ)

noncomputable def termsLimit (g : Grammar) (alts : Nat → Production → List Expression) (ok : Str → Str → Bool) (d : Nat) (ts : List Term) (P : Str → Bool) : ℝ :=
  ⨆ n, (((distTerms (distKept g alts ok n d) ts).mass P : ℚ) : ℝ)

theorem kept_mass_mono (d : Nat) (x : Str) (P : Str → Bool) : Monotone fun n => (((distKept g alts ok n d x).mass P : ℚ) : ℝ) :=
  monotone_nat_of_le_succ fun n => by
    have := kept_step (g := g) (alts := alts) (ok := ok) n d x (indicator P) fun s => (indicator_bounds P s).1
    simp only [mass_integral]
    exact_mod_cast this

theorem terms_mass_mono (d : Nat) (ts : List Term) (P : Str → Bool) :
    Monotone fun n => (((distTerms (distKept g alts ok n d) ts).mass P : ℚ) : ℝ) :=
  monotone_nat_of_le_succ fun n => by
    have := distTerms_le (kept_nonneg (g := g) (alts := alts) (ok := ok) n d) (kept_nonneg (n + 1) d) (kept_step n d) ts (indicator P)
      fun s => (indicator_bounds P s).1
    simp only [mass_integral]
    exact_mod_cast this

theorem kept_mass_bounds (n d : Nat) (x : Str) (P : Str → Bool) :
    0 ≤ (((distKept g alts ok n d x).mass P : ℚ) : ℝ) ∧ (((distKept g alts ok n d x).mass P : ℚ) : ℝ) ≤ 1 := by
  have h1 := kept_le_one (g := g) (alts := alts) (ok := ok) n d x (indicator P) fun s => (indicator_bounds P s).2
  have h0 := integral_nonneg (kept_nonneg (g := g) (alts := alts) (ok := ok) n d x) fun s => (indicator_bounds P s).1
  rw [mass_integral]
  exact ⟨by exact_mod_cast h0, by exact_mod_cast h1⟩

theorem terms_mass_bounds (n d : Nat) (ts : List Term) (P : Str → Bool) :
    0 ≤ (((distTerms (distKept g alts ok n d) ts).mass P : ℚ) : ℝ) ∧ (((distTerms (distKept g alts ok n d) ts).mass P : ℚ) : ℝ) ≤ 1 := by
  have h1 := distTerms_le_one (kept_le_one (g := g) (alts := alts) (ok := ok) n d) ts (indicator P) fun s => (indicator_bounds P s).2
  have h0 := integral_nonneg (distTerms_nonneg (kept_nonneg (g := g) (alts := alts) (ok := ok) n d) ts) fun s => (indicator_bounds P s).1
  rw [mass_integral]
  exact ⟨by exact_mod_cast h0, by exact_mod_cast h1⟩

theorem kept_bdd (d : Nat) (x : Str) (P : Str → Bool) : BddAbove (Set.range fun n => (((distKept g alts ok n d x).mass P : ℚ) : ℝ)) :=
  ⟨1, by rintro _ ⟨n, rfl⟩; exact (kept_mass_bounds n d x P).2⟩

theorem terms_bdd (d : Nat) (ts : List Term) (P : Str → Bool) :
    BddAbove (Set.range fun n => (((distTerms (distKept g alts ok n d) ts).mass P : ℚ) : ℝ)) :=
  ⟨1, by rintro _ ⟨n, rfl⟩; exact (terms_mass_bounds n d ts P).2⟩

theorem kept_tendsto (d : Nat) (x : Str) (P : Str → Bool) :
    Tendsto (fun n => (((distKept g alts ok n d x).mass P : ℚ) : ℝ)) atTop (𝓝 (keptLimit g alts ok d x P)) :=
  tendsto_atTop_ciSup (kept_mass_mono d x P) (kept_bdd d x P)

theorem terms_tendsto (d : Nat) (ts : List Term) (P : Str → Bool) :
    Tendsto (fun n => (((distTerms (distKept g alts ok n d) ts).mass P : ℚ) : ℝ)) atTop (𝓝 (termsLimit g alts ok d ts P)) :=
  tendsto_atTop_ciSup (terms_mass_mono d ts P) (terms_bdd d ts P)

theorem attempt_tendsto (d : Nat) (p : Production) (P : Str → Bool) :
    Tendsto (fun n => ((attempt g alts ok n d p (indicator P) : ℚ) : ℝ)) atTop
      (𝓝 (((alts d p).map fun e => termsLimit g alts ok (d + 1) e.terms P).sum / (alts d p).length)) := by
  have h : ∀ l : List Expression, Tendsto (fun n => (((l.map fun e => integral (distTerms (distKept g alts ok n (d + 1)) e.terms) (indicator P)).sum : ℚ) : ℝ))
      atTop (𝓝 ((l.map fun e => termsLimit g alts ok (d + 1) e.terms P).sum)) := by
    intro l
    induction l with
    | nil => simp
    | cons e l ih =>
      simp only [List.map_cons, List.sum_cons, Rat.cast_add]
      refine Tendsto.add ?_ ih
      simp only [← mass_integral]
      exact terms_tendsto (d + 1) e.terms P
  have h2 := (h (alts d p)).div_const ((alts d p).length : ℝ)
  refine h2.congr fun n => ?_
  simp [attempt]

/-- Rejected attempts are repeated. -/
theorem keptLimit_eq {d : Nat} {x : Str} {p : Production} (hf : firstOf g x = some p) (hb : ¬ Barren p) (P : Str → Bool) :
    keptLimit g alts ok d x P =
      ((alts d p).map fun e => termsLimit g alts ok (d + 1) e.terms fun s => P s && ok x s).sum / (alts d p).length +
      keptLimit g alts ok d x P * (((alts d p).map fun e => termsLimit g alts ok (d + 1) e.terms fun s => !ok x s).sum / (alts d p).length) := by
  have h1 := (tendsto_add_atTop_iff_nat 1).mpr (kept_tendsto (g := g) (alts := alts) (ok := ok) d x P)
  have h2 := (attempt_tendsto (g := g) (alts := alts) (ok := ok) d p fun s => P s && ok x s).add
    ((kept_tendsto (g := g) (alts := alts) (ok := ok) d x P).mul (attempt_tendsto (g := g) (alts := alts) (ok := ok) d p fun s => !ok x s))
  refine tendsto_nhds_unique h1 (h2.congr fun n => ?_)
  rw [kept_mass_succ hf hb]
  push_cast
  rfl

theorem attempt_mass (n d : Nat) (p : Production) (P : Str → Bool) : attempt g alts ok n d p (indicator P) =
    ((alts d p).map fun e => (distTerms (distKept g alts ok n (d + 1)) e.terms).mass P).sum / (alts d p).length := by
  simp only [attempt, mass_integral]

theorem termsLimit_nonneg (d : Nat) (ts : List Term) (P : Str → Bool) : 0 ≤ termsLimit g alts ok d ts P :=
  le_trans (terms_mass_bounds 0 d ts P).1 (le_ciSup (terms_bdd d ts P) 0)

theorem termsLimit_le_one (d : Nat) (ts : List Term) (P : Str → Bool) : termsLimit g alts ok d ts P ≤ 1 :=
  ciSup_le fun n => (terms_mass_bounds n d ts P).2

theorem keptLimit_nonneg (d : Nat) (x : Str) (P : Str → Bool) : 0 ≤ keptLimit g alts ok d x P :=
  le_trans (kept_mass_bounds 0 d x P).1 (le_ciSup (kept_bdd d x P) 0)

theorem keptLimit_le_one (d : Nat) (x : Str) (P : Str → Bool) : keptLimit g alts ok d x P ≤ 1 :=
  ciSup_le fun n => (kept_mass_bounds n d x P).2

theorem integral_add (D : Dist) (h k : Str → ℚ) : integral D (fun s => h s + k s) = integral D h + integral D k := by
  have := integral_linear D h k 1
  simpa using this

theorem mass_add (D : Dist) (P Q : Str → Bool) : D.mass (fun s => P s && Q s) + D.mass (fun s => P s && !Q s) = D.mass P := by
  rw [mass_integral, mass_integral, mass_integral, ← integral_add]
  congr 1
  funext s
  unfold indicator
  by_cases h : P s = true <;> by_cases h2 : Q s = true <;> simp [h, h2]

theorem termsLimit_add (d : Nat) (ts : List Term) (P Q : Str → Bool) :
    termsLimit g alts ok d ts (fun s => P s && Q s) + termsLimit g alts ok d ts (fun s => P s && !Q s) = termsLimit g alts ok d ts P := by
  refine tendsto_nhds_unique ((terms_tendsto d ts _).add (terms_tendsto d ts _)) ((terms_tendsto d ts P).congr fun n => ?_)
  rw [← mass_add _ P Q]
  push_cast
  rfl

theorem keptLimit_add (d : Nat) (x : Str) (P Q : Str → Bool) :
    keptLimit g alts ok d x (fun s => P s && Q s) + keptLimit g alts ok d x (fun s => P s && !Q s) = keptLimit g alts ok d x P := by
  refine tendsto_nhds_unique ((kept_tendsto d x _).add (kept_tendsto d x _)) ((kept_tendsto d x P).congr fun n => ?_)
  rw [← mass_add _ P Q]
  push_cast
  rfl

/-- If no attempt is accepted, nothing is returned. -/
theorem keptLimit_zero {d : Nat} {x : Str} {p : Production} (hf : firstOf g x = some p) (hb : ¬ Barren p) (P : Str → Bool)
    (h0 : ((alts d p).map fun e => termsLimit g alts ok (d + 1) e.terms fun s => P s && ok x s).sum / (alts d p).length = 0) :
    keptLimit g alts ok d x P = 0 := by
  have h1 : ∀ n, attempt g alts ok n d p (indicator fun s => P s && ok x s) = 0 := by
    intro n
    apply le_antisymm _ (attempt_nonneg fun s => (indicator_bounds _ s).1)
    have hm : Monotone fun n => ((attempt g alts ok n d p (indicator fun s => P s && ok x s) : ℚ) : ℝ) := monotone_nat_of_le_succ fun n => by
      exact_mod_cast attempt_step (kept_step n (d + 1)) fun s => (indicator_bounds _ s).1
    have := hm.ge_of_tendsto (attempt_tendsto (g := g) (alts := alts) (ok := ok) d p fun s => P s && ok x s) n
    rw [h0] at this
    exact_mod_cast this
  have h2 : ∀ n, (distKept g alts ok n d x).mass P = 0 := by
    intro n
    induction n with
    | zero => simp [distKept, Dist.mass]
    | succ n ih => rw [kept_mass_succ hf hb, h1, ih]; simp
  unfold keptLimit
  simp [h2]

theorem keptLimit_none {d : Nat} {x : Str} (hf : firstOf g x = none) (P : Str → Bool) : keptLimit g alts ok d x P = if P x then 1 else 0 := by
  refine tendsto_nhds_unique ((tendsto_add_atTop_iff_nat 1).mpr (kept_tendsto d x P)) (tendsto_const_nhds.congr fun n => ?_)
  rw [mass_integral, kept_none hf]
  unfold indicator
  split <;> simp

/-! ## Looking at whole sentences only -/

/-- Where nothing is rejected, nothing is repeated. -/
theorem kept_eq_dist (halts : ∀ d p e, e ∈ alts d p → e ∈ p.rhs) (n d : Nat) (x : Str)
    (h : ∀ y, Relation.ReflTransGen (Refers g) x y → ∀ s, ok y s = true) : distKept g alts ok n d x = Spec.dist g alts n d x := by
  induction n generalizing d x with
  | zero => rfl
  | succ n ih =>
    simp only [distKept, Spec.dist]
    cases hf : firstOf g x with
    | none => rfl
    | some p =>
      simp only
      by_cases hb : Barren p
      · rw [if_pos hb, if_pos hb]
      · rw [if_neg hb, if_neg hb]
        apply List.flatMap_congr
        intro e he
        have hx : ∀ s, ok x s = true := h x .refl
        have h1 : distTerms (distKept g alts ok n (d + 1)) e.terms = distTerms (Spec.dist g alts n (d + 1)) e.terms := by
          have : ∀ ts : List Term, (∀ y, .nonterminal y ∈ ts → .nonterminal y ∈ e.terms) →
              distTerms (distKept g alts ok n (d + 1)) ts = distTerms (Spec.dist g alts n (d + 1)) ts := by
            intro ts
            induction ts with
            | nil => intro _; rfl
            | cons t ts ih2 =>
              intro hts
              have h2 := ih2 fun y hy => hts y (by simp [hy])
              cases t with
              | terminal u => simp only [distTerms, h2]
              | nonterminal y =>
                have hr : Refers g x y := ⟨p, firstOf_isFirst hf, e, halts d p e he, hts y (by simp)⟩
                simp only [distTerms, h2, ih (d + 1) y fun z hz => h z (hz.head hr)]
          exact this _ fun y hy => hy
        rw [h1]
        simp only [hx, if_true]
        exact List.flatMap_pure_eq_map _ _

theorem distTerms_eq {D D' : Str → Dist} {ts : List Term} (h : ∀ y, .nonterminal y ∈ ts → D y = D' y) : distTerms D ts = distTerms D' ts := by
  induction ts with
  | nil => rfl
  | cons t ts ih =>
    have h2 := ih fun y hy => h y (by simp [hy])
    cases t with
    | terminal u => simp only [distTerms, h2]
    | nonterminal y => simp only [distTerms, h2, h y (by simp)]

/-- Every expansion is accepted. -/
def allOk : Str → Str → Bool := fun _ _ => true

theorem keptLimit_accepted {d : Nat} {x : Str} {p : Production} (hf : firstOf g x = some p) (hb : ¬ Barren p) (hx : ∀ s, ok x s = true) (P : Str → Bool) :
    keptLimit g alts ok d x P = ((alts d p).map fun e => termsLimit g alts ok (d + 1) e.terms P).sum / (alts d p).length := by
  rw [keptLimit_eq hf hb P]
  have : ∀ e : Expression, termsLimit g alts ok (d + 1) e.terms (fun s => !ok x s) = 0 := by
    intro e
    unfold termsLimit
    simp [hx, Dist.mass]
  simp only [this]
  simp [hx]

theorem keptLimit_allOk {d : Nat} {x : Str} {p : Production} (hf : firstOf g x = some p) (hb : ¬ Barren p) (P : Str → Bool) :
    keptLimit g alts allOk d x P = ((alts d p).map fun e => termsLimit g alts allOk (d + 1) e.terms P).sum / (alts d p).length :=
  keptLimit_accepted hf hb (fun _ => rfl) P

theorem keptLimit_whole (halts : ∀ d p e, e ∈ alts d p → e ∈ p.rhs) {d : Nat} {start : Str} {good : Str → Bool} {p : Production} (hf : firstOf g start = some p)
    (hb : ¬ Barren p) (hback : ∀ x, Relation.ReflTransGen (Refers g) start x → ¬ Refers g x start) (P : Str → Bool) :
    keptLimit g alts (wholeSentences start good) d start P = keptLimit g alts allOk d start (fun s => P s && good s) +
      keptLimit g alts (wholeSentences start good) d start P * keptLimit g alts allOk d start (fun s => !good s) := by
  have hw : ∀ s, wholeSentences start good start s = good s := by intro s; simp [wholeSentences]
  have h1 : ∀ e ∈ alts d p, ∀ Q, termsLimit g alts (wholeSentences start good) (d + 1) e.terms Q = termsLimit g alts allOk (d + 1) e.terms Q := by
    intro e he Q
    unfold termsLimit
    congr 1
    funext n
    congr 2
    apply distTerms_eq
    intro y hy
    have hr : Refers g start y := ⟨p, firstOf_isFirst hf, e, halts d p e he, hy⟩
    rw [kept_eq_dist halts n (d + 1) y, kept_eq_dist halts n (d + 1) y]
    · intro _ _ _; rfl
    · intro z hz s
      have hne : z ≠ start := by
        rintro rfl
        rcases Relation.ReflTransGen.cases_tail hz with h | ⟨c, h2, h3⟩
        · exact hback _ .refl (h ▸ hr)
        · exact hback c (h2.head hr) h3
      simp [wholeSentences, hne]
  have h2 : ∀ Q, ((alts d p).map fun e => termsLimit g alts (wholeSentences start good) (d + 1) e.terms Q).sum =
      ((alts d p).map fun e => termsLimit g alts allOk (d + 1) e.terms Q).sum := fun Q => by
    congr 1
    exact List.map_congr_left fun e he => h1 e he Q
  have := keptLimit_eq (g := g) (alts := alts) (ok := wholeSentences start good) (d := d) hf hb P
  rw [h2, h2] at this
  simp only [hw] at this
  rw [keptLimit_allOk hf hb, keptLimit_allOk hf hb]
  exact this

theorem termsLimit_single (d : Nat) (x : Str) (P : Str → Bool) : termsLimit g alts ok d [.nonterminal x] P = keptLimit g alts ok d x P := by
  unfold termsLimit keptLimit
  congr 1
  funext n
  rw [mass_integral, mass_integral, integral_cons_nonterminal]
  simp [distTerms, integral]

theorem termsLimit_text (d : Nat) (u : Str) (P : Str → Bool) : termsLimit g alts ok d [.terminal u] P = if P u then 1 else 0 := by
  unfold termsLimit
  simp only [mass_integral, integral_cons_terminal]
  simp only [distTerms, integral, List.map_cons, List.map_nil, List.sum_cons, List.sum_nil, List.append_nil, indicator]
  split <;> simp

theorem choosing_draws {S : Strategy (List Nat × ℚ)} (h : Choosing g S alts) : ∃ G : Production → Prop, (∀ p ∈ g.productions, G p) ∧ Draws G S alts := by
  cases h with
  | randomWalk => exact ⟨_, fun _ _ => trivial, draws_randomWalk⟩
  | depthBounded m => exact ⟨_, fun _ _ => trivial, draws_depthBounded m⟩
  | weighted checked x y hfit => exact ⟨_, hfit, draws_weighted checked x y⟩

theorem choosing_rhs {S : Strategy (List Nat × ℚ)} (h : Choosing g S alts) (d : Nat) (p : Production) (e : Expression) (he : e ∈ alts d p) : e ∈ p.rhs := by
  cases h with
  | randomWalk => exact he
  | depthBounded m => exact (mem_boundedAlts.1 he).1
  | weighted checked x y hfit => exact (mem_weightedAlts.1 he).1

theorem overall_of {run : Nat → List Nat × ℚ → GenRes (List Nat × ℚ)} {P : Str → Bool} {q : Nat → ℚ} (h : ∀ n, HasChance (run n) P (q n)) {l : ℝ}
    (hl : IsLUB (Set.range fun n => ((q n : ℚ) : ℝ)) l) : OverallChance run P l := by
  have h1 : {p : ℝ | ∃ n, ∃ r : ℚ, HasChance (run n) P r ∧ (r : ℝ) = p} = Set.range fun n => ((q n : ℚ) : ℝ) := by
    ext p
    constructor
    · rintro ⟨n, r, h2, rfl⟩
      exact ⟨n, by rw [hasChance_unique h2 (h n)]⟩
    · rintro ⟨n, rfl⟩
      exact ⟨n, _, h n, rfl⟩
  unfold OverallChance
  rw [h1]
  exact hl

theorem overall_kept {S : Strategy (List Nat × ℚ)} (h : Choosing g S alts) (d : Nat) (x : Str) (P : Str → Bool) :
    OverallChance (fun n st => traverse g S (verdict ok) n x d st) P (keptLimit g alts ok d x P) := by
  obtain ⟨G, hG, hS⟩ := choosing_draws h
  exact overall_of (fun n => chance_of_keptRuns hG hS n d x P) (isLUB_ciSup (kept_bdd d x P))

theorem overall_terms {S : Strategy (List Nat × ℚ)} (h : Choosing g S alts) (d : Nat) (ts : List Term) (P : Str → Bool) :
    OverallChance (fun n st => evalTerms (fun nt st => traverse g S (verdict ok) n nt d st) ts [] st) P (termsLimit g alts ok d ts P) := by
  obtain ⟨G, hG, hS⟩ := choosing_draws h
  exact overall_of (fun n => chance_of_keptTerms hG hS n d ts P) (isLUB_ciSup (terms_bdd d ts P))

end Bnf
