import Mathlib.Algebra.Order.BigOperators.Group.List
import Mathlib.Tactic.Ring
import Mathlib.Tactic.Linarith
import Mathlib.Tactic.NormNum
import Mathlib.Tactic.FieldSimp
import Mathlib.Data.List.Nodup
import Verif.Spec.Chance
import Verif.Proofs.Strategies

/-!
# Chances in sentence generation
-/

set_option autoImplicit false

namespace Bnf
open Bnf.Spec

/-- What a strategy does with a tape, for the productions with `G`: it draws one number, which selects among `alts`. -/
structure Draws (G : Production → Prop) (S : Strategy (List Nat × ℚ)) (alts : Nat → Production → List Expression) : Prop where
  step : ∀ (x : Nat) xs w a p d, G p → p.rhs ≠ [] → (h : x < (alts d p).length) →
    S.choose (x :: xs, w) a p d = (.expr (alts d p)[x], (xs, w / (alts d p).length))
  zero : ∀ (t : List Nat) w a p d, G p → p.rhs ≠ [] → (∀ x xs, t = x :: xs → (alts d p).length ≤ x) →
    ∃ e, S.choose (t, w) a p d = (.expr e, (t.tail, 0))
  dead : ∀ (t : List Nat) a p d, G p → p.rhs ≠ [] → ∃ e, S.choose (t, 0) a p d = (.expr e, (t.tail, 0))

/-- A run with its tape. -/
abbrev Run := List Nat × ℚ × Str

def runsTerms (rs : Str → List Run) : List Term → List Run
  | [] => [([], 1, [])]
  | .terminal u :: ts => (runsTerms rs ts).map fun r => (r.1, r.2.1, u ++ r.2.2)
  | .nonterminal x :: ts => (rs x).flatMap fun r => (runsTerms rs ts).map fun r' => (r.1 ++ r'.1, r.2.1 * r'.2.1, r.2.2 ++ r'.2.2)

def runs (g : Grammar) (alts : Nat → Production → List Expression) : Nat → Nat → Str → List Run
  | 0, _, _ => []
  | n + 1, d, x =>
    match firstOf g x with
    | none => [([], 1, x)]
    | some p => if Barren p then [] else
      (alts d p).zipIdx.flatMap fun e => (runsTerms (runs g alts n (d + 1)) e.1.terms).map fun r =>
        (e.2 :: r.1, r.2.1 / (alts d p).length, r.2.2)

/-! ## Runs and distributions -/

theorem runsTerms_dist {rs : Str → List Run} {D : Str → Dist} (h : ∀ x, (rs x).map (fun r => (r.2.2, r.2.1)) = D x) (ts : List Term) :
    (runsTerms rs ts).map (fun r => (r.2.2, r.2.1)) = distTerms D ts := by
  induction ts with
  | nil => rfl
  | cons t ts ih =>
    cases t with
    | terminal u => simp only [runsTerms, distTerms, ← ih, List.map_map]; rfl
    | nonterminal x =>
      simp only [runsTerms, distTerms, ← ih, ← h, List.map_flatMap, List.flatMap_map, List.map_map]
      rfl

theorem flatMap_zipIdx {α β : Type} (f : α → List β) (l : List α) (k : Nat) : (l.zipIdx k).flatMap (fun e => f e.1) = l.flatMap f := by
  induction l generalizing k with
  | nil => rfl
  | cons a l ih => simp [List.zipIdx_cons, ih]

theorem runs_dist (g : Grammar) (alts : Nat → Production → List Expression) (n d : Nat) (x : Str) :
    (runs g alts n d x).map (fun r => (r.2.2, r.2.1)) = dist g alts n d x := by
  induction n generalizing d x with
  | zero => rfl
  | succ n ih =>
    simp only [runs, dist]
    cases firstOf g x with
    | none => rfl
    | some p =>
      simp only
      by_cases hb : Barren p
      · rw [if_pos hb, if_pos hb]; rfl
      · rw [if_neg hb, if_neg hb]
        rw [List.map_flatMap, ← flatMap_zipIdx _ (alts d p) 0]
        congr 1
        funext e
        rw [← runsTerms_dist (ih (d + 1)), List.map_map, List.map_map]
        rfl

/-! ## The model follows the runs -/

theorem firstOf_none {g : Grammar} {x : Str} (h : firstOf g x = none) : findProduction x g.productions 0 = none := by
  have : ∀ ps : List Production, ∀ i, ps.find? (fun p => p.lhs == .nonterminal x) = none → findProduction x ps i = none := by
    intro ps
    induction ps with
    | nil => intro i _; rfl
    | cons p ps ih =>
      intro i h
      rw [List.find?_cons] at h
      by_cases hp : p.lhs = .nonterminal x
      · simp [hp] at h
      · simp only [beq_eq_false_iff_ne.mpr hp] at h
        rw [findProduction, if_neg hp]
        exact ih _ h
  exact this _ _ h

theorem firstOf_some {g : Grammar} {x : Str} {p : Production} (h : firstOf g x = some p) : ∃ a, findProduction x g.productions 0 = some (a, p) := by
  have : ∀ ps : List Production, ∀ i, ps.find? (fun p => p.lhs == .nonterminal x) = some p → ∃ a, findProduction x ps i = some (a, p) := by
    intro ps
    induction ps with
    | nil => intro i h; cases h
    | cons q ps ih =>
      intro i h
      rw [List.find?_cons] at h
      by_cases hp : q.lhs = .nonterminal x
      · simp only [hp, beq_self_eq_true] at h
        injection h with h; subst h
        exact ⟨i, by rw [findProduction, if_pos hp]⟩
      · simp only [beq_eq_false_iff_ne.mpr hp] at h
        rw [findProduction, if_neg hp]
        exact ih _ h
  exact this _ _ h

theorem firstOf_mem {g : Grammar} {x : Str} {p : Production} (h : firstOf g x = some p) : p ∈ g.productions := List.mem_of_find?_eq_some h

theorem findProduction_mem {g : Grammar} {x : Str} {a : Nat} {p : Production} (h : findProduction x g.productions 0 = some (a, p)) :
    p ∈ g.productions := by
  obtain ⟨b, c, h, _⟩ := findProduction_some h
  simp [h]

theorem barren_iff (p : Production) : productionHasNoChoice p = true ↔ Barren p := by
  unfold productionHasNoChoice Barren
  rcases h : p.rhs with _ | ⟨e, _ | ⟨e', es⟩⟩
  · simp
  · obtain ⟨ts⟩ := e
    cases ts <;> simp
  · simp

theorem evalTerms_acc {trav : Str → List Nat × ℚ → GenRes (List Nat × ℚ)} (ts : List Term) (acc : Str) (st : List Nat × ℚ) :
    evalTerms trav ts acc st = match evalTerms trav ts [] st with
      | .done (.ok s) st' => .done (.ok (acc ++ s)) st'
      | r => r := by
  induction ts generalizing acc st with
  | nil => simp [evalTerms]
  | cons t ts ih =>
    cases t with
    | terminal u =>
      simp only [evalTerms]
      rw [ih (acc ++ u), ih ([] ++ u)]
      cases evalTerms trav ts [] st with
      | done r st' => cases r <;> simp
      | _ => rfl
    | nonterminal x =>
      simp only [evalTerms]
      cases trav x st with
      | done r st' =>
        cases r with
        | ok s =>
          simp only
          rw [ih (acc ++ s), ih ([] ++ s)]
          cases evalTerms trav ts [] st' with
          | done r st' => cases r <;> simp
          | _ => rfl
        | error e => rfl
      | _ => rfl

section
variable {G : Production → Prop} {g : Grammar} (hG : ∀ p ∈ g.productions, G p) {S : Strategy (List Nat × ℚ)} {alts : Nat → Production → List Expression}

theorem runsTerms_sound {rs : Str → List Run} {trav : Str → List Nat × ℚ → GenRes (List Nat × ℚ)}
    (h : ∀ x r, r ∈ rs x → ∀ rest v, trav x (r.1 ++ rest, v) = .done (.ok r.2.2) (rest, v * r.2.1)) {ts : List Term} {r : Run}
    (hr : r ∈ runsTerms rs ts) (rest : List Nat) (v : ℚ) : evalTerms trav ts [] (r.1 ++ rest, v) = .done (.ok r.2.2) (rest, v * r.2.1) := by
  induction ts generalizing r rest v with
  | nil =>
    simp only [runsTerms, List.mem_singleton] at hr
    subst hr
    simp [evalTerms]
  | cons t ts ih =>
    cases t with
    | terminal u =>
      simp only [runsTerms, List.mem_map] at hr
      obtain ⟨r', hr', rfl⟩ := hr
      simp only [evalTerms]
      rw [evalTerms_acc, ih hr']
      simp
    | nonterminal x =>
      simp only [runsTerms, List.mem_flatMap, List.mem_map] at hr
      obtain ⟨r1, h1, r2, h2, rfl⟩ := hr
      simp only [evalTerms, List.append_assoc]
      rw [h x r1 h1]
      simp only
      rw [evalTerms_acc, ih h2]
      simp [mul_assoc]

include hG in
theorem runs_sound (hS : Draws G S alts) (n d : Nat) (x : Str) : ∀ r, r ∈ runs g alts n d x → ∀ rest v,
    traverse g S (acceptAll _) n x d (r.1 ++ rest, v) = .done (.ok r.2.2) (rest, v * r.2.1) := by
  induction n generalizing d x with
  | zero => intro r hr; simp [runs] at hr
  | succ n ih =>
    intro r hr rest v
    simp only [runs] at hr
    cases hf : firstOf g x with
    | none =>
      rw [hf] at hr
      simp only [List.mem_singleton] at hr
      subst hr
      rw [traverse, firstOf_none hf]
      simp
    | some p =>
      rw [hf] at hr
      simp only at hr
      by_cases hb : Barren p
      · rw [if_pos hb] at hr; simp at hr
      · rw [if_neg hb] at hr
        simp only [List.mem_flatMap, List.mem_map] at hr
        obtain ⟨⟨e, i⟩, he, r', hr', rfl⟩ := hr
        obtain ⟨a, ha⟩ := firstOf_some hf
        have hc : productionHasNoChoice p = false := by
          rw [Bool.eq_false_iff]; intro h; exact hb ((barren_iff p).mp h)
        have hne : p.rhs ≠ [] := fun h => hb (.inl h)
        have hi := List.mem_zipIdx he
        simp only [Nat.zero_add, Nat.zero_le, Nat.sub_zero, true_and] at hi
        rw [traverse, ha]
        simp only [hc, Bool.false_eq_true, if_false, List.cons_append]
        rw [hS.step i _ v a p d (hG p (firstOf_mem hf)) hne hi.1]
        simp only [← hi.2]
        rw [runsTerms_sound (trav := fun nt st => traverse g S (acceptAll _) n nt (d + 1) st) (fun y r hr => ih (d + 1) y r hr) hr']
        simp only [acceptAll, if_true, GenRes.done.injEq, true_and, Prod.mk.injEq]
        ring

/-- Probability 0 stays. -/
def Dead (trav : Str → List Nat × ℚ → GenRes (List Nat × ℚ)) : Prop :=
  ∀ x t s st, trav x (t, 0) = .done (.ok s) st → st.2 = 0

theorem evalTerms_dead {trav : Str → List Nat × ℚ → GenRes (List Nat × ℚ)} (h : Dead trav) (ts : List Term) (acc : Str) (t : List Nat) {s st}
    (hr : evalTerms trav ts acc (t, 0) = .done (.ok s) st) : st.2 = 0 := by
  induction ts generalizing acc t with
  | nil =>
    simp only [evalTerms] at hr
    injection hr with _ hr; subst hr; rfl
  | cons u ts ih =>
    cases u with
    | terminal u => exact ih _ _ hr
    | nonterminal x =>
      simp only [evalTerms] at hr
      cases hx : trav x (t, 0) with
      | fuel => rw [hx] at hr; cases hr
      | panic => rw [hx] at hr; cases hr
      | done r st' =>
        rw [hx] at hr
        cases r with
        | error e => simp at hr
        | ok s' =>
          have h0 := h x t s' st' hx
          obtain ⟨t', w⟩ := st'
          simp only at h0
          subst h0
          exact ih _ _ hr

include hG in
theorem traverse_dead (hS : Draws G S alts) (n d : Nat) : Dead (fun x st => traverse g S (acceptAll _) n x d st) := by
  induction n generalizing d with
  | zero => intro x t s st h; simp [traverse] at h
  | succ n ih =>
    intro x t s st h
    simp only [traverse] at h
    cases hf : findProduction x g.productions 0 with
    | none =>
      rw [hf] at h
      injection h with _ h; subst h; rfl
    | some ap =>
      obtain ⟨a, p⟩ := ap
      rw [hf] at h
      simp only at h
      by_cases hc : productionHasNoChoice p = true
      · rw [if_pos hc] at h; simp at h
      · rw [if_neg hc] at h
        have hne : p.rhs ≠ [] := fun h0 => hc ((barren_iff p).mpr (.inl h0))
        obtain ⟨e, he⟩ := hS.dead t a p d (hG p (findProduction_mem hf)) hne
        rw [he] at h
        simp only at h
        cases hx : evalTerms (fun nt st => traverse g S (acceptAll _) n nt (d + 1) st) e.terms [] (t.tail, 0) with
        | fuel => rw [hx] at h; cases h
        | panic => rw [hx] at h; cases h
        | done r st' =>
          rw [hx] at h
          cases r with
          | error e => simp at h
          | ok s' =>
            simp only [acceptAll, if_true] at h
            injection h with _ h; subst h
            exact evalTerms_dead (ih (d + 1)) _ _ _ hx

theorem runsTerms_complete {rs : Str → List Run} {trav : Str → List Nat × ℚ → GenRes (List Nat × ℚ)} (hd : Dead trav)
    (h : ∀ x t v s t' v', trav x (t, v) = .done (.ok s) (t', v') → v' ≠ 0 → ∃ r ∈ rs x, r.2.2 = s ∧ t = r.1 ++ t' ∧ v' = v * r.2.1)
    (ts : List Term) (t : List Nat) (v : ℚ) {s t' v'} (hr : evalTerms trav ts [] (t, v) = .done (.ok s) (t', v')) (hv : v' ≠ 0) :
    ∃ r ∈ runsTerms rs ts, r.2.2 = s ∧ t = r.1 ++ t' ∧ v' = v * r.2.1 := by
  induction ts generalizing t v s with
  | nil =>
    simp only [evalTerms, GenRes.done.injEq, Except.ok.injEq, Prod.mk.injEq] at hr
    obtain ⟨rfl, rfl, rfl⟩ := hr
    exact ⟨([], 1, []), by simp [runsTerms], rfl, rfl, by simp⟩
  | cons u ts ih =>
    cases u with
    | terminal u =>
      simp only [evalTerms] at hr
      rw [evalTerms_acc] at hr
      cases hx : evalTerms trav ts [] (t, v) with
      | fuel => rw [hx] at hr; cases hr
      | panic => rw [hx] at hr; cases hr
      | done r st' =>
        rw [hx] at hr
        cases r with
        | error e => simp at hr
        | ok s' =>
          simp only [GenRes.done.injEq, Except.ok.injEq] at hr
          obtain ⟨rfl, rfl⟩ := hr
          obtain ⟨r, h1, rfl, h2, h3⟩ := ih t v hx
          exact ⟨_, List.mem_map_of_mem h1, rfl, h2, h3⟩
    | nonterminal x =>
      simp only [evalTerms] at hr
      cases hx : trav x (t, v) with
      | fuel => rw [hx] at hr; cases hr
      | panic => rw [hx] at hr; cases hr
      | done r st' =>
        rw [hx] at hr
        cases r with
        | error e => simp at hr
        | ok s' =>
          simp only [List.nil_append] at hr
          obtain ⟨t1, v1⟩ := st'
          have hv1 : v1 ≠ 0 := by
            rintro rfl
            exact hv (evalTerms_dead hd _ _ _ hr)
          rw [evalTerms_acc] at hr
          cases hy : evalTerms trav ts [] (t1, v1) with
          | fuel => rw [hy] at hr; cases hr
          | panic => rw [hy] at hr; cases hr
          | done r2 st2 =>
            rw [hy] at hr
            cases r2 with
            | error e => simp at hr
            | ok s2 =>
              simp only [GenRes.done.injEq, Except.ok.injEq] at hr
              obtain ⟨rfl, rfl⟩ := hr
              obtain ⟨r1, h1, rfl, h2, h3⟩ := h x t v s' t1 v1 hx hv1
              obtain ⟨r2, k1, rfl, k2, k3⟩ := ih t1 v1 hy
              refine ⟨(r1.1 ++ r2.1, r1.2.1 * r2.2.1, r1.2.2 ++ r2.2.2), ?_, rfl, ?_, ?_⟩
              · simp only [runsTerms, List.mem_flatMap, List.mem_map]
                exact ⟨r1, h1, r2, k1, rfl⟩
              · rw [h2, k2, List.append_assoc]
              · rw [k3, h3, mul_assoc]

include hG in
theorem runs_complete (hS : Draws G S alts) (n d : Nat) : ∀ x t v s t' v',
    traverse g S (acceptAll _) n x d (t, v) = .done (.ok s) (t', v') → v' ≠ 0 → ∃ r ∈ runs g alts n d x, r.2.2 = s ∧ t = r.1 ++ t' ∧ v' = v * r.2.1 := by
  induction n generalizing d with
  | zero => intro x t v s t' v' h; simp [traverse] at h
  | succ n ih =>
    intro x t v s t' v' h hv
    simp only [traverse] at h
    simp only [runs]
    cases hf : firstOf g x with
    | none =>
      rw [firstOf_none hf] at h
      simp only [GenRes.done.injEq, Except.ok.injEq, Prod.mk.injEq] at h
      obtain ⟨rfl, rfl, rfl⟩ := h
      exact ⟨_, List.mem_singleton_self _, rfl, rfl, by simp⟩
    | some p =>
      obtain ⟨a, ha⟩ := firstOf_some hf
      rw [ha] at h
      simp only at h ⊢
      by_cases hc : productionHasNoChoice p = true
      · rw [if_pos hc] at h; simp at h
      · rw [if_neg hc] at h
        have hb : ¬ Barren p := fun h0 => hc ((barren_iff p).mpr h0)
        have hne : p.rhs ≠ [] := fun h0 => hb (.inl h0)
        rw [if_neg hb]
        by_cases ht : ∃ y ys, t = y :: ys ∧ y < (alts d p).length
        · obtain ⟨y, ys, rfl, hy⟩ := ht
          rw [hS.step y ys v a p d (hG p (firstOf_mem hf)) hne hy] at h
          simp only at h
          cases hx : evalTerms (fun nt st => traverse g S (acceptAll _) n nt (d + 1) st) (alts d p)[y].terms [] (ys, v / (alts d p).length) with
          | fuel => rw [hx] at h; cases h
          | panic => rw [hx] at h; cases h
          | done r st' =>
            rw [hx] at h
            cases r with
            | error e => simp at h
            | ok s' =>
              simp only [acceptAll, if_true, GenRes.done.injEq, Except.ok.injEq] at h
              obtain ⟨rfl, rfl⟩ := h
              obtain ⟨r, h1, rfl, h2, h3⟩ := runsTerms_complete (traverse_dead hG hS n (d + 1)) (ih (d + 1)) _ _ _ hx hv
              refine ⟨(y :: r.1, r.2.1 / (alts d p).length, r.2.2), ?_, rfl, ?_, ?_⟩
              · simp only [List.mem_flatMap, List.mem_map]
                refine ⟨((alts d p)[y], y), ?_, r, h1, rfl⟩
                rw [List.mem_zipIdx_iff_getElem?]
                exact List.getElem?_eq_getElem hy
              · rw [h2]; rfl
              · rw [h3]; ring
        · exfalso
          obtain ⟨e, he⟩ := hS.zero t v a p d (hG p (firstOf_mem hf)) hne (fun y ys hy => by
            by_contra hlt; exact ht ⟨y, ys, hy, by omega⟩)
          rw [he] at h
          simp only at h
          cases hx : evalTerms (fun nt st => traverse g S (acceptAll _) n nt (d + 1) st) e.terms [] (t.tail, 0) with
          | fuel => rw [hx] at h; cases h
          | panic => rw [hx] at h; cases h
          | done r st' =>
            rw [hx] at h
            cases r with
            | error e => simp at h
            | ok s' =>
              simp only [acceptAll, if_true, GenRes.done.injEq, Except.ok.injEq] at h
              obtain ⟨rfl, rfl⟩ := h
              exact hv (evalTerms_dead (traverse_dead hG hS n (d + 1)) _ _ _ hx)

/-! ## Tapes -/

include hG in
theorem runs_prefix_free (hS : Draws G S alts) {n d : Nat} {x : Str} {r r' : Run} (h : r ∈ runs g alts n d x) (h' : r' ∈ runs g alts n d x)
    {a a' : List Nat} (he : r.1 ++ a = r'.1 ++ a') : r.1 = r'.1 ∧ a = a' := by
  have h1 := runs_sound (g := g) hG hS n d x r h a 1
  have h2 := runs_sound (g := g) hG hS n d x r' h' a' 1
  rw [he, h2] at h1
  simp only [GenRes.done.injEq, Prod.mk.injEq] at h1
  obtain ⟨_, rfl, _⟩ := h1
  exact ⟨List.append_cancel_right he, rfl⟩

theorem runsTerms_nodup {rs : Str → List Run} (hn : ∀ x, ((rs x).map (·.1)).Nodup)
    (hp : ∀ x r r' a a', r ∈ rs x → r' ∈ rs x → r.1 ++ a = r'.1 ++ a' → r.1 = r'.1 ∧ a = a') (ts : List Term) :
    ((runsTerms rs ts).map (·.1)).Nodup := by
  induction ts with
  | nil => simp [runsTerms]
  | cons t ts ih =>
    cases t with
    | terminal u =>
      simp only [runsTerms, List.map_map]
      exact ih
    | nonterminal x =>
      simp only [runsTerms, List.map_flatMap, List.map_map]
      rw [List.nodup_flatMap]
      constructor
      · intro r hr
        have : (fun r' : Run => r.1 ++ r'.1) = (fun t => r.1 ++ t) ∘ (·.1) := rfl
        show ((runsTerms rs ts).map (fun r' : Run => r.1 ++ r'.1)).Nodup
        rw [this, ← List.map_map]
        exact ih.map (fun a b h => List.append_cancel_left h)
      · have := List.Nodup.of_map _ (hn x)
        have hpw := hn x
        rw [List.Nodup, List.pairwise_map] at hpw
        refine hpw.imp_of_mem ?_
        intro r r' hr hr' hne t ht ht'
        simp only [Function.comp_apply, List.mem_map] at ht ht'
        obtain ⟨q, _, rfl⟩ := ht
        obtain ⟨q', _, hq⟩ := ht'
        exact hne (hp x r r' q.1 q'.1 hr hr' hq.symm).1

include hG in
theorem runs_nodup (hS : Draws G S alts) (n d : Nat) (x : Str) : ((runs g alts n d x).map (·.1)).Nodup := by
  induction n generalizing d x with
  | zero => simp [runs]
  | succ n ih =>
    simp only [runs]
    split
    · simp
    · split
      · simp
      · rename_i p _ _
        rw [List.map_flatMap, List.nodup_flatMap]
        have hts := fun ts => runsTerms_nodup (rs := runs g alts n (d + 1)) (ih (d + 1))
          (fun y r r' a a' h h' he => runs_prefix_free hG hS h h' he) ts
        constructor
        · rintro ⟨e, i⟩ _
          rw [List.map_map]
          have : ((fun r : Run => r.1) ∘ fun r : Run => (i :: r.1, r.2.1 / ((alts d p).length : ℚ), r.2.2)) = (fun t => i :: t) ∘ (·.1) := rfl
          rw [this, ← List.map_map]
          exact (hts e.terms).map (fun a b h => by injection h)
        · have hpw : ((alts d p).zipIdx.map (·.2)).Nodup := by
            rw [List.zipIdx_map_snd]
            exact List.nodup_range'
          rw [List.Nodup, List.pairwise_map] at hpw
          refine hpw.imp ?_
          rintro ⟨e, i⟩ ⟨e', i'⟩ hne t ht ht'
          simp only [List.mem_map] at ht ht'
          obtain ⟨_, ⟨q, _, rfl⟩, rfl⟩ := ht
          obtain ⟨_, ⟨q', _, rfl⟩, hq⟩ := ht'
          injection hq with hq
          exact hne hq.symm

include hG in
theorem chance_of_runs (hS : Draws G S alts) (n d : Nat) (x : Str) (P : Str → Bool) :
    HasChance (fun st => traverse g S (acceptAll _) n x d st) P ((dist g alts n d x).mass P) := by
  refine ⟨(runs g alts n d x).map (·.1), runs_nodup hG hS n d x, fun t ht => ?_, ?_⟩
  · cases hx : traverse g S (acceptAll _) n x d (t, 1) with
    | fuel => simp only [hx, weightOf] at ht; exact absurd rfl ht
    | panic => simp only [hx, weightOf] at ht; exact absurd rfl ht
    | done r st =>
      obtain ⟨t', v'⟩ := st
      cases r with
      | error e => simp only [hx, weightOf] at ht; exact absurd rfl ht
      | ok s =>
        cases t' with
        | cons a as => simp only [hx, weightOf] at ht; exact absurd rfl ht
        | nil =>
          simp only [hx, weightOf] at ht
          have hv : v' ≠ 0 := by
            rintro rfl
            apply ht
            split <;> rfl
          obtain ⟨r, h1, _, h2, _⟩ := runs_complete hG hS n d x t 1 s [] v' hx hv
          rw [List.append_nil] at h2
          exact List.mem_map.mpr ⟨r, h1, h2.symm⟩
  · rw [Dist.mass, ← runs_dist, List.map_map, List.map_map]
    congr 1
    apply List.map_congr_left
    intro r hr
    have := runs_sound (g := g) hG hS n d x r hr [] 1
    rw [List.append_nil] at this
    simp only [Function.comp_apply, this, weightOf, one_mul]

end

/-! ## The probability of ending -/

theorem sum_flatMap {α : Type} (f : α → List ℚ) (l : List α) : (l.flatMap f).sum = (l.map fun a => (f a).sum).sum := by
  induction l with
  | nil => rfl
  | cons a l ih => simp [ih]

theorem sum_map_mul (c : ℚ) (l : List ℚ) : (l.map fun x => c * x).sum = c * l.sum := by
  induction l with
  | nil => simp
  | cons a l ih => simp [ih, mul_add]

theorem mass_true (D : Dist) : D.mass (fun _ => true) = (D.map (·.2)).sum := by simp [Dist.mass]

theorem distTerms_mass {D : Str → Dist} {q : Str → ℚ} (h : ∀ x, (D x).mass (fun _ => true) = q x) (ts : List Term) :
    (distTerms D ts).mass (fun _ => true) = (ts.map (termChance q)).prod := by
  simp only [mass_true] at *
  induction ts with
  | nil => simp [distTerms]
  | cons t ts ih =>
    cases t with
    | terminal u =>
      simp only [distTerms, List.map_map, List.map_cons, List.prod_cons, termChance, one_mul, ← ih]
      rfl
    | nonterminal x =>
      simp only [distTerms, List.map_cons, List.prod_cons, List.map_flatMap, List.map_map, sum_flatMap, ← ih, termChance]
      rw [← h x]
      have : ∀ o : Str × ℚ, ((distTerms D ts).map ((fun o : Str × ℚ => o.2) ∘ fun o' : Str × ℚ => (o.1 ++ o'.1, o.2 * o'.2))).sum =
          o.2 * ((distTerms D ts).map (·.2)).sum := by
        intro o
        rw [← sum_map_mul, List.map_map]
        rfl
      simp only [this]
      rw [mul_comm, ← sum_map_mul, List.map_map]
      congr 1
      apply List.map_congr_left
      intro o _
      simp [mul_comm]

theorem dist_mass (g : Grammar) (alts : Nat → Production → List Expression) (n d : Nat) (x : Str) :
    (dist g alts n d x).mass (fun _ => true) = endChance g alts n d x := by
  induction n generalizing d x with
  | zero => simp [dist, endChance, Dist.mass]
  | succ n ih =>
    simp only [dist, endChance]
    cases firstOf g x with
    | none => simp [Dist.mass]
    | some p =>
      simp only
      by_cases hb : Barren p
      · rw [if_pos hb, if_pos hb]; simp [Dist.mass]
      · rw [if_neg hb, if_neg hb]
        rw [mass_true, List.map_flatMap, sum_flatMap, div_eq_mul_inv, mul_comm, ← sum_map_mul, List.map_map]
        congr 1
        apply List.map_congr_left
        intro e _
        simp only [Function.comp_apply]
        rw [← distTerms_mass (ih (d + 1)), mass_true, ← sum_map_mul, List.map_map, List.map_map]
        congr 1
        apply List.map_congr_left
        intro o _
        simp [div_eq_mul_inv, mul_comm]

/-! ## Strategies with a tape -/

theorem draw_lt {x : Nat} {xs : List Nat} {w : ℚ} {n : Nat} (h : x < n) : drawTape (x :: xs, w) n = (x, (xs, w / n)) := by simp [drawTape, h]

theorem draw_zero {t : List Nat} {w : ℚ} {n : Nat} (h : ∀ x xs, t = x :: xs → n ≤ x) : drawTape (t, w) n = (0, (t.tail, 0)) := by
  cases t with
  | nil => rfl
  | cons x xs => simp [drawTape, Nat.not_lt.mpr (h x xs rfl)]

theorem draw_dead (t : List Nat) {n : Nat} (hn : 0 < n) : ∃ i, i < n ∧ drawTape (t, 0) n = (i, (t.tail, 0)) := by
  cases t with
  | nil => exact ⟨0, hn, rfl⟩
  | cons x xs =>
    by_cases h : x < n
    · exact ⟨x, h, by simp [drawTape, h]⟩
    · exact ⟨0, hn, by simp [drawTape, h]⟩

theorem getExpression_eq {p : Production} {i : Nat} {e : Expression} (h : p.rhs[i]? = some e) : getExpression p i = .expr e := by
  simp [getExpression, h]

theorem tape_index : tapeRng.index = drawTape := rfl

/-- A strategy that draws one number below `K d p` and then takes the alternative `sel d p`. -/
theorem draws_of {G : Production → Prop} {S : Strategy (List Nat × ℚ)} {alts : Nat → Production → List Expression} (sel : Nat → Production → Nat → Nat)
    (hne : ∀ d p, G p → p.rhs ≠ [] → 0 < (alts d p).length)
    (hsel : ∀ d p i, G p → p.rhs ≠ [] → i < (alts d p).length → p.rhs[sel d p i]? = (alts d p)[i]?)
    (hS : ∀ st a p d, G p → p.rhs ≠ [] → (drawTape st (alts d p).length).1 < (alts d p).length →
      S.choose st a p d = (getExpression p (sel d p (drawTape st (alts d p).length).1), (drawTape st (alts d p).length).2)) : Draws G S alts where
  step x xs w a p d hG hp h := by
    rw [hS _ a p d hG hp (by rw [draw_lt h]; exact h), draw_lt h, getExpression_eq ((hsel d p x hG hp h).trans (List.getElem?_eq_getElem h))]
  zero t w a p d hG hp h := by
    have h0 := hne d p hG hp
    rw [hS _ a p d hG hp (by rw [draw_zero h]; exact h0), draw_zero h, getExpression_eq ((hsel d p 0 hG hp h0).trans (List.getElem?_eq_getElem h0))]
    exact ⟨_, rfl⟩
  dead t a p d hG hp := by
    have h0 := hne d p hG hp
    obtain ⟨i, hi, h⟩ := draw_dead t h0
    rw [hS _ a p d hG hp (by rw [h]; exact hi), h, getExpression_eq ((hsel d p i hG hp hi).trans (List.getElem?_eq_getElem hi))]
    exact ⟨_, rfl⟩

theorem draws_randomWalk : Draws (fun _ => True) (RandomWalk tapeRng) uniformAlts :=
  draws_of (fun _ _ i => i) (fun d p _ hp => List.length_pos_iff.mpr hp) (fun _ _ _ _ _ _ => rfl)
    (fun st a p d _ hp _ => by
      have h0 : p.rhs.length ≠ 0 := fun h => hp (List.length_eq_zero_iff.mp h)
      simp only [RandomWalk, randomIndex, if_neg h0, uniformAlts]
      rfl)

theorem indicesWhere_map {α : Type} (ok : α → Bool) (l : List α) (k : Nat) (m : List α) (hm : m.length = k) :
    (indicesWhere (fun _ e => ok e) l k).map (fun i => (m ++ l)[i]?) = (l.filter ok).map some := by
  induction l generalizing k m with
  | nil => rfl
  | cons a l ih =>
    have h := ih (k + 1) (m ++ [a]) (by simp [hm])
    rw [List.append_assoc] at h
    simp only [List.singleton_append] at h
    by_cases ha : ok a = true
    · simp only [indicesWhere, if_pos ha, List.filter_cons_of_pos ha, List.map_cons, h]
      rw [← hm]
      simp
    · simp only [indicesWhere, if_neg ha, List.filter_cons_of_neg ha, h]

theorem flat_eq (e : Expression) : e.terms.all isTerminal = expressionAllTerminals e := by
  unfold expressionAllTerminals
  congr 1
  funext t
  cases t <;> rfl

theorem boundedAlts_eq (m d : Nat) (p : Production) : boundedAlts m d p =
    if m ≤ d ∧ p.rhs.filter expressionAllTerminals ≠ [] then p.rhs.filter expressionAllTerminals else p.rhs := by
  have h : (p.rhs.filter fun e => e.terms.all isTerminal) = p.rhs.filter expressionAllTerminals := by
    congr 1; funext e; exact flat_eq e
  unfold boundedAlts
  simp only [h]

theorem draws_depthBounded (m : Nat) : Draws (fun _ => True) (DepthBounded tapeRng m) (boundedAlts m) := by
  have hmap : ∀ p : Production, (indicesWhere (fun _ e => expressionAllTerminals e) p.rhs 0).map (fun i => p.rhs[i]?) =
      (p.rhs.filter expressionAllTerminals).map some := fun p => by
    simpa using indicesWhere_map expressionAllTerminals p.rhs 0 [] rfl
  have hlen : ∀ p : Production, (indicesWhere (fun _ e => expressionAllTerminals e) p.rhs 0).length = (p.rhs.filter expressionAllTerminals).length :=
    fun p => by have := congrArg List.length (hmap p); simpa using this
  refine draws_of (fun d p i => if m ≤ d ∧ p.rhs.filter expressionAllTerminals ≠ [] then
    ((indicesWhere (fun _ e => expressionAllTerminals e) p.rhs 0)[i]?).getD 0 else i) ?_ ?_ ?_
  · intro d p _ hp
    rw [boundedAlts_eq]
    split
    · rename_i h; exact List.length_pos_iff.mpr h.2
    · exact List.length_pos_iff.mpr hp
  · intro d p i _ hp h
    rw [boundedAlts_eq] at h ⊢
    by_cases hc : m ≤ d ∧ p.rhs.filter expressionAllTerminals ≠ []
    · simp only [if_pos hc] at h ⊢
      have hi : i < (indicesWhere (fun _ e => expressionAllTerminals e) p.rhs 0).length := by rw [hlen]; exact h
      rw [List.getElem?_eq_getElem hi, Option.getD_some]
      have := congrArg (fun l => l[i]?) (hmap p)
      simp only [List.getElem?_map, List.getElem?_eq_getElem hi, List.getElem?_eq_getElem h, Option.map_some, Option.some.injEq] at this
      rw [this, List.getElem?_eq_getElem h]
    · simp only [if_neg hc] at h ⊢
  · intro st a p d _ hp hlt
    have h0 : p.rhs.length ≠ 0 := fun h => hp (List.length_eq_zero_iff.mp h)
    rw [boundedAlts_eq] at hlt ⊢
    simp only [DepthBounded]
    by_cases hd : m ≤ d
    · simp only [hd, if_true, true_and] at hlt ⊢
      by_cases hf : p.rhs.filter expressionAllTerminals = []
      · have he : (indicesWhere (fun _ e => expressionAllTerminals e) p.rhs 0).isEmpty = true := by
          rw [List.isEmpty_iff, ← List.length_eq_zero_iff, hlen, hf]; rfl
        simp only [hf, ne_eq, not_true_eq_false, if_false, pickFrom, he, if_true, randomIndex, if_neg h0]
        rfl
      · have he : ¬ (indicesWhere (fun _ e => expressionAllTerminals e) p.rhs 0).isEmpty = true := by
          rw [List.isEmpty_iff, ← List.length_eq_zero_iff, hlen, List.length_eq_zero_iff]; exact hf
        have h1 : (p.rhs.filter expressionAllTerminals).length ≠ 0 := fun h => hf (List.length_eq_zero_iff.mp h)
        simp only [ne_eq, hf, not_false_eq_true, if_true] at hlt ⊢
        simp only [pickFrom, if_neg he, randomIndex, hlen, if_neg h1]
        have hi : (drawTape st (p.rhs.filter expressionAllTerminals).length).1 < (indicesWhere (fun _ e => expressionAllTerminals e) p.rhs 0).length := by
          rw [hlen]; exact hlt
        rw [tape_index, List.getElem?_eq_getElem hi]
        rfl
    · simp only [hd, false_and, if_false] at hlt ⊢
      have he : ¬ (List.range p.rhs.length).isEmpty = true := by simp [h0]
      simp only [pickFrom, if_neg he, List.length_range, randomIndex, if_neg h0]
      rw [tape_index, List.getElem?_range hlt]

theorem selectLoop_replicate {α : Type} (w : α → Nat) (l : List α) (r k : Nat) (h : r < (l.map w).sum) :
    ∃ i, selectLoop (l.map w) r k = some (k + i) ∧ l[i]? = (l.flatMap fun e => List.replicate (w e) e)[r]? := by
  induction l generalizing r k with
  | nil => simp at h
  | cons a l ih =>
    simp only [List.map_cons, selectLoop, List.flatMap_cons]
    by_cases hr : r < w a
    · rw [if_pos hr]
      exact ⟨0, rfl, by rw [List.getElem?_append_left (by simpa using hr)]; simp [hr]⟩
    · rw [if_neg hr]
      simp only [List.map_cons, List.sum_cons] at h
      obtain ⟨i, h1, h2⟩ := ih (r - w a) (k + 1) (by omega)
      refine ⟨i + 1, by rw [h1]; congr 1; omega, ?_⟩
      rw [List.getElem?_append_right (by simpa using Nat.not_lt.mp hr)]
      simpa using h2

theorem draws_weighted (checked : Bool) (x y : Nat) :
    Draws (fun p => (p.rhs.map fun e => if p.lhs ∈ e.terms then x else y).sum < 2 ^ 32) (Weighted tapeRng checked x y) (weightedAlts x y) := by
  have hlen : ∀ p : Production, (p.rhs.flatMap fun e => List.replicate (if p.lhs ∈ e.terms then x else y) e).length =
      (p.rhs.map fun e => if p.lhs ∈ e.terms then x else y).sum := fun p => by
    rw [List.length_flatMap]; simp
  refine draws_of (fun d p i => if (p.rhs.map fun e => if p.lhs ∈ e.terms then x else y).sum = 0 then i else
    (selectLoop (p.rhs.map fun e => if p.lhs ∈ e.terms then x else y) i 0).getD 0) ?_ ?_ ?_
  · intro d p _ hp
    simp only [weightedAlts]
    split
    · exact List.length_pos_iff.mpr hp
    · rename_i h; exact List.length_pos_iff.mpr h
  · intro d p i _ hp h
    simp only [weightedAlts] at h ⊢
    by_cases hc : (p.rhs.map fun e => if p.lhs ∈ e.terms then x else y).sum = 0
    · have he : (p.rhs.flatMap fun e => List.replicate (if p.lhs ∈ e.terms then x else y) e) = [] := by
        rw [← List.length_eq_zero_iff, hlen, hc]
      simp only [if_pos hc, he, if_true] at h ⊢
    · have he : ¬ (p.rhs.flatMap fun e => List.replicate (if p.lhs ∈ e.terms then x else y) e) = [] := by
        rw [← List.length_eq_zero_iff, hlen]; exact hc
      simp only [if_neg he] at h
      obtain ⟨j, h1, h2⟩ := selectLoop_replicate (fun e : Expression => if p.lhs ∈ e.terms then x else y) p.rhs i 0 (by rw [← hlen]; exact h)
      simp only [if_neg hc, if_neg he, h1, Option.getD_some, Nat.zero_add, h2]
  · intro st a p d hfit hp hlt
    have h0 : p.rhs.length ≠ 0 := fun h => hp (List.length_eq_zero_iff.mp h)
    simp only [weightedAlts] at hlt ⊢
    by_cases hc : (p.rhs.map fun e => if p.lhs ∈ e.terms then x else y).sum = 0
    · have he : (p.rhs.flatMap fun e => List.replicate (if p.lhs ∈ e.terms then x else y) e) = [] := by
        rw [← List.length_eq_zero_iff, hlen, hc]
      simp only [Weighted, weightedRandomIndex, fillWeights_eq, sumU32, if_pos hfit, if_pos hc, he, if_true, randomIndex, if_neg h0]
      rfl
    · have he : ¬ (p.rhs.flatMap fun e => List.replicate (if p.lhs ∈ e.terms then x else y) e) = [] := by
        rw [← List.length_eq_zero_iff, hlen]; exact hc
      simp only [if_neg hc, if_neg he, hlen] at hlt ⊢
      obtain ⟨i, hi, h3, h4⟩ := weighted_spec (R := tapeRng) (checked := checked) (a := x) (b := y) st a p d
        (t := (p.rhs.map fun e : Expression => if p.lhs ∈ e.terms then x else y).sum) (by rw [fillWeights_eq, sumU32, if_pos hfit]) hc
      rw [fillWeights_eq, show (tapeRng.u32 st _) = drawTape st _ from rfl] at h3
      rw [h4, h3, Option.getD_some, getExpression_lt hi]
      rfl

/-! ## Bounds -/

theorem endChance_nonneg (g : Grammar) (alts : Nat → Production → List Expression) (n d : Nat) (x : Str) :
    0 ≤ endChance g alts n d x ∧ endChance g alts n d x ≤ 1 := by
  induction n generalizing d x with
  | zero => simp [endChance]
  | succ n ih =>
    simp only [endChance]
    cases firstOf g x with
    | none => simp
    | some p =>
      simp only
      by_cases hb : Barren p
      · simp [if_pos hb]
      · rw [if_neg hb]
        have hp : ∀ ts : List Term, 0 ≤ (ts.map (termChance (endChance g alts n (d + 1)))).prod ∧
            (ts.map (termChance (endChance g alts n (d + 1)))).prod ≤ 1 := by
          intro ts
          induction ts with
          | nil => simp
          | cons t ts iht =>
            have ht : 0 ≤ termChance (endChance g alts n (d + 1)) t ∧ termChance (endChance g alts n (d + 1)) t ≤ 1 := by
              cases t with
              | terminal u => simp [termChance]
              | nonterminal y => exact ih (d + 1) y
            simp only [List.map_cons, List.prod_cons]
            exact ⟨mul_nonneg ht.1 iht.1, mul_le_one₀ ht.2 iht.1 iht.2⟩
        have hs : ∀ es : List Expression, 0 ≤ (es.map fun e => (e.terms.map (termChance (endChance g alts n (d + 1)))).prod).sum ∧
            (es.map fun e => (e.terms.map (termChance (endChance g alts n (d + 1)))).prod).sum ≤ es.length := by
          intro es
          induction es with
          | nil => simp
          | cons e es ihe =>
            have := hp e.terms
            simp only [List.map_cons, List.sum_cons, List.length_cons, Nat.cast_add, Nat.cast_one]
            constructor <;> linarith [ihe.1, ihe.2, this.1, this.2]
        have := hs (alts d p)
        exact ⟨div_nonneg this.1 (Nat.cast_nonneg _), div_le_one_of_le₀ this.2 (Nat.cast_nonneg _)⟩

/-- If expanding a nonterminal multiplies the expected weight by at most `m`, generation ends within `n` nested expansions up to `m ^ n`. -/
theorem endChance_subcritical {g : Grammar} {alts : Nat → Production → List Expression} {m : ℚ} (hm : 0 ≤ m) {v : Str → ℚ} (hv : ∀ x, 1 ≤ v x)
    (hb : ∀ p ∈ g.productions, ¬ Barren p) (ha : ∀ p ∈ g.productions, ∀ d, alts d p ≠ [])
    (h : ∀ p ∈ g.productions, ∀ d x, p.lhs = .nonterminal x → ((alts d p).map (offspring v)).sum ≤ m * v x * (alts d p).length)
    (n d : Nat) (x : Str) : 1 - m ^ n * v x ≤ endChance g alts n d x := by
  induction n generalizing d x with
  | zero => simp only [endChance, pow_zero, one_mul]; linarith [hv x]
  | succ n ih =>
    simp only [endChance]
    cases hf : firstOf g x with
    | none => simp only; have := mul_nonneg (pow_nonneg hm (n + 1)) (le_trans zero_le_one (hv x)); linarith
    | some p =>
      have hp := firstOf_mem hf
      have hlhs : p.lhs = .nonterminal x := by
        have := List.find?_some hf
        simpa using this
      simp only
      rw [if_neg (hb p hp)]
      have hmn := pow_nonneg hm n
      have ht : ∀ ts : List Term, 1 - m ^ n * (ts.map (termWeight v)).sum ≤ (ts.map (termChance (endChance g alts n (d + 1)))).prod ∧
          0 ≤ (ts.map (termChance (endChance g alts n (d + 1)))).prod ∧ (ts.map (termChance (endChance g alts n (d + 1)))).prod ≤ 1 := by
        intro ts
        induction ts with
        | nil => simp
        | cons t ts iht =>
          cases t with
          | terminal u => simpa [termChance, termWeight] using iht
          | nonterminal y =>
            have hy := endChance_nonneg g alts n (d + 1) y
            have hy' := ih (d + 1) y
            obtain ⟨h1, h2, h3⟩ := iht
            simp only [List.map_cons, List.prod_cons, termChance, List.sum_cons, termWeight]
            refine ⟨?_, mul_nonneg hy.1 h2, mul_le_one₀ hy.2 h2 h3⟩
            nlinarith [mul_nonneg (sub_nonneg.mpr hy.2) (sub_nonneg.mpr h3)]
      have hs : ∀ es : List Expression, (es.length : ℚ) - m ^ n * (es.map (offspring v)).sum ≤
          (es.map fun e => (e.terms.map (termChance (endChance g alts n (d + 1)))).prod).sum := by
        intro es
        induction es with
        | nil => simp
        | cons e es ihe =>
          have h1 := (ht e.terms).1
          have h2 : offspring v e = (e.terms.map (termWeight v)).sum := rfl
          rw [← h2] at h1
          simp only [List.map_cons, List.sum_cons, List.length_cons, Nat.cast_add, Nat.cast_one]
          linarith
      have hlen : (0 : ℚ) < (alts d p).length := by
        exact_mod_cast List.length_pos_iff.mpr (ha p hp d)
      rw [le_div_iff₀ hlen]
      have h3 := hs (alts d p)
      have h4 := mul_le_mul_of_nonneg_left (h p hp d x hlhs) hmn
      have h5 : m ^ n * (m * v x * ((alts d p).length : ℚ)) = m ^ (n + 1) * v x * (alts d p).length := by rw [pow_succ]; ring
      rw [h5] at h4
      linarith

/-! ## The probability is well defined -/

theorem sum_eq_of_cover {f : List Nat → ℚ} {l l' : List (List Nat)} (hl : l.Nodup) (hl' : l'.Nodup) (h : ∀ t, f t ≠ 0 → t ∈ l)
    (h' : ∀ t, f t ≠ 0 → t ∈ l') : (l.map f).sum = (l'.map f).sum := by
  have key : ∀ l : List (List Nat), (l.map f).sum = ((l.filter fun t => f t ≠ 0).map f).sum := by
    intro l
    induction l with
    | nil => rfl
    | cons a l ih =>
      by_cases ha : f a = 0
      · simp [ha, ih]
      · simp [ha, ih]
  rw [key l, key l']
  apply List.Perm.sum_eq
  apply List.Perm.map
  rw [List.perm_ext_iff_of_nodup (hl.filter _) (hl'.filter _)]
  intro t
  simp only [List.mem_filter, decide_eq_true_eq]
  exact ⟨fun k => ⟨h' t k.2, k.2⟩, fun k => ⟨h t k.2, k.2⟩⟩

theorem hasChance_unique {run : List Nat × ℚ → GenRes (List Nat × ℚ)} {P : Str → Bool} {p q : ℚ} (h : HasChance run P p) (h' : HasChance run P q) :
    p = q := by
  obtain ⟨l, h1, h2, rfl⟩ := h
  obtain ⟨l', h3, h4, rfl⟩ := h'
  exact sum_eq_of_cover h1 h3 h2 h4

end Bnf
