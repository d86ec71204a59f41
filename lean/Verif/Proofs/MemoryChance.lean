import Verif.Spec.CoverChance
import Verif.Proofs.Chance

/-!
# Strategies with a memory: runs and chances
-/

set_option autoImplicit false

namespace Bnf
open Bnf.Spec

variable {M : Type}

/-- What a strategy with a memory does with a tape: it draws one number, which selects among `alts`. -/
structure DrawsM (S : Strategy (M × (List Nat × ℚ))) (alts : M → Nat → Production → List (Expression × M)) : Prop where
  step : ∀ m (x : Nat) xs w a p d, p.rhs ≠ [] → (h : x < (alts m a p).length) →
    S.choose (m, (x :: xs, w)) a p d = (.expr (alts m a p)[x].1, ((alts m a p)[x].2, (xs, w / (alts m a p).length)))
  zero : ∀ m (t : List Nat) w a p d, p.rhs ≠ [] → (∀ x xs, t = x :: xs → (alts m a p).length ≤ x) →
    ∃ e m', S.choose (m, (t, w)) a p d = (.expr e, (m', (t.tail, 0)))
  dead : ∀ m (t : List Nat) a p d, p.rhs ≠ [] → ∃ e m', S.choose (m, (t, 0)) a p d = (.expr e, (m', (t.tail, 0)))

/-- A run: tape, probability, text, memory. -/
abbrev RunM (M : Type) := List Nat × ℚ × Str × M

def runsTermsM (rs : M → Str → List (RunM M)) : List Term → M → List (RunM M)
  | [], m => [([], 1, [], m)]
  | .terminal u :: ts, m => (runsTermsM rs ts m).map fun r => (r.1, r.2.1, u ++ r.2.2.1, r.2.2.2)
  | .nonterminal x :: ts, m => (rs m x).flatMap fun r => (runsTermsM rs ts r.2.2.2).map fun r' =>
      (r.1 ++ r'.1, r.2.1 * r'.2.1, r.2.2.1 ++ r'.2.2.1, r'.2.2.2)

def runsM (g : Grammar) (alts : M → Nat → Production → List (Expression × M)) : Nat → M → Str → List (RunM M)
  | 0, _, _ => []
  | n + 1, m, x =>
    match firstOf g x with
    | none => [([], 1, x, m)]
    | some p => if Barren p then [] else
      (alts m (posOf g x) p).zipIdx.flatMap fun e => (runsTermsM (runsM g alts n) e.1.1.terms e.1.2).map fun r =>
        (e.2 :: r.1, r.2.1 / (alts m (posOf g x) p).length, r.2.2.1, r.2.2.2)

/-! ## Runs and distributions -/

theorem runsTermsM_dist {rs : M → Str → List (RunM M)} {D : M → Str → MemDist M} (h : ∀ m x, (rs m x).map (fun r => (r.2.2.1, r.2.2.2, r.2.1)) = D m x)
    (ts : List Term) (m : M) : (runsTermsM rs ts m).map (fun r => (r.2.2.1, r.2.2.2, r.2.1)) = memTerms D ts m := by
  induction ts generalizing m with
  | nil => rfl
  | cons t ts ih =>
    cases t with
    | terminal u => simp only [runsTermsM, memTerms, ← ih, List.map_map]; rfl
    | nonterminal x =>
      simp only [runsTermsM, memTerms, ← ih, ← h, List.map_flatMap, List.flatMap_map, List.map_map]
      rfl

theorem runsM_dist (g : Grammar) (alts : M → Nat → Production → List (Expression × M)) (n : Nat) (m : M) (x : Str) :
    (runsM g alts n m x).map (fun r => (r.2.2.1, r.2.2.2, r.2.1)) = memDist g alts n m x := by
  induction n generalizing m x with
  | zero => rfl
  | succ n ih =>
    simp only [runsM, memDist]
    cases firstOf g x with
    | none => rfl
    | some p =>
      simp only
      by_cases hb : Barren p
      · rw [if_pos hb, if_pos hb]; rfl
      · rw [if_neg hb, if_neg hb]
        rw [List.map_flatMap, ← flatMap_zipIdx _ (alts m (posOf g x) p) 0]
        congr 1
        funext e
        rw [← runsTermsM_dist ih, List.map_map, List.map_map]
        rfl

/-! ## The model follows the runs -/

theorem firstOf_pos {g : Grammar} {x : Str} {p : Production} (h : firstOf g x = some p) : findProduction x g.productions 0 = some (posOf g x, p) := by
  have : ∀ ps : List Production, ∀ i, ps.find? (fun p => p.lhs == .nonterminal x) = some p →
      findProduction x ps i = some (i + ps.findIdx (fun p => p.lhs == .nonterminal x), p) := by
    intro ps
    induction ps with
    | nil => intro i h; cases h
    | cons q ps ih =>
      intro i h
      rw [List.find?_cons] at h
      rw [List.findIdx_cons]
      by_cases hp : q.lhs = .nonterminal x
      · simp only [hp, beq_self_eq_true] at h
        injection h with h; subst h
        rw [findProduction, if_pos hp]
        simp [hp]
      · simp only [beq_eq_false_iff_ne.mpr hp] at h
        rw [findProduction, if_neg hp, ih _ h]
        simp only [beq_eq_false_iff_ne.mpr hp, cond_false, Option.some.injEq, Prod.mk.injEq, and_true]
        omega
  have := this _ 0 h
  rwa [Nat.zero_add] at this

theorem evalTermsM_acc {trav : Str → M × (List Nat × ℚ) → GenRes (M × (List Nat × ℚ))} (ts : List Term) (acc : Str) (st : M × (List Nat × ℚ)) :
    evalTerms trav ts acc st = match evalTerms trav ts [] st with
      | .done (.ok s) st' => .done (.ok (acc ++ s)) st'
      | r => r := by
  induction ts generalizing acc st with
  | nil => simp [evalTerms]
  | cons t ts ih =>
    cases t with
    | terminal u =>
      simp only [evalTerms]
      rw [ih (acc ++ u), ih ([] ++ u)]
      cases evalTerms trav ts [] st with
      | done r st' => cases r <;> simp
      | _ => rfl
    | nonterminal x =>
      simp only [evalTerms]
      cases trav x st with
      | done r st' =>
        cases r with
        | ok s =>
          simp only
          rw [ih (acc ++ s), ih ([] ++ s)]
          cases evalTerms trav ts [] st' with
          | done r st' => cases r <;> simp
          | _ => rfl
        | error e => rfl
      | _ => rfl

section
variable {g : Grammar} {S : Strategy (M × (List Nat × ℚ))} {alts : M → Nat → Production → List (Expression × M)}

theorem runsTermsM_sound {rs : M → Str → List (RunM M)} {trav : Str → M × (List Nat × ℚ) → GenRes (M × (List Nat × ℚ))}
    (h : ∀ m x r, r ∈ rs m x → ∀ rest v, trav x (m, (r.1 ++ rest, v)) = .done (.ok r.2.2.1) (r.2.2.2, (rest, v * r.2.1))) {ts : List Term} {m : M} {r : RunM M}
    (hr : r ∈ runsTermsM rs ts m) (rest : List Nat) (v : ℚ) :
    evalTerms trav ts [] (m, (r.1 ++ rest, v)) = .done (.ok r.2.2.1) (r.2.2.2, (rest, v * r.2.1)) := by
  induction ts generalizing m r rest v with
  | nil =>
    simp only [runsTermsM, List.mem_singleton] at hr
    subst hr
    simp [evalTerms]
  | cons t ts ih =>
    cases t with
    | terminal u =>
      simp only [runsTermsM, List.mem_map] at hr
      obtain ⟨r', hr', rfl⟩ := hr
      simp only [evalTerms]
      rw [evalTermsM_acc, ih hr']
      simp
    | nonterminal x =>
      simp only [runsTermsM, List.mem_flatMap, List.mem_map] at hr
      obtain ⟨r1, h1, r2, h2, rfl⟩ := hr
      simp only [evalTerms, List.append_assoc]
      rw [h m x r1 h1]
      simp only
      rw [evalTermsM_acc, ih h2]
      simp [mul_assoc]

theorem runsM_sound (hS : DrawsM S alts) (n d : Nat) (m : M) (x : Str) : ∀ r, r ∈ runsM g alts n m x → ∀ rest v,
    traverse g S (acceptAll _) n x d (m, (r.1 ++ rest, v)) = .done (.ok r.2.2.1) (r.2.2.2, (rest, v * r.2.1)) := by
  induction n generalizing d m x with
  | zero => intro r hr; simp [runsM] at hr
  | succ n ih =>
    intro r hr rest v
    simp only [runsM] at hr
    cases hf : firstOf g x with
    | none =>
      rw [hf] at hr
      simp only [List.mem_singleton] at hr
      subst hr
      rw [traverse, firstOf_none hf]
      simp
    | some p =>
      rw [hf] at hr
      simp only at hr
      by_cases hb : Barren p
      · rw [if_pos hb] at hr; simp at hr
      · rw [if_neg hb] at hr
        simp only [List.mem_flatMap, List.mem_map] at hr
        obtain ⟨⟨e, i⟩, he, r', hr', rfl⟩ := hr
        have hc : productionHasNoChoice p = false := by
          rw [Bool.eq_false_iff]; intro h; exact hb ((barren_iff p).mp h)
        have hne : p.rhs ≠ [] := fun h => hb (.inl h)
        have hi := List.mem_zipIdx he
        simp only [Nat.zero_add, Nat.zero_le, Nat.sub_zero, true_and] at hi
        rw [traverse, firstOf_pos hf]
        simp only [hc, Bool.false_eq_true, if_false, List.cons_append]
        rw [hS.step m i _ v _ p d hne hi.1]
        simp only [← hi.2]
        rw [runsTermsM_sound (trav := fun nt st => traverse g S (acceptAll _) n nt (d + 1) st) (fun m y r hr => ih (d + 1) m y r hr) hr']
        simp only [acceptAll, if_true, GenRes.done.injEq, true_and, Prod.mk.injEq]
        ring

/-- Probability 0 stays. -/
def DeadM (trav : Str → M × (List Nat × ℚ) → GenRes (M × (List Nat × ℚ))) : Prop :=
  ∀ x m t s st, trav x (m, (t, 0)) = .done (.ok s) st → st.2.2 = 0

theorem evalTermsM_dead {trav : Str → M × (List Nat × ℚ) → GenRes (M × (List Nat × ℚ))} (h : DeadM trav) (ts : List Term) (acc : Str) (m : M)
    (t : List Nat) {s st} (hr : evalTerms trav ts acc (m, (t, 0)) = .done (.ok s) st) : st.2.2 = 0 := by
  induction ts generalizing acc m t with
  | nil =>
    simp only [evalTerms] at hr
    injection hr with _ hr; subst hr; rfl
  | cons u ts ih =>
    cases u with
    | terminal u => exact ih _ _ _ hr
    | nonterminal x =>
      simp only [evalTerms] at hr
      cases hx : trav x (m, (t, 0)) with
      | fuel => rw [hx] at hr; cases hr
      | panic => rw [hx] at hr; cases hr
      | done r st' =>
        rw [hx] at hr
        cases r with
        | error e => simp at hr
        | ok s' =>
          have h0 := h x m t s' st' hx
          obtain ⟨m', t', w⟩ := st'
          simp only at h0
          subst h0
          exact ih _ _ _ hr

theorem traverseM_dead (hS : DrawsM S alts) (n d : Nat) : DeadM (fun x st => traverse g S (acceptAll _) n x d st) := by
  induction n generalizing d with
  | zero => intro x m t s st h; simp [traverse] at h
  | succ n ih =>
    intro x m t s st h
    simp only [traverse] at h
    cases hf : findProduction x g.productions 0 with
    | none =>
      rw [hf] at h
      injection h with _ h; subst h; rfl
    | some ap =>
      obtain ⟨a, p⟩ := ap
      rw [hf] at h
      simp only at h
      by_cases hc : productionHasNoChoice p = true
      · rw [if_pos hc] at h; simp at h
      · rw [if_neg hc] at h
        have hne : p.rhs ≠ [] := fun h0 => hc ((barren_iff p).mpr (.inl h0))
        obtain ⟨e, m', he⟩ := hS.dead m t a p d hne
        rw [he] at h
        simp only at h
        cases hx : evalTerms (fun nt st => traverse g S (acceptAll _) n nt (d + 1) st) e.terms [] (m', (t.tail, 0)) with
        | fuel => rw [hx] at h; cases h
        | panic => rw [hx] at h; cases h
        | done r st' =>
          rw [hx] at h
          cases r with
          | error e => simp at h
          | ok s' =>
            simp only [acceptAll, if_true] at h
            injection h with _ h; subst h
            exact evalTermsM_dead (ih (d + 1)) _ _ _ _ hx

theorem runsTermsM_complete {rs : M → Str → List (RunM M)} {trav : Str → M × (List Nat × ℚ) → GenRes (M × (List Nat × ℚ))} (hd : DeadM trav)
    (h : ∀ x m t v s m' t' v', trav x (m, (t, v)) = .done (.ok s) (m', (t', v')) → v' ≠ 0 →
      ∃ r ∈ rs m x, r.2.2 = (s, m') ∧ t = r.1 ++ t' ∧ v' = v * r.2.1)
    (ts : List Term) (m : M) (t : List Nat) (v : ℚ) {s m' t' v'} (hr : evalTerms trav ts [] (m, (t, v)) = .done (.ok s) (m', (t', v'))) (hv : v' ≠ 0) :
    ∃ r ∈ runsTermsM rs ts m, r.2.2 = (s, m') ∧ t = r.1 ++ t' ∧ v' = v * r.2.1 := by
  induction ts generalizing m t v s with
  | nil =>
    simp only [evalTerms, GenRes.done.injEq, Except.ok.injEq, Prod.mk.injEq] at hr
    obtain ⟨rfl, rfl, rfl, rfl⟩ := hr
    exact ⟨([], 1, [], m), by simp [runsTermsM], rfl, rfl, by simp⟩
  | cons u ts ih =>
    cases u with
    | terminal u =>
      simp only [evalTerms] at hr
      rw [evalTermsM_acc] at hr
      cases hx : evalTerms trav ts [] (m, (t, v)) with
      | fuel => rw [hx] at hr; cases hr
      | panic => rw [hx] at hr; cases hr
      | done r st' =>
        rw [hx] at hr
        cases r with
        | error e => simp at hr
        | ok s' =>
          simp only [GenRes.done.injEq, Except.ok.injEq] at hr
          obtain ⟨rfl, rfl⟩ := hr
          obtain ⟨r, h1, h4, h2, h3⟩ := ih m t v hx
          refine ⟨_, List.mem_map_of_mem h1, ?_, h2, h3⟩
          simp [h4]
    | nonterminal x =>
      simp only [evalTerms] at hr
      cases hx : trav x (m, (t, v)) with
      | fuel => rw [hx] at hr; cases hr
      | panic => rw [hx] at hr; cases hr
      | done r st' =>
        rw [hx] at hr
        cases r with
        | error e => simp at hr
        | ok s' =>
          simp only [List.nil_append] at hr
          obtain ⟨m1, t1, v1⟩ := st'
          have hv1 : v1 ≠ 0 := by
            rintro rfl
            exact hv (evalTermsM_dead hd _ _ _ _ hr)
          rw [evalTermsM_acc] at hr
          cases hy : evalTerms trav ts [] (m1, (t1, v1)) with
          | fuel => rw [hy] at hr; cases hr
          | panic => rw [hy] at hr; cases hr
          | done r2 st2 =>
            rw [hy] at hr
            cases r2 with
            | error e => simp at hr
            | ok s2 =>
              simp only [GenRes.done.injEq, Except.ok.injEq] at hr
              obtain ⟨rfl, rfl⟩ := hr
              obtain ⟨⟨a1, w1, s1, n1⟩, h1, h4, h2, h3⟩ := h x m t v s' m1 t1 v1 hx hv1
              obtain ⟨⟨a2, w2, s3, n2⟩, k1, k4, k2, k3⟩ := ih m1 t1 v1 hy
              simp only [Prod.mk.injEq] at h4 k4
              obtain ⟨rfl, rfl⟩ := h4
              obtain ⟨rfl, rfl⟩ := k4
              refine ⟨(a1 ++ a2, w1 * w2, s1 ++ s3, n2), ?_, rfl, ?_, ?_⟩
              · simp only [runsTermsM, List.mem_flatMap, List.mem_map]
                exact ⟨_, h1, _, k1, rfl⟩
              · rw [h2, k2, List.append_assoc]
              · rw [k3, h3, mul_assoc]

theorem runsM_complete (hS : DrawsM S alts) (n d : Nat) : ∀ x m t v s m' t' v',
    traverse g S (acceptAll _) n x d (m, (t, v)) = .done (.ok s) (m', (t', v')) → v' ≠ 0 →
      ∃ r ∈ runsM g alts n m x, r.2.2 = (s, m') ∧ t = r.1 ++ t' ∧ v' = v * r.2.1 := by
  induction n generalizing d with
  | zero => intro x m t v s m' t' v' h; simp [traverse] at h
  | succ n ih =>
    intro x m t v s m' t' v' h hv
    simp only [traverse] at h
    simp only [runsM]
    cases hf : firstOf g x with
    | none =>
      rw [firstOf_none hf] at h
      simp only [GenRes.done.injEq, Except.ok.injEq, Prod.mk.injEq] at h
      obtain ⟨rfl, rfl, rfl, rfl⟩ := h
      exact ⟨_, List.mem_singleton_self _, rfl, rfl, by simp⟩
    | some p =>
      rw [firstOf_pos hf] at h
      simp only at h ⊢
      by_cases hc : productionHasNoChoice p = true
      · rw [if_pos hc] at h; simp at h
      · rw [if_neg hc] at h
        have hb : ¬ Barren p := fun h0 => hc ((barren_iff p).mpr h0)
        have hne : p.rhs ≠ [] := fun h0 => hb (.inl h0)
        rw [if_neg hb]
        by_cases ht : ∃ y ys, t = y :: ys ∧ y < (alts m (posOf g x) p).length
        · obtain ⟨y, ys, rfl, hy⟩ := ht
          rw [hS.step m y ys v _ p d hne hy] at h
          simp only at h
          cases hx : evalTerms (fun nt st => traverse g S (acceptAll _) n nt (d + 1) st) (alts m (posOf g x) p)[y].1.terms []
              ((alts m (posOf g x) p)[y].2, (ys, v / (alts m (posOf g x) p).length)) with
          | fuel => rw [hx] at h; cases h
          | panic => rw [hx] at h; cases h
          | done r st' =>
            rw [hx] at h
            cases r with
            | error e => simp at h
            | ok s' =>
              simp only [acceptAll, if_true, GenRes.done.injEq, Except.ok.injEq] at h
              obtain ⟨rfl, rfl⟩ := h
              obtain ⟨r, h1, h4, h2, h3⟩ := runsTermsM_complete (traverseM_dead hS n (d + 1)) (ih (d + 1)) _ _ _ _ hx hv
              refine ⟨(y :: r.1, r.2.1 / (alts m (posOf g x) p).length, r.2.2.1, r.2.2.2), ?_, h4, ?_, ?_⟩
              · simp only [List.mem_flatMap, List.mem_map]
                refine ⟨((alts m (posOf g x) p)[y], y), ?_, r, h1, rfl⟩
                rw [List.mem_zipIdx_iff_getElem?]
                exact List.getElem?_eq_getElem hy
              · rw [h2]; rfl
              · rw [h3]; ring
        · exfalso
          obtain ⟨e, m1, he⟩ := hS.zero m t v (posOf g x) p d hne (fun y ys hy => by
            by_contra hlt; exact ht ⟨y, ys, hy, by omega⟩)
          rw [he] at h
          simp only at h
          cases hx : evalTerms (fun nt st => traverse g S (acceptAll _) n nt (d + 1) st) e.terms [] (m1, (t.tail, 0)) with
          | fuel => rw [hx] at h; cases h
          | panic => rw [hx] at h; cases h
          | done r st' =>
            rw [hx] at h
            cases r with
            | error e => simp at h
            | ok s' =>
              simp only [acceptAll, if_true, GenRes.done.injEq, Except.ok.injEq] at h
              obtain ⟨rfl, rfl⟩ := h
              exact hv (evalTermsM_dead (traverseM_dead hS n (d + 1)) _ _ _ _ hx)

/-! ## Tapes -/

theorem runsM_prefix_free (hS : DrawsM S alts) {n : Nat} {m : M} {x : Str} {r r' : RunM M} (h : r ∈ runsM g alts n m x) (h' : r' ∈ runsM g alts n m x)
    {a a' : List Nat} (he : r.1 ++ a = r'.1 ++ a') : r.1 = r'.1 ∧ a = a' := by
  have h1 := runsM_sound (g := g) hS n 0 m x r h a 1
  have h2 := runsM_sound (g := g) hS n 0 m x r' h' a' 1
  rw [he, h2] at h1
  simp only [GenRes.done.injEq, Prod.mk.injEq] at h1
  obtain ⟨_, _, rfl, _⟩ := h1
  exact ⟨List.append_cancel_right he, rfl⟩

theorem runsTermsM_nodup {rs : M → Str → List (RunM M)} (hn : ∀ m x, ((rs m x).map (·.1)).Nodup)
    (hp : ∀ m x r r' a a', r ∈ rs m x → r' ∈ rs m x → r.1 ++ a = r'.1 ++ a' → r.1 = r'.1 ∧ a = a') (ts : List Term) (m : M) :
    ((runsTermsM rs ts m).map (·.1)).Nodup := by
  induction ts generalizing m with
  | nil => simp [runsTermsM]
  | cons t ts ih =>
    cases t with
    | terminal u =>
      simp only [runsTermsM, List.map_map]
      exact ih m
    | nonterminal x =>
      simp only [runsTermsM, List.map_flatMap, List.map_map]
      rw [List.nodup_flatMap]
      constructor
      · intro r hr
        have : (fun r' : RunM M => r.1 ++ r'.1) = (fun t => r.1 ++ t) ∘ (·.1) := rfl
        show ((runsTermsM rs ts r.2.2.2).map (fun r' : RunM M => r.1 ++ r'.1)).Nodup
        rw [this, ← List.map_map]
        exact (ih _).map (fun a b h => List.append_cancel_left h)
      · have hpw := hn m x
        rw [List.Nodup, List.pairwise_map] at hpw
        refine hpw.imp_of_mem ?_
        intro r r' hr hr' hne t ht ht'
        simp only [Function.comp_apply, List.mem_map] at ht ht'
        obtain ⟨q, _, rfl⟩ := ht
        obtain ⟨q', _, hq⟩ := ht'
        exact hne (hp m x r r' q.1 q'.1 hr hr' hq.symm).1

theorem runsM_nodup (hS : DrawsM S alts) (n : Nat) (m : M) (x : Str) : ((runsM g alts n m x).map (·.1)).Nodup := by
  induction n generalizing m x with
  | zero => simp [runsM]
  | succ n ih =>
    simp only [runsM]
    split
    · simp
    · split
      · simp
      · rename_i p _ _
        rw [List.map_flatMap, List.nodup_flatMap]
        have hts := fun ts m => runsTermsM_nodup (rs := runsM g alts n) ih
          (fun m y r r' a a' h h' he => runsM_prefix_free hS h h' he) ts m
        constructor
        · rintro ⟨e, i⟩ _
          rw [List.map_map]
          have : ((fun r : RunM M => r.1) ∘ fun r : RunM M => (i :: r.1, r.2.1 / ((alts m (posOf g x) p).length : ℚ), r.2.2.1, r.2.2.2)) =
            (fun t => i :: t) ∘ (·.1) := rfl
          rw [this, ← List.map_map]
          exact (hts e.1.terms e.2).map (fun a b h => by injection h)
        · have hpw : ((alts m (posOf g x) p).zipIdx.map (·.2)).Nodup := by
            rw [List.zipIdx_map_snd]
            exact List.nodup_range'
          rw [List.Nodup, List.pairwise_map] at hpw
          refine hpw.imp ?_
          rintro ⟨e, i⟩ ⟨e', i'⟩ hne t ht ht'
          simp only [List.mem_map] at ht ht'
          obtain ⟨_, ⟨q, _, rfl⟩, rfl⟩ := ht
          obtain ⟨_, ⟨q', _, rfl⟩, hq⟩ := ht'
          injection hq with hq
          exact hne hq.symm

theorem chance_of_runsM (hS : DrawsM S alts) (n d : Nat) (m : M) (x : Str) (P : Str → Bool) :
    HasChance (fun st => forget (traverse g S (acceptAll _) n x d (m, st))) P ((memDist g alts n m x).mass P) := by
  refine ⟨(runsM g alts n m x).map (·.1), runsM_nodup hS n m x, fun t ht => ?_, ?_⟩
  · cases hx : traverse g S (acceptAll _) n x d (m, (t, 1)) with
    | fuel => simp only [hx, weightOf, forget] at ht; exact absurd rfl ht
    | panic => simp only [hx, weightOf, forget] at ht; exact absurd rfl ht
    | done r st =>
      obtain ⟨m', t', v'⟩ := st
      cases r with
      | error e => simp only [hx, weightOf, forget] at ht; exact absurd rfl ht
      | ok s =>
        cases t' with
        | cons a as => simp only [hx, weightOf, forget] at ht; exact absurd rfl ht
        | nil =>
          simp only [hx, weightOf, forget] at ht
          have hv : v' ≠ 0 := by
            rintro rfl
            apply ht
            split <;> rfl
          obtain ⟨r, h1, _, h2, _⟩ := runsM_complete hS n d x m t 1 s m' [] v' hx hv
          rw [List.append_nil] at h2
          exact List.mem_map.mpr ⟨r, h1, h2.symm⟩
  · rw [MemDist.mass, ← runsM_dist, List.map_map, List.map_map]
    congr 1
    apply List.map_congr_left
    intro r hr
    have := runsM_sound (g := g) hS n d m x r hr [] 1
    rw [List.append_nil] at this
    simp only [Function.comp_apply, this, weightOf, forget, one_mul]

end

/-! ## The coverage-guided strategy -/

theorem unused_indices (seen : List (Nat × Nat)) (a : Nat) (p : Production) :
    (List.range p.rhs.length).filter (fun i => !seen.contains (a, i)) = (unusedAlts seen a p).map (·.2) := by
  have h1 : List.range p.rhs.length = p.rhs.zipIdx.map (·.2) := by rw [List.zipIdx_map_snd, List.range_eq_range']
  rw [h1, List.filter_map, unusedAlts]
  congr 1
  refine List.filter_congr fun e _ => ?_
  simp

theorem coverAlts_ne {seen : List (Nat × Nat)} {a : Nat} {p : Production} (h : p.rhs ≠ []) : 0 < (coverAlts seen a p).length := by
  unfold coverAlts
  rw [List.length_map]
  split
  · rw [List.length_zipIdx]; exact List.length_pos_iff.mpr h
  · rename_i hu; exact List.length_pos_iff.mpr hu

theorem coverage_choose (seen : List (Nat × Nat)) (st : List Nat × ℚ) (a : Nat) (p : Production) (d : Nat) (hp : p.rhs ≠ [])
    (h : (drawTape st (coverAlts seen a p).length).1 < (coverAlts seen a p).length) :
    (CoverageGuided tapeRng).choose (seen, st) a p d =
      (.expr (coverAlts seen a p)[(drawTape st (coverAlts seen a p).length).1].1,
        ((coverAlts seen a p)[(drawTape st (coverAlts seen a p).length).1].2, (drawTape st (coverAlts seen a p).length).2)) := by
  have h0 : p.rhs.length ≠ 0 := fun h => hp (List.length_eq_zero_iff.mp h)
  simp only [CoverageGuided, unused_indices, pickFrom]
  by_cases hu : unusedAlts seen a p = []
  · have hc : coverAlts seen a p = p.rhs.zipIdx.map fun e => (e.1, (a, e.2) :: seen) := by rw [coverAlts, if_pos hu]
    have hl : (coverAlts seen a p).length = p.rhs.length := by rw [hc]; simp
    rw [hu]
    simp only [List.map_nil, List.isEmpty_nil, if_true, randomIndex, if_neg h0, tape_index]
    rw [hl] at h
    simp only [hl]
    rw [getExpression_eq (List.getElem?_eq_getElem h)]
    simp [hc]
  · have hc : coverAlts seen a p = (unusedAlts seen a p).map fun e => (e.1, (a, e.2) :: seen) := by rw [coverAlts, if_neg hu]
    have hl : (coverAlts seen a p).length = (unusedAlts seen a p).length := by rw [hc]; simp
    have hl0 : (unusedAlts seen a p).length ≠ 0 := fun h => hu (List.length_eq_zero_iff.mp h)
    have he : ((unusedAlts seen a p).map (·.2)).isEmpty = false := by simpa using hu
    simp only [he, Bool.false_eq_true, if_false, randomIndex, List.length_map, if_neg hl0, tape_index]
    rw [hl] at h
    simp only [hl]
    have key : getExpression p (unusedAlts seen a p)[(drawTape st (unusedAlts seen a p).length).1].2 =
        .expr (unusedAlts seen a p)[(drawTape st (unusedAlts seen a p).length).1].1 := by
      have hm : (unusedAlts seen a p)[(drawTape st (unusedAlts seen a p).length).1] ∈ p.rhs.zipIdx := (List.mem_filter.mp (List.getElem_mem h)).1
      exact getExpression_eq (List.mem_zipIdx_iff_getElem?.mp hm)
    rw [List.getElem?_map, List.getElem?_eq_getElem h]
    simp only [Option.map_some]
    rw [key]
    simp [hc]

theorem drawsM_coverage : DrawsM (CoverageGuided tapeRng) coverAlts where
  step m x xs w a p d hp h := by
    rw [coverage_choose m _ a p d hp (by rw [draw_lt h]; exact h)]
    simp only [draw_lt h]
  zero m t w a p d hp h := by
    have h0 := coverAlts_ne (seen := m) (a := a) hp
    rw [coverage_choose m _ a p d hp (by rw [draw_zero h]; exact h0)]
    simp only [draw_zero h]
    exact ⟨_, _, rfl⟩
  dead m t a p d hp := by
    have h0 := coverAlts_ne (seen := m) (a := a) hp
    obtain ⟨i, hi, h⟩ := draw_dead t h0
    rw [coverage_choose m _ a p d hp (by rw [h]; exact hi)]
    simp only [h]
    exact ⟨_, _, rfl⟩

end Bnf
