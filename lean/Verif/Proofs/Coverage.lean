import Verif.Proofs.Strategies
import Verif.Spec.Coverage

/-! # Coverage over many generated texts -/

set_option autoImplicit false

namespace Bnf
open Spec

variable {ρ Seed : Type} {R : Rng ρ Seed} {g : Grammar}

/-- The state of a watched `CoverageGuided`. -/
abbrev WState (ρ : Type) := (List (Nat × Nat) × ρ) × List (Production × Expression)

/-- What the strategy believes to have covered was answered. -/
def WInv (g : Grammar) (st : WState ρ) : Prop :=
  ∀ (a i : Nat) (p : Production), (a, i) ∈ st.1.1 → g.productions[a]? = some p → ∃ e, p.rhs[i]? = some e ∧ (p, e) ∈ st.2

/-- Number of the first `n` alternatives at address `a` that were covered. -/
def wcount (a n : Nat) (st : WState ρ) : Nat := seenCount a n st.1.1

theorem watched_choose (st : WState ρ) (a : Nat) (p : Production) (d : Nat) (hne : p.rhs ≠ []) (hp : g.productions[a]? = some p) :
    ∃ e ∈ p.rhs, ∃ st', (Watched (CoverageGuided R)).choose st a p d = (.expr e, st') ∧ (WInv g st → WInv g st') ∧
      (∀ b n, wcount b n st ≤ wcount b n st') ∧ min (wcount a p.rhs.length st + 1) p.rhs.length ≤ wcount a p.rhs.length st' := by
  obtain ⟨⟨seen, rng⟩, log⟩ := st
  obtain ⟨i, rng', hi, h1, h2⟩ := coverage_spec (R := R) seen rng a p d hne
  refine ⟨p.rhs[i], List.getElem_mem _, ((((a, i) :: seen), rng'), (p, p.rhs[i]) :: log), ?_, ?_, ?_, ?_⟩
  · simp only [Watched, h1]
  · intro h b j q hm hq
    rcases List.mem_cons.1 hm with hm | hm
    · injection hm with hb hj
      subst hb hj
      rw [hp] at hq
      injection hq with hq
      subst hq
      exact ⟨p.rhs[j], List.getElem?_eq_getElem hi, by simp⟩
    · obtain ⟨e, he, hl⟩ := h b j q hm hq
      exact ⟨e, he, List.mem_cons_of_mem _ hl⟩
  · intro b n
    exact seenCount_mono _
  · show min (seenCount a p.rhs.length seen + 1) p.rhs.length ≤ seenCount a p.rhs.length ((a, i) :: seen)
    by_cases hall : ∃ j < p.rhs.length, (a, j) ∉ seen
    · rw [seenCount_new hi (h2 hall)]; omega
    · have hfull : seenCount a p.rhs.length seen = p.rhs.length := by
        unfold seenCount
        rw [List.filter_eq_self.2]
        · simp
        · intro j hj
          have := List.mem_range.1 hj
          simp only [not_exists, not_and, Classical.not_not] at hall
          simpa using hall j this
      have := seenCount_mono (a := a) (n := p.rhs.length) (seen := seen) (a, i)
      omega

/-- The state only grows. -/
def WLe (g : Grammar) (st st' : WState ρ) : Prop := (WInv g st → WInv g st') ∧ ∀ b n, wcount b n st ≤ wcount b n st'

theorem WLe.refl (st : WState ρ) : WLe g st st := ⟨fun h => h, fun _ _ => Nat.le_refl _⟩

theorem WLe.trans {a b c : WState ρ} (h : WLe g a b) (h' : WLe g b c) : WLe g a c :=
  ⟨fun x => h'.1 (h.1 x), fun x y => Nat.le_trans (h.2 x y) (h'.2 x y)⟩

theorem evalTerms_wle {trav : Str → WState ρ → GenRes (WState ρ)} (ht : ∀ m st s st', trav m st = .done (.ok s) st' → WLe g st st') :
    ∀ (ts : List Term) (r : Str) (st : WState ρ) (s : Str) (st' : WState ρ), evalTerms trav ts r st = .done (.ok s) st' → WLe g st st'
  | [], r, st, s, st', h => by
    simp only [evalTerms, GenRes.done.injEq] at h
    rw [← h.2]; exact .refl _
  | .terminal t :: ts, r, st, s, st', h => by
    rw [evalTerms] at h
    exact evalTerms_wle ht ts _ _ _ _ h
  | .nonterminal m :: ts, r, st, s, st', h => by
    rw [evalTerms] at h
    cases hm : trav m st with
    | done x st1 =>
      rw [hm] at h
      cases x with
      | ok v => exact (ht m st v st1 hm).trans (evalTerms_wle ht ts _ _ _ _ h)
      | error e => simp at h
    | panic => rw [hm] at h; cases h
    | fuel => rw [hm] at h; cases h

theorem evalTerms_grow {trav : Str → WState ρ → GenRes (WState ρ)} (ht : ∀ m st s st', trav m st = .done (.ok s) st' → WLe g st st')
    {a n : Nat} {k : Str} (hk : ∀ st s st', trav k st = .done (.ok s) st' → min (wcount a n st + 1) n ≤ wcount a n st') :
    ∀ (ts : List Term) (r : Str) (st : WState ρ) (s : Str) (st' : WState ρ), .nonterminal k ∈ ts →
      evalTerms trav ts r st = .done (.ok s) st' → min (wcount a n st + 1) n ≤ wcount a n st'
  | [], r, st, s, st', hm, h => by simp at hm
  | .terminal t :: ts, r, st, s, st', hm, h => by
    rw [evalTerms] at h
    exact evalTerms_grow ht hk ts _ _ _ _ (by simpa using hm) h
  | .nonterminal m :: ts, r, st, s, st', hmem, h => by
    rw [evalTerms] at h
    cases hm : trav m st with
    | done x st1 =>
      rw [hm] at h
      cases x with
      | ok v =>
        by_cases hmk : m = k
        · subst hmk
          have h1 := hk _ _ _ hm
          have h2 := (evalTerms_wle ht ts _ _ _ _ h).2 a n
          omega
        · have h1 := evalTerms_grow ht hk ts _ _ _ _ (by simpa [Ne.symm hmk] using hmem) h
          have h2 := (ht m st v st1 hm).2 a n
          omega
      | error e => simp at h
    | panic => rw [hm] at h; cases h
    | fuel => rw [hm] at h; cases h

theorem find_index {m : Str} {a : Nat} {p : Production} (h : findProduction m g.productions 0 = some (a, p)) : g.productions[a]? = some p := by
  obtain ⟨b, c, h1, _, _, h2⟩ := findProduction_some h
  rw [h1, h2]; simp

/-- One iteration of the loop in `traverse_with_strategy`. -/
theorem traverse_ok_step {f : Callback (WState ρ)} (hf : ∀ st n t, (f st n t).2 = st) {n : Nat} {m : Str} {d : Nat}
    {st : WState ρ} {s : Str} {st' : WState ρ} (h : traverse g (Watched (CoverageGuided R)) f (n + 1) m d st = .done (.ok s) st') :
    (findProduction m g.productions 0 = none ∧ st' = st) ∨
    ∃ a p e st1 v st2, findProduction m g.productions 0 = some (a, p) ∧ e ∈ p.rhs ∧ WLe g st st1 ∧
      min (wcount a p.rhs.length st + 1) p.rhs.length ≤ wcount a p.rhs.length st1 ∧
      evalTerms (fun nt st => traverse g (Watched (CoverageGuided R)) f n nt (d + 1) st) e.terms [] st1 = .done (.ok v) st2 ∧
      (st' = st2 ∨ traverse g (Watched (CoverageGuided R)) f n m d st2 = .done (.ok s) st') := by
  cases hfi : findProduction m g.productions 0 with
  | none =>
    rw [traverse_undeclared hfi] at h
    simp only [GenRes.done.injEq] at h
    exact .inl ⟨rfl, h.2.symm⟩
  | some x =>
    obtain ⟨a, p⟩ := x
    by_cases hn : productionHasNoChoice p = true
    · rw [traverse_noChoice hfi hn] at h; simp at h
    · rw [traverse_choose hfi hn] at h
      have hne : p.rhs ≠ [] := by
        intro h0; apply hn; simp [productionHasNoChoice, h0]
      obtain ⟨e, he, st1, h1, h2, h3, h4⟩ := watched_choose (g := g) (R := R) st a p d hne (find_index hfi)
      rw [h1] at h
      simp only at h
      cases hev : evalTerms (fun nt st => traverse g (Watched (CoverageGuided R)) f n nt (d + 1) st) e.terms [] st1 with
      | done y st2 =>
        cases y with
        | ok v =>
          rw [hev] at h
          simp only [hf] at h
          refine .inr ⟨a, p, e, st1, v, st2, rfl, he, ⟨h2, h3⟩, h4, hev, ?_⟩
          split at h
          · simp only [GenRes.done.injEq] at h
            exact .inl h.2.symm
          · exact .inr h
        | error e => rw [hev] at h; simp at h
      | panic => rw [hev] at h; cases h
      | fuel => rw [hev] at h; cases h

theorem traverse_wle {f : Callback (WState ρ)} (hf : ∀ st n t, (f st n t).2 = st) :
    ∀ (n : Nat) (m : Str) (d : Nat) (st : WState ρ) (s : Str) (st' : WState ρ),
      traverse g (Watched (CoverageGuided R)) f n m d st = .done (.ok s) st' → WLe g st st'
  | 0, _, _, _, _, _, h => by simp [traverse] at h
  | n + 1, m, d, st, s, st', h => by
    rcases traverse_ok_step hf h with ⟨_, rfl⟩ | ⟨a, p, e, st1, v, st2, _, _, h1, _, h2, h3⟩
    · exact .refl _
    · have h4 := evalTerms_wle (fun m st s st' h => traverse_wle hf n m (d + 1) st s st' h) _ _ _ _ _ h2
      rcases h3 with rfl | h3
      · exact h1.trans h4
      · exact (h1.trans h4).trans (traverse_wle hf n m d st2 s st' h3)

theorem traverse_grow {f : Callback (WState ρ)} (hf : ∀ st n t, (f st n t).2 = st) {x : Str} {a : Nat} {p : Production}
    (hx : findProduction x g.productions 0 = some (a, p)) {m : Str} (hu : Unavoidable g x m) :
    ∀ (n : Nat) (d : Nat) (st : WState ρ) (s : Str) (st' : WState ρ),
      traverse g (Watched (CoverageGuided R)) f n m d st = .done (.ok s) st' →
      min (wcount a p.rhs.length st + 1) p.rhs.length ≤ wcount a p.rhs.length st' := by
  induction hu with
  | self =>
    intro n d st s st' h
    cases n with
    | zero => simp [traverse] at h
    | succ n =>
      have key := traverse_ok_step hf h
      rw [hx] at key
      rcases key with ⟨h0, _⟩ | ⟨a', p', e, st1, v, st2, h0, _, h1, h4, h2, h3⟩
      · cases h0
      · simp only [Option.some.injEq, Prod.mk.injEq] at h0
        obtain ⟨rfl, rfl⟩ := h0
        have h5 := (evalTerms_wle (fun m st s st' h => traverse_wle hf n m (d + 1) st s st' h) _ _ _ _ _ h2).2 a p.rhs.length
        rcases h3 with rfl | h3
        · omega
        · have h6 := (traverse_wle hf n _ d st2 s st' h3).2 a p.rhs.length
          omega
  | @step m q k hq hk _ ih =>
    intro n d st s st' h
    cases n with
    | zero => simp [traverse] at h
    | succ n =>
      obtain ⟨b, hb⟩ := find_of_isFirst hq
      have key := traverse_ok_step hf h
      rw [hb] at key
      rcases key with ⟨h0, _⟩ | ⟨a', p', e, st1, v, st2, h0, he, h1, _, h2, h3⟩
      · cases h0
      · simp only [Option.some.injEq, Prod.mk.injEq] at h0
        obtain ⟨rfl, rfl⟩ := h0
        have h5 := evalTerms_grow (fun m st s st' h => traverse_wle hf n m (d + 1) st s st' h)
          (fun st s st' h => ih e he n (d + 1) st s st' h) _ _ _ _ _ (hk e he) h2
        have h7 := h1.2 a p.rhs.length
        rcases h3 with rfl | h3
        · omega
        · have h6 := (traverse_wle hf n _ d st2 s st' h3).2 a p.rhs.length
          omega

theorem generateWith_ok {σ : Type} {S : Strategy σ} {f : Callback σ} {fuel : Nat} {st : σ} {s : Str} {st' : σ}
    (h : g.generateWith S f fuel st = .done (.ok s) st') :
    ∃ p ps x, g.productions = p :: ps ∧ p.lhs = .nonterminal x ∧ traverse g S f fuel x 0 st = .done (.ok s) st' := by
  unfold Grammar.generateWith at h
  cases ht : g.terminates with
  | none => rw [ht] at h; cases h
  | some b =>
    rw [ht] at h
    cases b with
    | false => simp at h
    | true =>
      simp only at h
      cases hp : g.productions with
      | nil => rw [hp] at h; simp at h
      | cons p ps =>
        rw [hp] at h
        simp only at h
        cases hl : p.lhs with
        | terminal t => rw [hl] at h; simp at h
        | nonterminal x => rw [hl] at h; exact ⟨p, ps, x, rfl, hl, h⟩

theorem calls_grow {f : Callback (WState ρ)} (hf : ∀ st n t, (f st n t).2 = st) {start x : Str} {a : Nat} {p : Production}
    (hx : findProduction x g.productions 0 = some (a, p)) (hs : g.startingTerm = some (.nonterminal start)) (hu : Unavoidable g x start)
    {st st' : WState ρ} {ss : List Str} (h : Calls g (Watched (CoverageGuided R)) f st ss st') :
    (WInv g st → WInv g st') ∧ min (wcount a p.rhs.length st + ss.length) p.rhs.length ≤ wcount a p.rhs.length st' := by
  induction h with
  | nil st => exact ⟨fun h => h, by simp; omega⟩
  | cons h1 _ ih =>
    obtain ⟨q, qs, y, h2, h3, h4⟩ := generateWith_ok h1
    have : y = start := by
      simp only [Grammar.startingTerm, h2, h3, Option.some.injEq, Term.nonterminal.injEq] at hs
      exact hs
    subst this
    have h5 := traverse_grow hf hx hu _ _ _ _ _ h4
    have h6 := (traverse_wle hf _ _ _ _ _ _ h4).1
    refine ⟨fun h => ih.1 (h6 h), ?_⟩
    have := ih.2
    simp only [List.length_cons]
    omega

end Bnf
