import Verif.Proofs.Terminates
import Mathlib.Logic.Relation

/-! # What a finished generation means -/

set_option autoImplicit false

namespace Bnf
open Spec

variable {σ : Type} {g : Grammar} {S : Strategy σ} {f : Callback σ}

theorem findProduction_some {n : Str} : ∀ {ps : List Production} {i a : Nat} {p : Production},
    findProduction n ps i = some (a, p) →
    ∃ before after, ps = before ++ p :: after ∧ p.lhs = .nonterminal n ∧ (∀ q ∈ before, q.lhs ≠ .nonterminal n) ∧
      a = i + before.length
  | [], _, _, _, h => by simp [findProduction] at h
  | q :: ps, i, a, p, h => by
    unfold findProduction at h
    split at h
    · rename_i hq
      injection h with h; injection h with h1 h2
      subst h1 h2
      exact ⟨[], ps, rfl, hq, by simp, rfl⟩
    · rename_i hq
      obtain ⟨b, af, h1, h2, h3, h4⟩ := findProduction_some h
      refine ⟨q :: b, af, by simp [h1], h2, ?_, by simp [h4]; omega⟩
      intro r hr
      rcases List.mem_cons.1 hr with rfl | hr
      · exact hq
      · exact h3 r hr

theorem findProduction_none {n : Str} : ∀ {ps : List Production} {i : Nat},
    findProduction n ps i = none → ∀ q ∈ ps, q.lhs ≠ .nonterminal n
  | [], _, _ => by simp
  | q :: ps, i, h => by
    unfold findProduction at h
    split at h
    · cases h
    · rename_i hq
      intro r hr
      rcases List.mem_cons.1 hr with rfl | hr
      · exact hq
      · exact findProduction_none h r hr

theorem isFirst_of_find {n : Str} {a : Nat} {p : Production} (h : findProduction n g.productions 0 = some (a, p)) :
    IsFirst g n p := by
  obtain ⟨b, af, h1, h2, h3, _⟩ := findProduction_some h
  exact ⟨b, af, h1, h2, h3⟩

theorem undeclared_of_find {n : Str} (h : findProduction n g.productions 0 = none) : ¬ Declared g n := by
  rintro ⟨p, hp, hl⟩
  exact findProduction_none h p hp hl

theorem isFirst_unique {n : Str} {p q : Production} (h : IsFirst g n p) (h' : IsFirst g n q) : p = q := by
  obtain ⟨b, a, h1, h2, h3⟩ := h
  obtain ⟨b', a', h1', h2', h3'⟩ := h'
  rw [h1] at h1'
  rcases List.append_eq_append_iff.1 h1' with ⟨l, hl1, hl2⟩ | ⟨l, hl1, hl2⟩
  · cases l with
    | nil => simp at hl2; exact hl2.1
    | cons x l =>
      simp at hl2
      exact absurd h2 (h3' p (by rw [hl1, hl2.1]; simp))
  · cases l with
    | nil => simp at hl2; exact hl2.1.symm
    | cons x l =>
      simp at hl2
      exact absurd h2' (h3 q (by rw [hl1, hl2.1]; simp))

theorem find_of_isFirst {n : Str} {p : Production} (h : IsFirst g n p) : ∃ a, findProduction n g.productions 0 = some (a, p) := by
  cases hf : findProduction n g.productions 0 with
  | none =>
    obtain ⟨b, a, h1, h2, _⟩ := h
    exact absurd h2 (findProduction_none hf p (by rw [h1]; simp))
  | some x =>
    obtain ⟨a, q⟩ := x
    rw [isFirst_unique h (isFirst_of_find hf)]
    exact ⟨a, rfl⟩

theorem isFirst_mem {n : Str} {p : Production} (h : IsFirst g n p) : p ∈ g.productions := by
  obtain ⟨b, a, h1, _⟩ := h; rw [h1]; simp

theorem noChoice_iff (p : Production) : productionHasNoChoice p = true ↔ NoChoice p := by
  unfold productionHasNoChoice NoChoice
  match h : p.rhs with
  | [] => simp
  | [⟨ts⟩] => simp
  | _ :: _ :: _ => simp

theorem expansion_append {ts us : List Term} {v w L M} (h : Expansion g ts v L) (h' : Expansion g us w M) :
    Expansion g (ts ++ us) (v ++ w) (L ++ M) := by
  induction h with
  | nil => exact h'
  | terminal _ ih => rw [List.append_assoc]; exact .terminal ih
  | undeclared hd _ ih => rw [List.append_assoc]; exact .undeclared hd ih
  | nonterminal hp hc he h1 _ _ ih => rw [List.append_assoc, List.append_assoc]; exact .nonterminal hp hc he h1 ih

/-! ## Equations -/

theorem traverse_undeclared {n : Nat} {id : Str} {d : Nat} {st : σ} (h : findProduction id g.productions 0 = none) :
    traverse g S f (n + 1) id d st = .done (.ok id) st := by
  rw [traverse, h]

theorem traverse_noChoice {n : Nat} {id : Str} {d : Nat} {st : σ} {a p} (h : findProduction id g.productions 0 = some (a, p))
    (hn : productionHasNoChoice p = true) :
    traverse g S f (n + 1) id d st = .done (.error (.generateError msgNoChoice)) st := by
  rw [traverse, h]; simp [hn]

theorem traverse_choose {n : Nat} {id : Str} {d : Nat} {st : σ} {a p} (h : findProduction id g.productions 0 = some (a, p))
    (hn : ¬ productionHasNoChoice p = true) :
    traverse g S f (n + 1) id d st = match S.choose st a p d with
        | (.panic, _) => .panic
        | (.none, st) => .done (.error (.generateError msgNoExpression)) st
        | (.expr e, st) =>
          match evalTerms (fun nt st => traverse g S f n nt (d + 1) st) e.terms [] st with
          | .done (.ok result) st =>
            if (f st id result).1 then .done (.ok result) (f st id result).2 else traverse g S f n id d (f st id result).2
          | r => r := by
  rw [traverse, h]; simp only [hn]; rfl

/-! ## Expansions -/

/-- What a traversal of `id` with a log guarantees. -/
def LoggedOk (g : Grammar) (f : Callback σ) (ts : List Term) (s : Str) (log log' : List (Str × Str)) : Prop :=
  ∃ new L, log' = log ++ new ∧ L.Sublist new ∧ Expansion g ts s L ∧ ∀ x ∈ new, ∃ st st', f st x.1 x.2 = (true, st')

theorem evalTerms_logged {trav : Str → σ × List (Str × Str) → GenRes (σ × List (Str × Str))}
    (ht : ∀ nt st log s st' log', trav nt (st, log) = .done (.ok s) (st', log') →
      LoggedOk g f [.nonterminal nt] s log log') :
    ∀ (ts : List Term) (r s : Str) (st st' : σ) (log log' : List (Str × Str)),
      evalTerms trav ts r (st, log) = .done (.ok s) (st', log') →
      ∃ w, s = r ++ w ∧ LoggedOk g f ts w log log'
  | [], r, s, st, st', log, log', h => by
    simp only [evalTerms, GenRes.done.injEq, Except.ok.injEq, Prod.mk.injEq] at h
    obtain ⟨rfl, _, rfl⟩ := h
    exact ⟨[], by simp, [], [], by simp, by simp, .nil, by simp⟩
  | .terminal t :: ts, r, s, st, st', log, log', h => by
    rw [evalTerms] at h
    obtain ⟨w, hw, new, L, h1, h2, h3, h4⟩ := evalTerms_logged ht ts _ _ _ _ _ _ h
    exact ⟨t ++ w, by simp [hw], new, L, h1, h2, .terminal h3, h4⟩
  | .nonterminal nt :: ts, r, s, st, st', log, log', h => by
    rw [evalTerms] at h
    split at h
    · rename_i v st1 hv
      obtain ⟨st1, log1⟩ := st1
      obtain ⟨new1, L1, a1, a2, a3, a4⟩ := ht _ _ _ _ _ _ hv
      obtain ⟨w, hw, new, L, h1, h2, h3, h4⟩ := evalTerms_logged ht ts _ _ _ _ _ _ h
      refine ⟨v ++ w, by simp [hw], new1 ++ new, L1 ++ L, by simp [h1, a1], a2.append h2,
        expansion_append (ts := [_]) a3 h3, ?_⟩
      intro x hx
      rcases List.mem_append.1 hx with hx | hx
      · exact a4 x hx
      · exact h4 x hx
    · cases h
    · cases h
    · cases h

theorem traverse_logged (hS : Faithful S) : ∀ (n : Nat) (id : Str) (d : Nat) (st st' : σ) (log log' : List (Str × Str)) (s : Str),
    traverse g (logStrategy S) (logCallback f) n id d (st, log) = .done (.ok s) (st', log') →
    LoggedOk g f [.nonterminal id] s log log'
  | 0, _, _, _, _, _, _, _, h => by simp [traverse] at h
  | n + 1, id, d, st, st', log, log', s, h => by
    cases hf : findProduction id g.productions 0 with
    | none =>
      rw [traverse_undeclared hf] at h
      simp only [GenRes.done.injEq, Except.ok.injEq, Prod.mk.injEq] at h
      obtain ⟨rfl, _, rfl⟩ := h
      refine ⟨[], [], by simp, by simp, ?_, by simp⟩
      simpa using Expansion.undeclared (undeclared_of_find hf) .nil
    | some x =>
      obtain ⟨a, p⟩ := x
      by_cases hn : productionHasNoChoice p = true
      · rw [traverse_noChoice hf hn] at h
        simp at h
      · rw [traverse_choose hf hn] at h
        simp only [logStrategy] at h
        split at h
        · cases h
        · simp at h
        · rename_i e st1 hc
          simp only [Prod.mk.injEq] at hc
          obtain ⟨hc, rfl⟩ := hc
          have he : e ∈ p.rhs := hS st a p d e (S.choose st a p d).2 (by rw [← hc])
          split at h
          · rename_i v st2 hv
            obtain ⟨st2, log2⟩ := st2
            obtain ⟨w, hw, new, L, h1, h2, h3, h4⟩ := evalTerms_logged (fun nt st log s st' log' =>
              traverse_logged hS n nt (d + 1) st st' log log' s) _ _ _ _ _ _ _ hv
            simp at hw
            subst hw
            simp only [logCallback] at h
            split at h
            · rename_i hac
              simp only [GenRes.done.injEq, Except.ok.injEq, Prod.mk.injEq] at h
              obtain ⟨rfl, rfl, rfl⟩ := h
              refine ⟨new ++ [(id, v)], L ++ [(id, v)], by simp [h1], h2.append (List.Sublist.refl _), ?_, ?_⟩
              · simpa using Expansion.nonterminal (isFirst_of_find hf) (fun h => hn ((noChoice_iff p).2 h)) he h3 .nil
              · intro x hx
                rcases List.mem_append.1 hx with hx | hx
                · exact h4 x hx
                · simp at hx; subst hx
                  exact ⟨st2, (f st2 id v).2, by rw [← hac]⟩
            · rename_i hac
              obtain ⟨new', L', b1, b2, b3, b4⟩ := traverse_logged hS n id d _ _ _ _ _ h
              refine ⟨new ++ new', L', by simp [b1, h1], b2.trans (List.sublist_append_right _ _), b3, ?_⟩
              intro x hx
              rcases List.mem_append.1 hx with hx | hx
              · exact h4 x hx
              · exact b4 x hx
          · rename_i hno
            exact absurd h (hno _ _)

/-! ## The log changes nothing -/

theorem evalTerms_unlog {trav : Str → σ → GenRes σ} {trav' : Str → σ × List (Str × Str) → GenRes (σ × List (Str × Str))}
    (ht : ∀ nt st, unlog (trav' nt st) = trav nt st.1) :
    ∀ (ts : List Term) (r : Str) (st : σ × List (Str × Str)), unlog (evalTerms trav' ts r st) = evalTerms trav ts r st.1
  | [], r, st => rfl
  | .terminal t :: ts, r, st => by rw [evalTerms, evalTerms]; exact evalTerms_unlog ht ts _ st
  | .nonterminal nt :: ts, r, st => by
    rw [evalTerms, evalTerms, ← ht]
    cases h : trav' nt st with
    | fuel => rfl
    | panic => rfl
    | done x st' =>
      cases x with
      | error e => rfl
      | ok s => simp only [unlog]; exact evalTerms_unlog ht ts _ st'

theorem traverse_unlog : ∀ (n : Nat) (id : Str) (d : Nat) (st : σ × List (Str × Str)),
    unlog (traverse g (logStrategy S) (logCallback f) n id d st) = traverse g S f n id d st.1
  | 0, _, _, _ => rfl
  | n + 1, id, d, st => by
    cases hf : findProduction id g.productions 0 with
    | none => rw [traverse_undeclared hf, traverse_undeclared hf]; rfl
    | some x =>
      obtain ⟨a, p⟩ := x
      by_cases hn : productionHasNoChoice p = true
      · rw [traverse_noChoice hf hn, traverse_noChoice hf hn]; rfl
      · rw [traverse_choose hf hn, traverse_choose hf hn]
        have hl : (logStrategy S).choose st a p d = ((S.choose st.1 a p d).1, ((S.choose st.1 a p d).2, st.2)) := rfl
        rw [hl]
        rcases hc : S.choose st.1 a p d with ⟨c, st1⟩
        cases c with
        | panic => rfl
        | none => rfl
        | expr e =>
          simp only
          have := evalTerms_unlog (trav := fun nt st => traverse g S f n nt (d + 1) st)
            (trav' := fun nt st => traverse g (logStrategy S) (logCallback f) n nt (d + 1) st)
            (fun nt st => traverse_unlog n nt (d + 1) st) e.terms [] (st1, st.2)
          rw [← this]
          cases hv : evalTerms (fun nt st => traverse g (logStrategy S) (logCallback f) n nt (d + 1) st) e.terms [] (st1, st.2) with
          | fuel => rfl
          | panic => rfl
          | done r st2 =>
            cases r with
            | error e => rfl
            | ok v =>
              simp only [unlog, logCallback]
              by_cases hac : (f st2.1 id v).1 = true
              · simp only [hac, if_true]
              · simp only [hac]
                exact traverse_unlog n id d _

theorem generate_unlog (n : Nat) (st : σ × List (Str × Str)) :
    unlog (g.generateWith (logStrategy S) (logCallback f) n st) = g.generateWith S f n st.1 := by
  unfold Grammar.generateWith
  split
  · rfl
  · rfl
  · split
    · split
      · exact traverse_unlog _ _ _ _
      · rfl
    · rfl

theorem generate_ok_start {n : Nat} {st st' : σ} {s : Str} (h : g.generateWith S f n st = .done (.ok s) st') :
    ∃ start, g.startingTerm = some (.nonterminal start) ∧ traverse g S f n start 0 st = .done (.ok s) st' := by
  unfold Grammar.generateWith at h
  split at h
  · cases h
  · simp at h
  · split at h
    · rename_i p ps hp
      split at h
      · rename_i nt hl
        exact ⟨nt, by simp [Grammar.startingTerm, hp, hl], h⟩
      · simp at h
    · simp at h

/-! ## From expansions to trees -/

theorem isFirst_hasAlt {n : Str} {p e} (h : IsFirst g n p) (he : e ∈ p.rhs) : HasAlt g (.nonterminal n) e := by
  refine ⟨p, isFirst_mem h, ?_, he⟩
  obtain ⟨_, _, _, h, _⟩ := h; exact h

theorem expansion_forest (hd : FullyDeclared g) {ts w L} (h : Expansion g ts w L)
    (hts : ∀ n, Term.nonterminal n ∈ ts → Declared g n) :
    ∃ ns, IsForest g ts ns ∧ Spec.yield ns = w ∧ expansions ns = L := by
  induction h with
  | nil => exact ⟨[], .nil, by simp [Spec.yield], by simp [expansions]⟩
  | terminal _ ih =>
    obtain ⟨ns, h1, h2, h3⟩ := ih (fun n hn => hts n (by simp [hn]))
    exact ⟨_, .terminal h1, by simp [Spec.yield, nodeYield, h2], by simp [expansions, nodeExpansions, h3]⟩
  | undeclared hu _ _ => exact absurd (hts _ (by simp)) hu
  | nonterminal hp _ he _ _ ih1 ih2 =>
    obtain ⟨ns, h1, h2, h3⟩ := ih2 (fun n hn => hts n (by simp [hn]))
    obtain ⟨ms, k1, k2, k3⟩ := ih1 (fun n hn => hd n ⟨_, _, isFirst_hasAlt hp he, hn⟩)
    exact ⟨_, .nonterminal (isFirst_hasAlt hp he) k1 h1, by simp [Spec.yield, nodeYield, h2, k2],
      by simp [expansions, nodeExpansions, h3, k2, k3]⟩

/-! ## Errors -/

theorem evalTerms_error {trav : Str → σ → GenRes σ} : ∀ (ts : List Term) (r : Str) (st st' : σ) (e : Error),
      evalTerms trav ts r st = .done (.error e) st' →
      ∃ nt st1 st2, Term.nonterminal nt ∈ ts ∧ trav nt st1 = .done (.error e) st2
  | [], r, st, st', e, h => by simp [evalTerms] at h
  | .terminal t :: ts, r, st, st', e, h => by
    rw [evalTerms] at h
    obtain ⟨nt, s1, s2, h1, h2⟩ := evalTerms_error ts _ _ _ _ h
    exact ⟨nt, s1, s2, by simp [h1], h2⟩
  | .nonterminal nt :: ts, r, st, st', e, h => by
    rw [evalTerms] at h
    split at h
    · obtain ⟨nt, s1, s2, h1, h2⟩ := evalTerms_error ts _ _ _ _ h
      exact ⟨nt, s1, s2, by simp [h1], h2⟩
    · rename_i e' st1 hv
      simp only [GenRes.done.injEq, Except.error.injEq] at h
      obtain ⟨rfl, _⟩ := h
      exact ⟨nt, _, _, by simp, hv⟩
    · cases h
    · cases h

theorem traverse_error (hS : Faithful S) : ∀ (n : Nat) (id : Str) (d : Nat) (st st' : σ) (e : Error),
    traverse g S f n id d st = .done (.error e) st' →
    ∃ m p, Relation.ReflTransGen (Refers g) id m ∧ IsFirst g m p ∧
      ((e = .generateError msgNoChoice ∧ NoChoice p) ∨
       (e = .generateError msgNoExpression ∧ p.rhs ≠ [] ∧ ∃ st1 a d st2, S.choose st1 a p d = (.none, st2)))
  | 0, _, _, _, _, _, h => by simp [traverse] at h
  | n + 1, id, d, st, st', e, h => by
    cases hf : findProduction id g.productions 0 with
    | none => rw [traverse_undeclared hf] at h; simp at h
    | some x =>
      obtain ⟨a, p⟩ := x
      have hfirst := isFirst_of_find hf
      by_cases hn : productionHasNoChoice p = true
      · rw [traverse_noChoice hf hn] at h
        simp only [GenRes.done.injEq, Except.error.injEq] at h
        exact ⟨id, p, .refl, hfirst, .inl ⟨h.1.symm, (noChoice_iff p).1 hn⟩⟩
      · rw [traverse_choose hf hn] at h
        split at h
        · cases h
        · rename_i st1 hc
          simp only [GenRes.done.injEq, Except.error.injEq] at h
          refine ⟨id, p, .refl, hfirst, .inr ⟨h.1.symm, ?_, st, a, d, _, hc⟩⟩
          rw [noChoice_iff] at hn
          exact fun hr => hn (.inl hr)
        · rename_i e1 st1 hc
          split at h
          · rename_i v st2 hv
            split at h
            · simp at h
            · exact traverse_error hS n id d _ _ _ h
          · obtain ⟨nt, s1, s2, h1, h2⟩ := evalTerms_error _ _ _ _ _ h
            obtain ⟨m, q, hr, hx⟩ := traverse_error hS n nt (d + 1) s1 s2 e h2
            exact ⟨m, q, .head ⟨p, hfirst, e1, hS _ _ _ _ _ _ hc, h1⟩ hr, hx⟩

/-! ## Panics -/

theorem evalTerms_panic {trav : Str → σ → GenRes σ} (ht : ∀ nt st, trav nt st ≠ .panic) :
    ∀ (ts : List Term) (r : Str) (st : σ), evalTerms trav ts r st ≠ .panic
  | [], r, st => by simp [evalTerms]
  | .terminal t :: ts, r, st => by rw [evalTerms]; exact evalTerms_panic ht ts _ _
  | .nonterminal nt :: ts, r, st => by
    rw [evalTerms]
    split
    · exact evalTerms_panic ht ts _ _
    · simp
    · rename_i h; exact absurd h (ht _ _)
    · simp

theorem traverse_panic (hS : ∀ st a p d, p ∈ g.productions → p.rhs ≠ [] → (S.choose st a p d).1 ≠ .panic) : ∀ (n : Nat) (id : Str) (d : Nat) (st : σ), traverse g S f n id d st ≠ .panic
  | 0, _, _, _ => by simp [traverse]
  | n + 1, id, d, st => by
    cases hf : findProduction id g.productions 0 with
    | none => rw [traverse_undeclared hf]; simp
    | some x =>
      obtain ⟨a, p⟩ := x
      by_cases hn : productionHasNoChoice p = true
      · rw [traverse_noChoice hf hn]; simp
      · rw [traverse_choose hf hn]
        have hne : p.rhs ≠ [] := by rw [noChoice_iff] at hn; exact fun hr => hn (.inl hr)
        split
        · rename_i hc
          exact absurd (by rw [hc]) (hS st a p d (by obtain ⟨b, c, h, _⟩ := findProduction_some hf; simp [h]) hne)
        · simp
        · split
          · split
            · simp
            · exact traverse_panic hS n id d _
          · exact evalTerms_panic (fun nt st => traverse_panic hS n nt (d + 1) st) _ _ _

/-! ## More fuel -/

theorem evalTerms_more {trav trav' : Str → σ → GenRes σ} (ht : ∀ nt st, trav nt st ≠ .fuel → trav' nt st = trav nt st) :
    ∀ (ts : List Term) (r : Str) (st : σ), evalTerms trav ts r st ≠ .fuel → evalTerms trav' ts r st = evalTerms trav ts r st
  | [], r, st, _ => by simp [evalTerms]
  | .terminal t :: ts, r, st, h => by rw [evalTerms] at h ⊢; rw [evalTerms]; exact evalTerms_more ht ts _ _ h
  | .nonterminal nt :: ts, r, st, h => by
    rw [evalTerms] at h ⊢; rw [evalTerms]
    have hne : trav nt st ≠ .fuel := by intro h'; rw [h'] at h; exact h rfl
    rw [ht _ _ hne]
    cases hv : trav nt st with
    | fuel => exact absurd hv hne
    | panic => rfl
    | done x st1 =>
      cases x with
      | error => rfl
      | ok s => rw [hv] at h; exact evalTerms_more ht ts _ _ h

theorem traverse_more1 : ∀ (n : Nat) (id : Str) (d : Nat) (st : σ), traverse g S f n id d st ≠ .fuel →
    traverse g S f (n + 1) id d st = traverse g S f n id d st
  | 0, _, _, _, h => absurd rfl h
  | n + 1, id, d, st, h => by
    cases hf : findProduction id g.productions 0 with
    | none => rw [traverse_undeclared hf, traverse_undeclared hf]
    | some x =>
      obtain ⟨a, p⟩ := x
      by_cases hn : productionHasNoChoice p = true
      · rw [traverse_noChoice hf hn, traverse_noChoice hf hn]
      · rw [traverse_choose hf hn] at h ⊢
        rw [traverse_choose hf hn]
        rcases hc : S.choose st a p d with ⟨c, st1⟩
        rw [hc] at h
        cases c with
        | panic => rfl
        | none => rfl
        | expr e =>
          simp only at h ⊢
          have key := evalTerms_more (trav := fun nt st => traverse g S f n nt (d + 1) st)
            (trav' := fun nt st => traverse g S f (n + 1) nt (d + 1) st) (fun nt st => traverse_more1 n nt (d + 1) st) e.terms [] st1
          have hne : evalTerms (fun nt st => traverse g S f n nt (d + 1) st) e.terms [] st1 ≠ .fuel := by
            intro h'; rw [h'] at h; exact h rfl
          rw [key hne]
          cases hv : evalTerms (fun nt st => traverse g S f n nt (d + 1) st) e.terms [] st1 with
          | fuel => rfl
          | panic => rfl
          | done r st2 =>
            cases r with
            | error e => rfl
            | ok v =>
              rw [hv] at h
              simp only at h ⊢
              split
              · rfl
              · rename_i hac
                rw [if_neg hac] at h
                exact traverse_more1 n id d _ h

theorem traverse_more {n m : Nat} (hle : n ≤ m) {id : Str} {d : Nat} {st : σ} (h : traverse g S f n id d st ≠ .fuel) :
    traverse g S f m id d st = traverse g S f n id d st := by
  induction hle with
  | refl => rfl
  | step _ ih => rw [traverse_more1 _ _ _ _ (by rw [ih]; exact h), ih]

end Bnf
