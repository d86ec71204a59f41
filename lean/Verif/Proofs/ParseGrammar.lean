import Verif.Proofs.Basic

/-! Lemmas about building the parser's production tables. -/

namespace Bnf

/-- Invariant of the production tables: ids are indices and the index lists, for every term,
the ids of its productions in increasing order. -/
structure PGOk (pg : ParseGrammar) : Prop where
  id_eq : ∀ (i : Nat) (p : FlatProd), pg.productions[i]? = some p → p.id = i
  byLhs : ∀ t, (pg.prodsByLhs.get t).getD [] = (pg.productions.filter (fun p => p.lhs = t)).map (·.id)

theorem PGOk.empty : PGOk ⟨[], []⟩ := by
  constructor
  · intro i p h; simp at h
  · intro t; simp [AMap.get]

theorem PGOk.pushProd {pg : ParseGrammar} (h : PGOk pg) (lhs : Term) (rhs : Expression) :
    PGOk (pg.pushProd lhs rhs) := by
  constructor
  · intro i p hp
    simp only [ParseGrammar.pushProd] at hp
    rcases Nat.lt_or_ge i pg.productions.length with hi | hi
    · rw [List.getElem?_append_left hi] at hp
      exact h.id_eq i p hp
    · rw [List.getElem?_append_right hi] at hp
      rcases Nat.lt_or_ge 0 (i - pg.productions.length) with h0 | h0
      · rw [List.getElem?_eq_none (by simp; omega)] at hp
        cases hp
      · have : i = pg.productions.length := by omega
        subst this
        simp at hp
        simp [← hp]
  · intro t
    simp only [ParseGrammar.pushProd, AMap.get_set]
    rw [List.filter_append, List.map_append, ← h.byLhs t]
    by_cases ht : lhs = t
    · subst ht; simp
    · simp [ht]

theorem PGOk.foldl {pg : ParseGrammar} (h : PGOk pg) (l : List (Term × Expression)) :
    PGOk (l.foldl (fun pg x => pg.pushProd x.1 x.2) pg) := by
  induction l generalizing pg with
  | nil => exact h
  | cons x xs ih => exact ih (h.pushProd _ _)

theorem PGOk.newUnchecked (g : Grammar) : PGOk (ParseGrammar.newUnchecked g) :=
  PGOk.foldl PGOk.empty _

theorem foldl_pushProd_productions (pg : ParseGrammar) (l : List (Term × Expression)) :
    (l.foldl (fun pg x => pg.pushProd x.1 x.2) pg).productions.map (fun p => (p.lhs, p.rhs)) =
      pg.productions.map (fun p => (p.lhs, p.rhs)) ++ l := by
  induction l generalizing pg with
  | nil => simp
  | cons x xs ih =>
    rw [List.foldl_cons, ih]
    simp [ParseGrammar.pushProd]

theorem newUnchecked_productions (g : Grammar) :
    (ParseGrammar.newUnchecked g).productions.map (fun p => (p.lhs, p.rhs)) = g.flatProds := by
  simp [ParseGrammar.newUnchecked, foldl_pushProd_productions]

theorem mem_flatProds {g : Grammar} {lhs : Term} {e : Expression} :
    (lhs, e) ∈ g.flatProds ↔ Spec.HasAlt g lhs e := by
  unfold Grammar.flatProds Spec.HasAlt
  simp only [List.mem_flatMap, List.mem_map, Prod.mk.injEq]
  constructor
  · rintro ⟨p, hp, e', he', rfl, rfl⟩; exact ⟨p, hp, rfl, he'⟩
  · rintro ⟨p, hp, rfl, he⟩; exact ⟨p, hp, e, he, rfl, rfl⟩

theorem mapM_some_of_forall {α β : Type} (f : α → Option β) (l : List α) (g : α → β)
    (h : ∀ a ∈ l, f a = some (g a)) : l.mapM f = some (l.map g) := by
  induction l with
  | nil => rfl
  | cons a as ih =>
    rw [List.mapM_cons, h a (by simp), ih (fun b hb => h b (by simp [hb]))]
    rfl

theorem PGOk.prodsFor {pg : ParseGrammar} (h : PGOk pg) (t : Term) :
    pg.prodsFor t = some (pg.productions.filter (fun p => p.lhs = t)) := by
  unfold ParseGrammar.prodsFor
  rw [h.byLhs t, List.mapM_map]
  have := mapM_some_of_forall (pg.prodById ∘ fun p => p.id)
    (pg.productions.filter (fun p => p.lhs = t)) id (by
      intro p hp
      have hp' := (List.mem_filter.mp hp).1
      obtain ⟨i, hi⟩ := List.mem_iff_getElem?.mp hp'
      have := h.id_eq i p hi
      simp [ParseGrammar.prodById, this, hi])
  simpa using this

theorem new_fold_fst (l : List (Term × Expression)) (pg : ParseGrammar) (s : NonterminalSets) :
    (l.foldl ParseGrammar.newStep (pg, s)).1 = l.foldl (fun pg x => pg.pushProd x.1 x.2) pg := by
  induction l generalizing pg s with
  | nil => rfl
  | cons x xs ih => simp only [List.foldl_cons, ParseGrammar.newStep]; exact ih _ _

/-- The validated tables are the unchecked ones. -/
theorem new_ok_eq {ord : List Str → List Str} {g : Grammar} {pg : ParseGrammar}
    (h : ParseGrammar.new ord g = .ok pg) : pg = ParseGrammar.newUnchecked g := by
  unfold ParseGrammar.new at h
  simp only at h
  split at h
  · cases h
  · injection h with h
    rw [← h, new_fold_fst]; rfl

theorem buildParser_ok {ord : List Str → List Str} {g : Grammar} {p : GrammarParser}
    (h : g.buildParser ord = .ok p) :
    g.startingTerm = some p.startingTerm ∧ p.parseGrammar = ParseGrammar.newUnchecked g := by
  unfold Grammar.buildParser at h
  split at h
  · cases h
  · rename_i t ht
    split at h
    · cases h
    · rename_i pg hpg
      injection h with h
      subst h
      exact ⟨ht, new_ok_eq hpg⟩

end Bnf
