import Verif.Proofs.ParseGrammar

/-! Lemmas about `NonterminalSets`. -/

set_option autoImplicit false

namespace Bnf

theorem recordRhs_foldl (ts : List Term) (s : NonterminalSets) :
    (ts.foldl NonterminalSets.recordRhs s).defined = s.defined ∧
    ∀ n, n ∈ (ts.foldl NonterminalSets.recordRhs s).referenced ↔ n ∈ s.referenced ∨ Term.nonterminal n ∈ ts := by
  induction ts generalizing s with
  | nil => simp
  | cons t ts ih =>
    rw [List.foldl_cons]
    obtain ⟨h1, h2⟩ := ih (s.recordRhs t)
    cases t with
    | terminal x =>
      simp only [NonterminalSets.recordRhs] at h1 h2 ⊢
      refine ⟨h1, fun n => ?_⟩
      rw [h2]; simp
    | nonterminal x =>
      simp only [NonterminalSets.recordRhs] at h1 h2 ⊢
      refine ⟨h1, fun n => ?_⟩
      rw [h2, mem_setInsert]
      simp only [List.mem_cons, Term.nonterminal.injEq]
      constructor
      · rintro ((h | h) | h)
        · exact .inl h
        · exact .inr (.inl h)
        · exact .inr (.inr h)
      · rintro (h | h | h)
        · exact .inl (.inl h)
        · exact .inl (.inr h)
        · exact .inr h

theorem recordLhs_mem (s : NonterminalSets) (t : Term) :
    (s.recordLhs t).referenced = s.referenced ∧
    ∀ n, n ∈ (s.recordLhs t).defined ↔ n ∈ s.defined ∨ t = .nonterminal n := by
  cases t with
  | terminal x => simp [NonterminalSets.recordLhs]
  | nonterminal x =>
    simp only [NonterminalSets.recordLhs, mem_setInsert, Term.nonterminal.injEq, true_and]
    intro n; rw [eq_comm (a := n)]

theorem newStep_foldl (l : List (Term × Expression)) (acc : ParseGrammar × NonterminalSets) :
    (∀ n, n ∈ (l.foldl ParseGrammar.newStep acc).2.defined ↔ n ∈ acc.2.defined ∨ ∃ e, (Term.nonterminal n, e) ∈ l) ∧
    (∀ n, n ∈ (l.foldl ParseGrammar.newStep acc).2.referenced ↔
      n ∈ acc.2.referenced ∨ ∃ x ∈ l, Term.nonterminal n ∈ x.2.terms) := by
  induction l generalizing acc with
  | nil => simp
  | cons x xs ih =>
    rw [List.foldl_cons]
    obtain ⟨h1, h2⟩ := ih (ParseGrammar.newStep acc x)
    obtain ⟨r1, r2⟩ := recordRhs_foldl x.2.terms (acc.2.recordLhs x.1)
    obtain ⟨l1, l2⟩ := recordLhs_mem acc.2 x.1
    constructor
    · intro n
      rw [h1]
      simp only [ParseGrammar.newStep, r1, l2]
      obtain ⟨a, b⟩ := x
      simp only [List.mem_cons, Prod.mk.injEq]
      constructor
      · rintro ((h | h) | ⟨e, h⟩)
        · exact .inl h
        · exact .inr ⟨b, .inl ⟨h.symm, rfl⟩⟩
        · exact .inr ⟨e, .inr h⟩
      · rintro (h | ⟨e, ⟨h, _⟩ | h⟩)
        · exact .inl (.inl h)
        · exact .inl (.inr h.symm)
        · exact .inr ⟨e, h⟩
    · intro n
      rw [h2]
      simp only [ParseGrammar.newStep, r2, l1]
      simp only [List.mem_cons, exists_eq_or_imp]
      rw [or_assoc]

theorem new_sets (g : Grammar) :
    (∀ n, n ∈ (g.flatProds.foldl ParseGrammar.newStep (⟨[], []⟩, ⟨[], []⟩)).2.defined ↔
      ∃ e, Spec.HasAlt g (.nonterminal n) e) ∧
    (∀ n, n ∈ (g.flatProds.foldl ParseGrammar.newStep (⟨[], []⟩, ⟨[], []⟩)).2.referenced ↔
      ∃ lhs e, Spec.HasAlt g lhs e ∧ Term.nonterminal n ∈ e.terms) := by
  obtain ⟨h1, h2⟩ := newStep_foldl g.flatProds (⟨[], []⟩, ⟨[], []⟩)
  constructor
  · intro n; rw [h1]; simp [mem_flatProds]
  · intro n
    rw [h2]
    simp only [List.not_mem_nil, false_or]
    constructor
    · rintro ⟨⟨l, e⟩, hx, hn⟩; exact ⟨l, e, mem_flatProds.mp hx, hn⟩
    · rintro ⟨l, e, hx, hn⟩; exact ⟨(l, e), mem_flatProds.mpr hx, hn⟩

theorem rhs_foldl (es : List Expression) (s : NonterminalSets) :
    (es.foldl (fun s e => e.terms.foldl NonterminalSets.recordRhs s) s).defined = s.defined ∧
    ∀ n, n ∈ (es.foldl (fun s e => e.terms.foldl NonterminalSets.recordRhs s) s).referenced ↔
      n ∈ s.referenced ∨ ∃ e ∈ es, Term.nonterminal n ∈ e.terms := by
  induction es generalizing s with
  | nil => simp
  | cons e es ih =>
    rw [List.foldl_cons]
    obtain ⟨h1, h2⟩ := ih (e.terms.foldl NonterminalSets.recordRhs s)
    obtain ⟨r1, r2⟩ := recordRhs_foldl e.terms s
    refine ⟨by rw [h1, r1], fun n => ?_⟩
    rw [h2, r2]
    simp only [List.mem_cons, exists_eq_or_imp]
    rw [or_assoc]

theorem validate_sets (ps : List Production) (s : NonterminalSets) :
    (∀ n, n ∈ (ps.foldl
      (fun s p => p.rhs.foldl (fun s e => e.terms.foldl NonterminalSets.recordRhs s) (s.recordLhs p.lhs)) s).defined ↔
      n ∈ s.defined ∨ ∃ p ∈ ps, p.lhs = .nonterminal n) ∧
    (∀ n, n ∈ (ps.foldl
      (fun s p => p.rhs.foldl (fun s e => e.terms.foldl NonterminalSets.recordRhs s) (s.recordLhs p.lhs)) s).referenced ↔
      n ∈ s.referenced ∨ ∃ p ∈ ps, ∃ e ∈ p.rhs, Term.nonterminal n ∈ e.terms) := by
  induction ps generalizing s with
  | nil => simp
  | cons p ps ih =>
    rw [List.foldl_cons]
    obtain ⟨h1, h2⟩ := ih (p.rhs.foldl (fun s e => e.terms.foldl NonterminalSets.recordRhs s) (s.recordLhs p.lhs))
    obtain ⟨r1, r2⟩ := rhs_foldl p.rhs (s.recordLhs p.lhs)
    obtain ⟨l1, l2⟩ := recordLhs_mem s p.lhs
    constructor
    · intro n
      rw [h1, r1, l2]
      simp only [List.mem_cons, exists_eq_or_imp]
      rw [or_assoc]
    · intro n
      rw [h2, r2, l1]
      simp only [List.mem_cons, exists_eq_or_imp]
      rw [or_assoc]

theorem undefined_nil {s : NonterminalSets} {ord : List Str → List Str} (hord : ∀ l, (ord l).Perm l) :
    s.undefined ord = [] ↔ ∀ n ∈ s.referenced, n ∈ s.defined := by
  unfold NonterminalSets.undefined
  constructor
  · intro h n hn
    by_contra hd
    have : n ∈ ord (s.referenced.filter fun n => n ∉ s.defined) := (hord _).mem_iff.mpr (by simp [hn, hd])
    rw [h] at this; cases this
  · intro h
    have hf : (s.referenced.filter fun n => n ∉ s.defined) = [] := by
      rw [List.filter_eq_nil_iff]; intro n hn; simp [h n hn]
    have hp := hord (s.referenced.filter fun n => n ∉ s.defined)
    rw [hf] at hp ⊢
    exact hp.eq_nil

theorem undefined_cons {s : NonterminalSets} {ord : List Str → List Str} (hord : ∀ l, (ord l).Perm l) {n l}
    (h : s.undefined ord = n :: l) : n ∈ s.referenced ∧ n ∉ s.defined := by
  have : n ∈ s.undefined ord := by rw [h]; simp
  unfold NonterminalSets.undefined at this
  rw [(hord _).mem_iff] at this
  simpa using this

end Bnf
