import Verif.Proofs.Validation
import Verif.Spec.Defined

/-! # Properties C14, C15, C16: validation -/

set_option autoImplicit false

namespace Bnf.Props
open Bnf Spec

/-- Example grammar `<a> ::= 'x' <b> | <b>`, `<b> ::= 'y'`. -/
def gOk : Grammar := ⟨[⟨.nonterminal ['a'], [⟨[.terminal ['x'], .nonterminal ['b']]⟩, ⟨[.nonterminal ['b']]⟩]⟩,
  ⟨.nonterminal ['b'], [⟨[.terminal ['y']]⟩]⟩]⟩

/-- Example grammar `<a> ::= <b> <c>` without definitions of `b` and `c`. -/
def gBad : Grammar := ⟨[⟨.nonterminal ['a'], [⟨[.nonterminal ['b'], .nonterminal ['c']]⟩]⟩]⟩

/-- Example grammar with a production that has no alternatives: `<a> ::= <b>`, `<b> ::=` (nothing). -/
def gNoAlt : Grammar := ⟨[⟨.nonterminal ['a'], [⟨[.nonterminal ['b']]⟩]⟩, ⟨.nonterminal ['b'], []⟩]⟩

/-- C14: `build_parser()` succeeds exactly on grammars that have a production and in which every referenced
nonterminal has an alternative; whatever the hash iteration order `ord`. -/
theorem C14_build_parser_ok_iff (ord : List Str → List Str) (hord : ∀ l, (ord l).Perm l) (g : Grammar) :
    (∃ p, g.buildParser ord = .ok p) ↔ g.productions ≠ [] ∧ ∀ n, Referenced g n → Defined g n := by
  obtain ⟨hd, hr⟩ := new_sets g
  unfold Grammar.buildParser Grammar.startingTerm
  cases hp : g.productions with
  | nil => simp
  | cons p ps =>
    simp only [ne_eq, reduceCtorEq, not_false_eq_true, true_and]
    unfold ParseGrammar.new
    simp only
    cases hu : (g.flatProds.foldl ParseGrammar.newStep (⟨[], []⟩, ⟨[], []⟩)).2.undefined ord with
    | nil =>
      rw [undefined_nil hord] at hu
      simp only [Except.ok.injEq, exists_eq', true_iff]
      intro n hn
      exact (hd n).mp (hu n ((hr n).mpr hn))
    | cons n l =>
      obtain ⟨h1, h2⟩ := undefined_cons hord hu
      simp only [reduceCtorEq, exists_false, false_iff, not_forall]
      exact ⟨n, (hr n).mp h1, fun h => h2 ((hd n).mpr h)⟩

/-- C14: otherwise the error is a `ValidationError`. -/
theorem C14_build_parser_error_kind (ord : List Str → List Str) (g : Grammar) (e : Error)
    (h : g.buildParser ord = .error e) : ∃ msg, e = .validationError msg := by
  unfold Grammar.buildParser at h
  split at h
  · injection h with h; exact ⟨_, h.symm⟩
  · split at h
    · rename_i e' he
      injection h with h
      subst h
      unfold ParseGrammar.new at he
      simp only at he
      split at he
      · injection he with he; exact ⟨_, he.symm⟩
      · cases he
    · cases h

example : ∃ p, gOk.buildParser id = .ok p := ⟨_, rfl⟩
example : ¬ ∃ p, gBad.buildParser List.reverse = .ok p := by
  rw [C14_build_parser_ok_iff _ (fun l => List.reverse_perm l)]
  rintro ⟨_, h⟩
  obtain ⟨e, p, hp, hl, _⟩ := h ['b'] ⟨.nonterminal ['a'], _, ⟨_, List.mem_cons_self, rfl, List.mem_cons_self⟩, List.mem_cons_self⟩
  simp [gBad] at hp
  subst hp
  simp at hl

/-- C15: a rejection by `build_parser()` of a non-empty grammar names a referenced nonterminal without alternatives. -/
theorem C15_build_parser_error_names_undefined (ord : List Str → List Str) (hord : ∀ l, (ord l).Perm l) (g : Grammar)
    (hne : g.productions ≠ []) (e : Error) (h : g.buildParser ord = .error e) :
    ∃ n, Referenced g n ∧ ¬ Defined g n ∧
      e = .validationError ("Undefined nonterminals: <".toList ++ n ++ ">".toList) := by
  obtain ⟨hd, hr⟩ := new_sets g
  unfold Grammar.buildParser Grammar.startingTerm at h
  cases hp : g.productions with
  | nil => exact absurd hp hne
  | cons p ps =>
    rw [hp] at h
    simp only at h
    unfold ParseGrammar.new at h
    simp only at h
    cases hu : (g.flatProds.foldl ParseGrammar.newStep (⟨[], []⟩, ⟨[], []⟩)).2.undefined ord with
    | nil => rw [hu] at h; cases h
    | cons n l =>
      rw [hu] at h
      obtain ⟨h1, h2⟩ := undefined_cons hord hu
      simp only [Except.error.injEq] at h
      exact ⟨n, (hr n).mp h1, fun h => h2 ((hd n).mpr h), h.symm⟩

theorem validate_defined (g : Grammar) :
    (∀ n, n ∈ (g.productions.foldl
      (fun s p => p.rhs.foldl (fun s e => e.terms.foldl NonterminalSets.recordRhs s) (s.recordLhs p.lhs))
      (⟨[], []⟩ : NonterminalSets)).defined ↔ Declared g n) ∧
    (∀ n, n ∈ (g.productions.foldl
      (fun s p => p.rhs.foldl (fun s e => e.terms.foldl NonterminalSets.recordRhs s) (s.recordLhs p.lhs))
      (⟨[], []⟩ : NonterminalSets)).referenced ↔ Referenced g n) := by
  obtain ⟨h1, h2⟩ := validate_sets g.productions ⟨[], []⟩
  constructor
  · intro n; rw [h1]; simp [Declared]
  · intro n
    rw [h2]
    simp only [List.not_mem_nil, false_or]
    constructor
    · rintro ⟨p, hp, e, he, hn⟩; exact ⟨p.lhs, e, ⟨p, hp, rfl, he⟩, hn⟩
    · rintro ⟨_, e, ⟨p, hp, _, he⟩, hn⟩; exact ⟨p, hp, e, he, hn⟩

/-- C15: a rejection by `validate()` of a non-empty grammar names a referenced nonterminal without production. -/
theorem C15_validate_error_names_undefined (ord : List Str → List Str) (hord : ∀ l, (ord l).Perm l) (g : Grammar)
    (hne : g.productions ≠ []) (e : Error) (h : g.validate ord = .error e) :
    ∃ n, Referenced g n ∧ ¬ Declared g n ∧
      e = .validationError ("Undefined nonterminals: <".toList ++ n ++ ">".toList) := by
  obtain ⟨hd, hr⟩ := validate_defined g
  unfold Grammar.validate at h
  rw [if_neg (by simpa using hne)] at h
  simp only at h
  split at h
  · rename_i n l hu
    obtain ⟨h1, h2⟩ := undefined_cons hord hu
    simp only [Except.error.injEq] at h
    exact ⟨n, (hr n).mp h1, fun h => h2 ((hd n).mpr h), h.symm⟩
  · cases h

example : gBad.buildParser id = .error (.validationError (undefinedMsg ['b'])) := rfl
example : gBad.buildParser List.reverse = .error (.validationError (undefinedMsg ['c'])) := rfl
example : gBad.validate List.reverse = .error (.validationError (undefinedMsg ['c'])) := rfl

/-- The exact condition under which `validate()` succeeds. -/
theorem C16_validate_ok_iff (ord : List Str → List Str) (hord : ∀ l, (ord l).Perm l) (g : Grammar) :
    g.validate ord = .ok () ↔ g.productions ≠ [] ∧ ∀ n, Referenced g n → Declared g n := by
  obtain ⟨hd, hr⟩ := validate_defined g
  unfold Grammar.validate
  by_cases hp : g.productions = []
  · simp [hp]
  · rw [if_neg (by simpa using hp)]
    simp only [ne_eq, hp, not_false_eq_true, true_and]
    split
    · rename_i n l hu
      obtain ⟨h1, h2⟩ := undefined_cons hord hu
      simp only [reduceCtorEq, false_iff, not_forall]
      exact ⟨n, (hr n).mp h1, fun h => h2 ((hd n).mpr h)⟩
    · rename_i hu
      rw [undefined_nil hord] at hu
      simp only [true_iff]
      intro n hn
      exact (hd n).mp (hu n ((hr n).mpr hn))

/-- C16, one direction: whatever `build_parser()` accepts, `validate()` accepts. -/
theorem C16_build_parser_ok_validate_ok (ord ord' : List Str → List Str) (hord : ∀ l, (ord l).Perm l)
    (hord' : ∀ l, (ord' l).Perm l) (g : Grammar) (p : GrammarParser) (h : g.buildParser ord = .ok p) :
    g.validate ord' = .ok () := by
  obtain ⟨h1, h2⟩ := (C14_build_parser_ok_iff ord hord g).mp ⟨p, h⟩
  refine (C16_validate_ok_iff ord' hord' g).mpr ⟨h1, fun n hn => ?_⟩
  obtain ⟨e, q, hq, hl, _⟩ := h2 n hn
  exact ⟨q, hq, hl⟩

/-- C16 (partial): the two checks agree exactly when every referenced and declared nonterminal has an alternative;
in particular whenever no production is without alternatives.  The unrestricted agreement is false,
see `C16_disagreement`. -/
theorem C16_agree_partial (ord ord' : List Str → List Str) (hord : ∀ l, (ord l).Perm l)
    (hord' : ∀ l, (ord' l).Perm l) (g : Grammar)
    (hne : ∀ n, Referenced g n → Declared g n → Defined g n) :
    g.validate ord' = .ok () ↔ ∃ p, g.buildParser ord = .ok p := by
  rw [C14_build_parser_ok_iff ord hord, C16_validate_ok_iff ord' hord']
  constructor
  · rintro ⟨h1, h2⟩; exact ⟨h1, fun n hn => hne n hn (h2 n hn)⟩
  · rintro ⟨h1, h2⟩
    refine ⟨h1, fun n hn => ?_⟩
    obtain ⟨e, q, hq, hl, _⟩ := h2 n hn
    exact ⟨q, hq, hl⟩

/-- The agreement condition is met when no production is without alternatives. -/
theorem C16_condition_of_no_empty_production (g : Grammar) (h : ∀ p ∈ g.productions, p.rhs ≠ []) (n : Str)
    (hd : Declared g n) : Defined g n := by
  obtain ⟨p, hp, hl⟩ := hd
  cases hr : p.rhs with
  | nil => exact absurd hr (h p hp)
  | cons e es => exact ⟨e, p, hp, hl, by rw [hr]; simp⟩

/-- C16 is violated: `validate()` accepts a grammar that `build_parser()` rejects, for every hash order. -/
theorem C16_disagreement : ∃ g : Grammar, (∀ ord : List Str → List Str, (∀ l, (ord l).Perm l) → g.validate ord = .ok ()) ∧
    ∀ ord : List Str → List Str, (∀ l, (ord l).Perm l) → ¬ ∃ p, g.buildParser ord = .ok p := by
  refine ⟨gNoAlt, fun ord hord => ?_, fun ord hord => ?_⟩
  · rw [C16_validate_ok_iff ord hord]
    refine ⟨by simp [gNoAlt], ?_⟩
    rintro n ⟨lhs, e, ⟨p, hp, _, he⟩, hn⟩
    simp only [gNoAlt, List.mem_cons, List.not_mem_nil, or_false] at hp
    rcases hp with rfl | rfl
    · simp only [List.mem_cons, List.not_mem_nil, or_false] at he
      subst he
      simp at hn
      subst hn
      exact ⟨_, by simp [gNoAlt]; exact .inr rfl, rfl⟩
    · simp at he
  · rw [C14_build_parser_ok_iff ord hord]
    rintro ⟨_, h⟩
    obtain ⟨e, p, hp, hl, he⟩ := h ['b'] ⟨.nonterminal ['a'], _, ⟨_, List.mem_cons_self, rfl, List.mem_cons_self⟩, List.mem_cons_self⟩
    simp only [gNoAlt, List.mem_cons, List.not_mem_nil, or_false] at hp
    rcases hp with rfl | rfl
    · simp at hl
    · simp at he

example : ∀ p ∈ gOk.productions, p.rhs ≠ [] := by simp [gOk]

end Bnf.Props
