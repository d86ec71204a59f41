import Verif.Spec.Ebnf

/-! # What the parts of an extended grammar mean, one step at a time (for C125) -/

set_option autoImplicit false

namespace Bnf
open Spec

variable {pg : ParsedGrammar}

theorem means_terms_cons {t : ParsedTerm} {ts : List ParsedTerm} {w : Str} : Means pg (.terms (t :: ts)) w ↔
    ∃ u v, w = u ++ v ∧ Means pg (.term t) u ∧ Means pg (.terms ts) v := by
  constructor
  · intro h
    cases h with
    | cons h1 h2 => exact ⟨_, _, rfl, h1, h2⟩
  · rintro ⟨u, v, rfl, h1, h2⟩
    exact .cons h1 h2

theorem means_terms_nil {w : Str} : Means pg (.terms []) w ↔ w = [] := by
  constructor
  · intro h; cases h; rfl
  · rintro rfl; exact .nil

theorem means_one {t : ParsedTerm} {w : Str} : Means pg (.terms [t]) w ↔ Means pg (.term t) w := by
  rw [means_terms_cons]
  simp only [means_terms_nil]
  constructor
  · rintro ⟨u, v, rfl, h, rfl⟩; simpa using h
  · intro h; exact ⟨w, [], by simp, h, rfl⟩

theorem means_alts {as : List (List ParsedTerm)} {w : Str} : Means pg (.alts as) w ↔ ∃ e ∈ as, Means pg (.terms e) w := by
  constructor
  · intro h
    cases h with
    | choose he h => exact ⟨_, he, h⟩
  · rintro ⟨e, he, h⟩
    exact .choose he h

theorem means_group {as : List (List ParsedTerm)} {w : Str} : Means pg (.term (.group as)) w ↔ ∃ e ∈ as, Means pg (.terms e) w := by
  rw [← means_alts]
  constructor
  · intro h; cases h; assumption
  · exact .group

theorem means_optional {as : List (List ParsedTerm)} {w : Str} :
    Means pg (.term (.optional as)) w ↔ w = [] ∨ ∃ e ∈ as, Means pg (.terms e) w := by
  rw [← means_alts]
  constructor
  · intro h
    cases h with
    | present h => exact .inr h
    | absent => exact .inl rfl
  · rintro (rfl | h)
    · exact .absent
    · exact .present h

theorem means_name {n : Str} {rhs : List (List ParsedTerm)} (hp : ∀ p, p ∈ pg ∧ p.lhs = n ↔ p = ⟨n, rhs⟩) {w : Str} :
    Means pg (.term (.simple (.nonterminal n))) w ↔ ∃ e ∈ rhs, Means pg (.terms e) w := by
  rw [← means_alts]
  constructor
  · intro h
    cases h with
    | @nonterminal p _ hm h =>
      rw [(hp p).mp ⟨hm, rfl⟩] at h
      exact h
  · intro h
    exact .nonterminal ((hp _).mpr rfl).1 h

theorem means_terminal {u w : Str} : Means pg (.term (.simple (.terminal u))) w ↔ w = u := by
  constructor
  · intro h; cases h; rfl
  · rintro rfl; exact .terminal

/-- The one production of a name in a list of productions. -/
theorem only_production {n : Str} {q : ParsedProduction} (h : pg.filter (fun p => p.lhs == n) = [q]) (p : ParsedProduction) :
    p ∈ pg ∧ p.lhs = n ↔ p = q := by
  rw [← List.mem_singleton (b := q), ← h, List.mem_filter]
  simp

/-! Names used in a grammar. -/

variable {n : Str}

theorem used_alts {as : List (List ParsedTerm)} : Within (.term (.simple (.nonterminal n))) (.alts as) ↔
    ∃ e ∈ as, ∃ t ∈ e, Within (.term (.simple (.nonterminal n))) (.term t) := by
  constructor
  · intro h
    cases h with
    | alts h1 h2 =>
      cases h2 with
      | terms h3 h4 => exact ⟨_, h1, _, h3, h4⟩
  · rintro ⟨e, he, t, ht, h⟩
    exact .alts he (.terms ht h)

theorem used_nonterminal {m : Str} : Within (.term (.simple (.nonterminal n))) (.term (.simple (.nonterminal m))) ↔ n = m := by
  constructor
  · intro h; cases h; rfl
  · rintro rfl; exact .refl

theorem used_terminal {m : Str} : Within (.term (.simple (.nonterminal n))) (.term (.simple (.terminal m))) ↔ False := by
  constructor
  · intro h; cases h
  · exact False.elim

theorem used_group {as : List (List ParsedTerm)} : Within (.term (.simple (.nonterminal n))) (.term (.group as)) ↔
    ∃ e ∈ as, ∃ t ∈ e, Within (.term (.simple (.nonterminal n))) (.term t) := by
  rw [← used_alts]
  constructor
  · intro h; cases h; assumption
  · exact .group

theorem used_optional {as : List (List ParsedTerm)} : Within (.term (.simple (.nonterminal n))) (.term (.optional as)) ↔
    ∃ e ∈ as, ∃ t ∈ e, Within (.term (.simple (.nonterminal n))) (.term t) := by
  rw [← used_alts]
  constructor
  · intro h; cases h; assumption
  · exact .optional

/-! Terminals in a grammar. -/

theorem said_alts {as : List (List ParsedTerm)} : Within (.term (.simple (.terminal n))) (.alts as) ↔
    ∃ e ∈ as, ∃ t ∈ e, Within (.term (.simple (.terminal n))) (.term t) := by
  constructor
  · intro h
    cases h with
    | alts h1 h2 =>
      cases h2 with
      | terms h3 h4 => exact ⟨_, h1, _, h3, h4⟩
  · rintro ⟨e, he, t, ht, h⟩
    exact .alts he (.terms ht h)

theorem said_terminal {m : Str} : Within (.term (.simple (.terminal n))) (.term (.simple (.terminal m))) ↔ n = m := by
  constructor
  · intro h; cases h; rfl
  · rintro rfl; exact .refl

theorem said_nonterminal {m : Str} : Within (.term (.simple (.terminal n))) (.term (.simple (.nonterminal m))) ↔ False := by
  constructor
  · intro h; cases h
  · exact False.elim

theorem said_group {as : List (List ParsedTerm)} : Within (.term (.simple (.terminal n))) (.term (.group as)) ↔
    ∃ e ∈ as, ∃ t ∈ e, Within (.term (.simple (.terminal n))) (.term t) := by
  rw [← said_alts]
  constructor
  · intro h; cases h; assumption
  · exact .group

theorem said_optional {as : List (List ParsedTerm)} : Within (.term (.simple (.terminal n))) (.term (.optional as)) ↔
    ∃ e ∈ as, ∃ t ∈ e, Within (.term (.simple (.terminal n))) (.term t) := by
  rw [← said_alts]
  constructor
  · intro h; cases h; assumption
  · exact .optional

end Bnf
