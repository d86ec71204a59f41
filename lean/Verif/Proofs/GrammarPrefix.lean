import Verif.Model.GrammarPrefix
import Verif.Proofs.TextMain
import Verif.Proofs.ErrorsText
import Verif.Proofs.ErrorsRefine

set_option autoImplicit false

namespace Bnf.GrammarPrefix

open Spec

variable {F : Format}

theorem parsed_ok (hF : F.Regular) {s r ps} : parsedGrammar F (s.length + 1) s = .ok r ps ↔
    ∃ s1, Layout s s1 ∧ Settled s1 ∧ WholeProds F ps s1 r ∧ ∀ p r', ¬ WholeProd F p r r' := by
  rw [← E.grammar_ok hF (Nat.lt_succ_self _), ← E.refines_parsedGrammar F (s.length + 1) s]
  cases E.parsedGrammar F (s.length + 1) s <;> simp [E.Res.erase]

theorem parsed_no_fuel (hF : F.Regular) (s : Str) : parsedGrammar F (s.length + 1) s ≠ .fuel := by
  intro h
  refine parsedGrammarComplete_no_fuel hF.named (Nat.lt_succ_self s.length) ?_
  rw [parsedGrammarComplete, Nom.allConsuming, h]
  rfl

theorem prefix_ok {s r g} : grammarPrefix F s = .ok r g ↔ ∃ pg, parsedGrammar F (s.length + 1) s = .ok r pg ∧ normalizeParsedGrammar pg = some g := by
  unfold grammarPrefix
  cases parsedGrammar F (s.length + 1) s with
  | fuel => simp [Res.andThen]
  | err => simp [Res.andThen]
  | ok r' pg =>
    obtain ⟨g', hg⟩ := normalize_total pg
    simp only [Res.andThen, hg, Res.ok.injEq]
    constructor
    · rintro ⟨rfl, rfl⟩; exact ⟨pg, ⟨rfl, rfl⟩, hg⟩
    · rintro ⟨_, ⟨rfl, rfl⟩, h⟩
      rw [hg] at h; exact ⟨rfl, Option.some.inj h⟩

theorem text_iff (hF : F.Regular) {s pg} : GrammarText F pg s ↔ parsedGrammar F (s.length + 1) s = .ok [] pg := by
  constructor
  · intro h
    have h1 := parsedGrammarComplete_complete hF h (Nat.lt_succ_self s.length)
    rw [parsedGrammarComplete, Nom.allConsuming] at h1
    obtain ⟨r, v, h2, h3⟩ := Res.andThen_ok.mp h1
    cases r with
    | nil => injection h3 with _ h3; rw [← h3]; exact h2
    | cons c r => cases h3
  · intro h
    have h1 : parsedGrammarComplete F (s.length + 1) s = .ok [] pg := by
      rw [parsedGrammarComplete, Nom.allConsuming, h]; rfl
    exact parsedGrammarComplete_sound hF.named h1

end Bnf.GrammarPrefix
