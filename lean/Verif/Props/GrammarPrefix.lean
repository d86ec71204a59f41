import Verif.Proofs.GrammarPrefix
import Verif.Props.Text
import Verif.Chars

/-!
# C136: the nom-style parser `grammar`, which leaves the rest of the text
-/

set_option autoImplicit false

namespace Bnf.Props

open Spec GrammarPrefix

variable {F : Format} {s : Str}

/-- C136: what `grammar` returns: after layout, productions as long as there are whole ones (each followed by the end of the text or the beginning of another
production), at least one; and the text from the first place on where no whole production begins. -/
theorem C136_ok (hF : Supported F) {r : Str} {g : Grammar} : grammarPrefix F s = .ok r g ↔
    ∃ pg s1, Layout s s1 ∧ Settled s1 ∧ WholeProds F pg s1 r ∧ (∀ p r', ¬ WholeProd F p r r') ∧ normalizeParsedGrammar pg = some g := by
  rw [prefix_ok]
  constructor
  · rintro ⟨pg, h1, h2⟩
    obtain ⟨s1, h3, h4, h5, h6⟩ := (parsed_ok hF.regular).mp h1
    exact ⟨pg, s1, h3, h4, h5, h6, h2⟩
  · rintro ⟨pg, s1, h3, h4, h5, h6, h2⟩
    exact ⟨pg, (parsed_ok hF.regular).mpr ⟨s1, h3, h4, h5, h6⟩, h2⟩

/-- C136: it reads all of a text exactly if the text is a grammar, and then gives what `Grammar::parse_from` gives. -/
theorem C136_complete (hF : Supported F) {g : Grammar} : grammarPrefix F s = .ok [] g ↔ Grammar.parseFrom F s = some (.ok g) := by
  rw [prefix_ok, parseFrom_ok hF.regular]
  simp only [text_iff hF.regular]

/-- C136: it always returns; and a text is rejected by `Grammar::parse_from` exactly if `grammar` fails or leaves something. -/
theorem C136_rejected (hF : Supported F) : grammarPrefix F s ≠ .fuel ∧ (Grammar.parseFrom F s = some (.error .parseError) ↔
    grammarPrefix F s = .err ∨ ∃ c r g, grammarPrefix F s = .ok (c :: r) g) := by
  have hn : grammarPrefix F s ≠ .fuel := by
    intro h
    unfold grammarPrefix at h
    cases h1 : parsedGrammar F (s.length + 1) s with
    | fuel => exact parsed_no_fuel hF.regular s h1
    | err => rw [h1] at h; cases h
    | ok r pg =>
      obtain ⟨g, hg⟩ := normalize_total pg
      rw [h1] at h
      simp [Res.andThen, hg] at h
  refine ⟨hn, ?_⟩
  cases h : grammarPrefix F s with
  | fuel => exact absurd h hn
  | err =>
    refine ⟨fun _ => .inl rfl, fun _ => ?_⟩
    rcases parseFrom_cases hF.regular s with ⟨g, hg⟩ | he
    · rw [C136_complete hF |>.mpr hg] at h; cases h
    · exact he
  | ok r g =>
    cases r with
    | nil =>
      rw [(C136_complete hF).mp h]
      simp
    | cons c r =>
      refine ⟨fun _ => .inr ⟨c, r, g, rfl⟩, fun _ => ?_⟩
      rcases parseFrom_cases hF.regular s with ⟨g', hg⟩ | he
      · rw [C136_complete hF |>.mpr hg] at h; cases h
      · exact he

/-- C136: what is left is nothing or begins like a production. -/
theorem C136_rest (hF : Supported F) {r : Str} {g : Grammar} (h : grammarPrefix F s = .ok r g) : r = [] ∨ ∃ u r', Lhs F u r r' := by
  have key : ∀ {pg s1 r}, WholeProds F pg s1 r → r = [] ∨ ∃ u r', Lhs F u r r' := by
    intro pg s1 r hp
    clear h
    induction hp with
    | one h => exact h.2
    | more _ _ ih => exact ih
  obtain ⟨pg, s1, _, _, hp, _⟩ := (C136_ok hF).mp h
  exact key hp

/-- C136: so a test that unwraps the result and drops the rest, as those of `src/parsers/bnf.rs` and `augmented.rs` do, does not show that the text is accepted. -/
theorem C136_rest_witness : (∃ g, grammarPrefix BNF (chars! "<a> ::= 'x'\n<b> ::= 'y'\n<c> ::= |") = .ok (chars! "<c> ::= |") g) ∧
    Grammar.parseFrom BNF (chars! "<a> ::= 'x'\n<b> ::= 'y'\n<c> ::= |") = some (.error .parseError) := by
  have h : ∃ g, grammarPrefix BNF (chars! "<a> ::= 'x'\n<b> ::= 'y'\n<c> ::= |") = .ok (chars! "<c> ::= |") g := ⟨_, by rfl⟩
  refine ⟨h, ?_⟩
  obtain ⟨g, h⟩ := h
  exact (C136_rejected .bnf).2.mpr (.inr ⟨_, _, g, h⟩)

example : ∃ g, grammarPrefix BNF (chars! "<a> ::= ('x' | <b>)\n<b> ::= 'y'") = .ok [] g ∧ g.productions.length = 3 := ⟨_, by rfl, by rfl⟩
example : grammarPrefix BNF (chars! "= 'x'") = .err := by rfl

end Bnf.Props
