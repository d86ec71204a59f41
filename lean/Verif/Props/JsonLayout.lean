import Verif.Proofs.JsonLayout
import Verif.Props.Serde

/-! # Property C115: the JSON texts of grammars, character by character -/

set_option autoImplicit false

namespace Bnf.Props
open Bnf Spec

/-- C115: what `serde_json::to_string` writes for a grammar. -/
theorem C115_compact (g : Grammar) : g.jsonText = compactGrammar g := compactGrammar_eq g

/-- C115: and for its parts. -/
theorem C115_compact_parts (t : Term) (e : Expression) (p : Production) :
    t.toJson.compact = compactTerm t ∧ e.toJson.compact = compactExpression e ∧ p.toJson.compact = compactProduction p :=
  ⟨compactTerm_eq t, compactExpression_eq e, compactProduction_eq p⟩

/-- C115: what `serde_json::to_string_pretty` writes for a grammar. -/
theorem C115_pretty (g : Grammar) : g.jsonPretty = prettyGrammar g := (shown_grammar g).text

/-- C115: and for its parts. -/
theorem C115_pretty_parts (t : Term) (e : Expression) (p : Production) :
    t.toJson.pretty 0 = linesText (termLines t) ∧ e.toJson.pretty 0 = linesText (expressionLines e) ∧
      p.toJson.pretty 0 = linesText (productionLines p) :=
  ⟨(shown_term t).text, (shown_expression e).text, (shown_production p).text⟩

/-- C115: no JSON text with the same value is shorter than the compact one. -/
theorem C115_shortest {g : Grammar} {j : Json} {s : Str} (h : JsonText j g.jsonText) (h' : JsonText j s) :
    g.jsonText.length ≤ s.length := by
  have hw : JsonText g.toJson g.jsonText :=
    ⟨[], g.jsonText, [], blank_nil, compact_spec (grammar_numberless g), blank_nil, by simp⟩
  obtain rfl := C93_text_determined h hw
  obtain ⟨a, t, b, _, ht, _, rfl⟩ := h'
  have := jsonValue_length ht
  simp only [List.length_append]
  have e : g.jsonText = g.toJson.compact := rfl
  rw [e]; omega

/-- Grammars can be written by hand in these forms and are read back. -/
example (g : Grammar) : Grammar.fromJsonText (compactGrammar g) = some g ∧ Grammar.fromJsonText (prettyGrammar g) = some g := by
  rw [← C115_compact, ← C115_pretty]; exact C93_round_trip g

/-- The lines of `<a> ::= "\n" <b>` (with a line feed as the terminal) and of an empty production. -/
example : grammarLines ⟨[⟨.nonterminal ['a'], [⟨[.terminal ['\n'], .nonterminal ['b']]⟩]⟩, ⟨.nonterminal ['c'], []⟩]⟩ =
    [(0, "{".toList), (1, "\"productions\": [".toList), (2, "{".toList), (3, "\"lhs\": {".toList), (4, "\"Nonterminal\": \"a\"".toList),
      (3, "},".toList), (3, "\"rhs\": [".toList), (4, "{".toList), (5, "\"terms\": [".toList), (6, "{".toList),
      (7, "\"Terminal\": \"\\n\"".toList), (6, "},".toList), (6, "{".toList), (7, "\"Nonterminal\": \"b\"".toList), (6, "}".toList),
      (5, "]".toList), (4, "}".toList), (3, "]".toList), (2, "},".toList), (2, "{".toList), (3, "\"lhs\": {".toList),
      (4, "\"Nonterminal\": \"c\"".toList), (3, "},".toList), (3, "\"rhs\": []".toList), (2, "}".toList), (1, "]".toList), (0, "}".toList)] := by
  decide +kernel

/-- Hypotheses of `C115_shortest`. -/
example (g : Grammar) : ∃ j, JsonText j g.jsonText ∧ JsonText j g.jsonPretty ∧ JsonText j (' ' :: g.jsonText) := by
  obtain ⟨j, _, h1, h2⟩ := C93_written g
  obtain ⟨a, t, b, ha, ht, hb, e⟩ := h1
  exact ⟨j, ⟨a, t, b, ha, ht, hb, e⟩, h2, ' ' :: a, t, b, by
    intro c hc
    rcases List.mem_cons.mp hc with rfl | hc
    · exact .inl rfl
    · exact ha c hc, ht, hb, by rw [e]; rfl⟩

end Bnf.Props
