import Verif.Proofs.Serde
import Verif.Props.Text

/-! # Property C93: serialized grammars

`Grammar.jsonText` and `Grammar.jsonPretty` are the texts that `serde_json` writes, `Grammar.fromJsonText` reads any JSON text. -/

set_option autoImplicit false

namespace Bnf.Props
open Bnf Spec

/-- A small grammar with characters that need escaping: `<a> ::= '"\␁' <b> | ''`. -/
def gJson : Grammar :=
  ⟨[⟨.nonterminal ['a'], [⟨[.terminal ['"', '\\', Char.ofNat 1, 'é'], .nonterminal ['b']]⟩, ⟨[.terminal []]⟩]⟩]⟩

/-- C93: what is written, in either layout, is a JSON text of the value that stands for the grammar. -/
theorem C93_written (g : Grammar) : ∃ j, GrammarValue j g ∧ JsonText j g.jsonText ∧ JsonText j g.jsonPretty :=
  ⟨g.toJson, grammar_value g,
    ⟨[], g.jsonText, [], blank_nil, compact_spec (grammar_numberless g), blank_nil, by simp⟩,
    ⟨[], g.jsonPretty, [], blank_nil, pretty_spec (grammar_numberless g) 0, blank_nil, by simp⟩⟩

/-- C93: every JSON text of a value that stands for a grammar is read as that grammar, however it is laid out and escaped, in whatever order
its members are, and whatever other members there are. -/
theorem C93_read {j : Json} {g : Grammar} {s : Str} (hv : GrammarValue j g) (ht : JsonText j s) : Grammar.fromJsonText s = some g := by
  rw [Grammar.fromJsonText, readJson_text ht]
  exact grammar_fromJson.2 hv

/-- C93: nothing else is read as a grammar. -/
theorem C93_accepted (s : Str) (g : Grammar) : Grammar.fromJsonText s = some g ↔ ∃ j, JsonText j s ∧ GrammarValue j g := by
  rw [Grammar.fromJsonText, Option.bind_eq_some_iff]
  exact ⟨fun ⟨j, h1, h2⟩ => ⟨j, readJson_iff.1 h1, grammar_fromJson.1 h2⟩, fun ⟨j, h1, h2⟩ => ⟨j, readJson_iff.2 h1, grammar_fromJson.2 h2⟩⟩

/-- C93: the same for terms, expressions and productions. -/
theorem C93_accepted_parts (s : Str) :
    (∀ t, Term.fromJsonText s = some t ↔ ∃ j, JsonText j s ∧ TermValue j t) ∧
    (∀ e, Expression.fromJsonText s = some e ↔ ∃ j, JsonText j s ∧ ExpressionValue j e) ∧
    ∀ p, Production.fromJsonText s = some p ↔ ∃ j, JsonText j s ∧ ProductionValue j p := by
  refine ⟨fun t => ?_, fun e => ?_, fun p => ?_⟩
  · rw [Term.fromJsonText, Option.bind_eq_some_iff]
    exact ⟨fun ⟨j, h1, h2⟩ => ⟨j, readJson_iff.1 h1, term_fromJson.1 h2⟩, fun ⟨j, h1, h2⟩ => ⟨j, readJson_iff.2 h1, term_fromJson.2 h2⟩⟩
  · rw [Expression.fromJsonText, Option.bind_eq_some_iff]
    exact ⟨fun ⟨j, h1, h2⟩ => ⟨j, readJson_iff.1 h1, expression_fromJson.1 h2⟩, fun ⟨j, h1, h2⟩ => ⟨j, readJson_iff.2 h1, expression_fromJson.2 h2⟩⟩
  · rw [Production.fromJsonText, Option.bind_eq_some_iff]
    exact ⟨fun ⟨j, h1, h2⟩ => ⟨j, readJson_iff.1 h1, production_fromJson.1 h2⟩, fun ⟨j, h1, h2⟩ => ⟨j, readJson_iff.2 h1, production_fromJson.2 h2⟩⟩

/-- C93: a text has at most one value. -/
theorem C93_text_determined {j j' : Json} {s : Str} (h : JsonText j s) (h' : JsonText j' s) : j = j' := by
  have h1 := readJson_iff.2 h
  rw [readJson_iff.2 h'] at h1
  exact (Option.some.inj h1).symm

/-- Text behind the value is an error: `{"Terminal":"a"}x`. -/
example : Term.fromJsonText ['{', '"', 'T', 'e', 'r', 'm', 'i', 'n', 'a', 'l', '"', ':', '"', 'a', '"', '}', 'x'] = none ∧
    Term.fromJsonText ['{', '"', 'T', 'e', 'r', 'm', 'i', 'n', 'a', 'l', '"', ':', '"', 'a', '"', '}', '\n'] = some (.terminal ['a']) := by
  decide +kernel

/-- C93: every grammar survives serialization, in either layout. -/
theorem C93_round_trip (g : Grammar) : Grammar.fromJsonText g.jsonText = some g ∧ Grammar.fromJsonText g.jsonPretty = some g := by
  obtain ⟨j, h1, h2, h3⟩ := C93_written g
  exact ⟨C93_read h1 h2, C93_read h1 h3⟩

example : gJson.jsonText = "{\"productions\":[{\"lhs\":{\"Nonterminal\":\"a\"},\"rhs\":[{\"terms\":[{\"Terminal\":\"\\\"\\\\\\u0001é\"},{\"Nonterminal\":\"b\"}]},{\"terms\":[{\"Terminal\":\"\"}]}]}]}".toList := by
  decide +kernel

/-- The pretty layout: a line for each element and member, two blanks for each open bracket, nothing inside of empty ones. -/
example : (⟨[⟨.nonterminal ['a'], [⟨[.terminal ['x']]⟩, ⟨[]⟩]⟩]⟩ : Grammar).jsonPretty =
    "{\n  \"productions\": [\n    {\n      \"lhs\": {\n        \"Nonterminal\": \"a\"\n      },\n      \"rhs\": [\n        {\n          \"terms\": [\n            {\n              \"Terminal\": \"x\"\n            }\n          ]\n        },\n        {\n          \"terms\": []\n        }\n      ]\n    }\n  ]\n}".toList := by
  decide +kernel

/-- C93: different grammars have different texts. -/
theorem C93_injective {g g' : Grammar} (h : g.jsonText = g'.jsonText) : g = g' := by
  have h1 := (C93_round_trip g).1
  rw [h, (C93_round_trip g').1] at h1
  exact (Option.some.inj h1).symm

/-- C93 for the parts of a grammar, each of which can be serialized alone. -/
theorem C93_parts (t : Term) (e : Expression) (p : Production) :
    Term.fromJsonText t.toJson.compact = some t ∧ Term.fromJsonText (t.toJson.pretty 0) = some t ∧
    Expression.fromJsonText e.toJson.compact = some e ∧ Expression.fromJsonText (e.toJson.pretty 0) = some e ∧
    Production.fromJsonText p.toJson.compact = some p ∧ Production.fromJsonText (p.toJson.pretty 0) = some p := by
  have text : ∀ {j : Json} {s : Str}, JsonValue j s → readJson s = some j := fun {j s} h =>
    readJson_text ⟨[], s, [], blank_nil, h, blank_nil, by simp⟩
  refine ⟨?_, ?_, ?_, ?_, ?_, ?_⟩
  · rw [Term.fromJsonText, text (compact_spec (term_numberless t))]; exact term_fromJson.2 (term_value t)
  · rw [Term.fromJsonText, text (pretty_spec (term_numberless t) 0)]; exact term_fromJson.2 (term_value t)
  · rw [Expression.fromJsonText, text (compact_spec (expression_numberless e))]; exact expression_fromJson.2 (expression_value e)
  · rw [Expression.fromJsonText, text (pretty_spec (expression_numberless e) 0)]; exact expression_fromJson.2 (expression_value e)
  · rw [Production.fromJsonText, text (compact_spec (production_numberless p))]; exact production_fromJson.2 (production_value p)
  · rw [Production.fromJsonText, text (pretty_spec (production_numberless p) 0)]; exact production_fromJson.2 (production_value p)

/-- A value stands for at most one grammar. -/
theorem C93_determined {j : Json} {g g' : Grammar} (h : GrammarValue j g) (h' : GrammarValue j g') : g = g' := by
  have h1 := grammar_fromJson.2 h
  rw [grammar_fromJson.2 h'] at h1
  exact (Option.some.inj h1).symm

/-- C93 (finding 30): deserialization makes no checks.  Every grammar whatsoever is read from some JSON text, also one that no grammar text
yields: without productions, with a production without alternatives, with an alternative without terms, or with a terminal on the
left-hand side. -/
theorem C93_unchecked (g : Grammar)
    (hg : g.productions = [] ∨ ∃ p ∈ g.productions, (∃ u, p.lhs = .terminal u) ∨ p.rhs = [] ∨ ∃ e ∈ p.rhs, e.terms = []) :
    (∃ s, Grammar.fromJsonText s = some g) ∧ ∀ f, AlphabeticTable f → ∀ s, Grammar.fromStr f s ≠ some (.ok g) := by
  refine ⟨⟨_, (C93_round_trip g).1⟩, fun f hf s hs => ?_⟩
  obtain ⟨h1, h2⟩ := C25_well_formed_from_str hf hs
  rcases hg with h | ⟨p, hp, h⟩
  · exact h1 h
  · obtain ⟨⟨u, hu⟩, h3, h4⟩ := h2 p hp
    rcases h with ⟨v, hv⟩ | h | ⟨e, he, h⟩
    · rw [hu] at hv; cases hv
    · exact h3 h
    · exact h4 e he h

/-- The text `{"productions":[{"lhs":{"Terminal":"a"},"rhs":[]}]}` is read. -/
example : Grammar.fromJsonText "{\"productions\":[{\"lhs\":{\"Terminal\":\"a\"},\"rhs\":[]}]}".toList = some ⟨[⟨.terminal ['a'], []⟩]⟩ := by
  decide +kernel

/-- Members in another order, further members, white space, escapes and arrays in place of objects are read as well:
` {"rhs":[[[ ]]], "x":null, "lhs":{"Nonterminal":"\u0061"}}`. -/
example : Production.fromJsonText
    [' ', '{', '"', 'r', 'h', 's', '"', ':', '[', '[', '[', ' ', ']', ']', ']', ',', ' ', '"', 'x', '"', ':', 'n', 'u', 'l', 'l', ',', ' ', '"', 'l', 'h', 's', '"', ':', '{', '"', 'N', 'o', 'n', 't', 'e', 'r', 'm', 'i', 'n', 'a', 'l', '"', ':', '"', '\\', 'u', '0', '0', '6', '1', '"', '}', '}'] =
      some ⟨.nonterminal ['a'], [⟨[]⟩]⟩ := by decide +kernel

/-- Duplicate fields are rejected. -/
example (x y : Json) (g : Grammar) : ¬ GrammarValue (.obj [("productions".toList, x), ("productions".toList, y)]) g := by
  intro h
  have := grammar_fromJson.2 h
  rw [show Grammar.fromJson (.obj [("productions".toList, x), ("productions".toList, y)]) = none from by simp [Grammar.fromJson, jsonStruct, jsonField]] at this
  cases this

/-- C93: unlike the textual form, which loses terminals with both kinds of quotes (C17), JSON keeps every term. -/
theorem C93_keeps (u : Str) (h : '"' ∈ u ∧ '\'' ∈ u) :
    Term.fromJsonText (Term.toJson (.terminal u)).compact = some (.terminal u) ∧ Term.fromStr (Term.display (.terminal u)) ≠ some (.ok (.terminal u)) := by
  refine ⟨(C93_parts (.terminal u) ⟨[]⟩ ⟨.terminal u, []⟩).1, fun hc => ?_⟩
  rcases (C17_term_round_trip _).1 hc with ⟨v, hv, _⟩ | ⟨v, hv, hn⟩
  · cases hv
  · injection hv with hv
    subst hv
    exact hn h

example : '"' ∈ ['"', '\''] ∧ '\'' ∈ ['"', '\''] := by decide

end Bnf.Props
