import Verif.Proofs.CustomFormat
import Verif.Props.Text
import Verif.Chars

/-! # Property C122: formats defined by a user of the crate -/

set_option autoImplicit false

namespace Bnf.Props
open Bnf Spec

variable {F : Format}

/-- C122: whatever characters and separators a format has, reading a text ends with a grammar or with a parse error. -/
theorem C122_total (hF : Definable F) (s : Str) :
    (∃ g, Grammar.parseFrom F s = some (.ok g)) ∨ Grammar.parseFrom F s = some (.error .parseError) :=
  parseFrom_total hF.named s

/-- C122: a grammar that is accepted is what the text says, in some reading of it according to the syntax of the format; there is at least one
production, all left-hand sides are nonterminals, and there are no empty alternatives. -/
theorem C122_sound (hF : Definable F) {s g} (h : Grammar.parseFrom F s = some (.ok g)) :
    (∃ pg, GrammarText F pg s ∧ normalizeParsedGrammar pg = some g) ∧ WellFormedGrammar g := by
  obtain ⟨pg, h1, h2⟩ := parseFrom_sound hF.named h
  exact ⟨⟨pg, h1, h2⟩, text_wellFormed h1 h2⟩

/-- C122: in a well chosen format a text is accepted exactly when it has a reading, and the grammar is that reading. -/
theorem C122_exact (hF : WellChosen F) {s g} : Grammar.parseFrom F s = some (.ok g) ↔
    ∃ pg, GrammarText F pg s ∧ normalizeParsedGrammar pg = some g :=
  parseFrom_wellChosen hF

/-- C122: and no text has two readings. -/
theorem C122_unambiguous (hF : WellChosen F) {s pg pg'} (h : GrammarText F pg s) (h' : GrammarText F pg' s) : pg = pg' :=
  grammarText_unique' hF h h'

/-- C122: and what has no reading is an error. -/
theorem C122_error (hF : WellChosen F) (s : Str) :
    Grammar.parseFrom F s = some (.error .parseError) ↔ ¬ ∃ pg, GrammarText F pg s := by
  constructor
  · rintro h ⟨pg, hp⟩
    obtain ⟨g, hg⟩ := normalize_total pg
    rw [(C122_exact hF).mpr ⟨pg, hp, hg⟩] at h
    cases h
  · intro h
    rcases C122_total hF.definable s with ⟨g, hg⟩ | hg
    · obtain ⟨pg, hp, _⟩ := (C122_exact hF).mp hg
      exact absurd ⟨pg, hp⟩ h
    · exact hg

/-- C122: the character at which productions are said to begin is only a shortcut of the first of the two parsers, so it has no effect on the result,
even if it is wrong. -/
theorem C122_start_char (hF : WellChosen F) (c : Option Char) (s : Str) :
    Grammar.parseFrom { F with productionStartChar := c } s = Grammar.parseFrom F s := by
  have hF' : WellChosen { F with productionStartChar := c } := ⟨hF.definable, hF.opening, hF.alternative, hF.separator⟩
  rw [parseFrom_unstarted hF, parseFrom_unstarted hF']
  rfl

/-- C122: for the result the fast parser does not matter, in every format in which the alternatives are not separated by an opening bracket. -/
theorem C122_fast_path (hF : Definable F) (ha : F.alternativeSeparator ∉ ['(', '[']) (s : Str) : grammarComplete F s =
    (parsedGrammarComplete F (s.length + 1) s).andThen fun r parsed =>
      match normalizeParsedGrammar parsed with
      | none => .fuel
      | some g => .ok r g := by
  refine grammarComplete_extended hF.named ⟨fun h => ha ?_, fun h => ha ?_⟩ s
  · rw [h]; simp
  · rw [h]; simp

/-- C122: a format whose production separator is empty, or begins with whitespace or `;`, accepts nothing at all: the layout before the separator is
skipped together with the separator, and an empty separator is found after every term. -/
theorem C122_nothing (hF : Definable F) (h : F.productionSeparator = [] ∨
      ∃ x xs, F.productionSeparator = x :: xs ∧ (isWhitespace x = true ∨ x = ';')) (s : Str) :
    Grammar.parseFrom F s = some (.error .parseError) := by
  rcases C122_total hF s with ⟨g, hg⟩ | hg
  · obtain ⟨r, hg⟩ := toResult_ok.mp hg
    refine absurd hg (accepts_nothing fun x xs hx => ?_)
    rcases h with h | ⟨y, ys, hy, h⟩
    · rw [h] at hx; cases hx
    · rw [hy] at hx
      injection hx with hx _
      subst hx
      exact h
  · exact hg

/-- C122: if alternatives are to be separated by a whitespace character or by `;`, no production gets more than one: what follows a term is skipped as
layout.  (Optionals get the empty alternative in addition.) -/
theorem C122_one_alternative (hF : Definable F) (h : isWhitespace F.alternativeSeparator = true ∨ F.alternativeSeparator = ';') {s g}
    (hg : Grammar.parseFrom F s = some (.ok g)) : ∀ p ∈ g.productions, ∃ e, p.rhs = [e] ∨ p.rhs = [e, ⟨[.terminal []]⟩] := by
  obtain ⟨r, hg⟩ := toResult_ok.mp hg
  exact single_rhs h hF.named hg

/-- C122: a grammar read in any format is read back from its printed form exactly when none of its names contains `>`. -/
theorem C122_reprint (hF : Definable F) {f : Char → Bool} (hf : AlphabeticTable f) {s g} (hg : Grammar.parseFrom F s = some (.ok g)) :
    Grammar.fromStr f g.display = some (.ok g) ↔ ∀ n, NameOf g n → '>' ∉ n := by
  obtain ⟨pg, h1, h2⟩ := parseFrom_sound hF.named hg
  rw [grammar_round_trip hf, text_printable_iff h1 h2]

/-- C122: the grammars that have a text without groups and optionals in the format. -/
theorem C122_writable_iff (g : Grammar) (hl : ∀ p ∈ g.productions, ∃ u, p.lhs = .nonterminal u) :
    (∃ s, GrammarText F (toParsed g.productions) s) ↔ GrammarIn F g :=
  ⟨fun ⟨_, h⟩ => grammarIn_of_text hl h, fun h => ⟨_, grammar_in h⟩⟩

/-- C122: and such a text is read as the grammar. -/
theorem C122_written (hF : WellChosen F) {g : Grammar} (h : GrammarIn F g) : Grammar.parseFrom F (grammarText F g) = some (.ok g) :=
  (C122_exact hF).mpr ⟨_, grammar_in h, normalize_plain fun p hp => (h.2 p hp).1.imp fun _ h => h.1⟩

/-- C122: a text in any format can be rewritten in any well chosen one that can express its names. -/
theorem C122_translate {F' : Format} (hF : Definable F) (hF' : WellChosen F') {s g} (hg : Grammar.parseFrom F s = some (.ok g))
    (hn : ∀ n, NameOf g n → NameIn F' n) : Grammar.parseFrom F' (grammarText F' g) = some (.ok g) := by
  obtain ⟨pg, h1, h2⟩ := parseFrom_sound hF.named hg
  obtain ⟨hne, hwf⟩ := text_wellFormed h1 h2
  refine C122_written hF' ⟨hne, fun p hm => ?_⟩
  obtain ⟨⟨u, hu⟩, hr, he⟩ := hwf p hm
  refine ⟨⟨u, hu, hn u ⟨p, hm, .inl hu⟩⟩, hr, fun e hm' => ⟨he e hm', fun t ht => ?_⟩⟩
  cases t with
  | terminal v => exact text_terminals h1 h2 p hm e hm' v ht
  | nonterminal v => exact hn v ⟨p, hm, .inr ⟨e, hm', ht⟩⟩

/-! ### Cases -/

/-- `{name} -> term, term` -/
def braces : Format := ⟨some ('{', '}'), ['-', '>'], ',', some '?', fun _ => false⟩

/-- The format meets the conditions, though the character for the beginning of productions is wrong. -/
theorem braces_wellChosen : WellChosen braces where
  definable := by intro h; cases h
  opening := by
    intro a b h
    injection h with h
    injection h with h _
    subst h
    unfold Free
    decide
  alternative := ⟨by unfold Free; decide, by unfold OpensName braces; decide⟩
  separator := ⟨'-', ['>'], rfl, by unfold Free; decide, by unfold OpensName braces; decide, by decide⟩

/-- So do the formats of the crate. -/
theorem BNF_wellChosen : WellChosen BNF where
  definable := by intro h; cases h
  opening := by
    intro a b h
    injection h with h
    injection h with h _
    subst h
    unfold Free
    decide
  alternative := ⟨by unfold Free BNF; decide, by unfold OpensName BNF; decide⟩
  separator := ⟨':', [':', '='], rfl, by unfold Free; decide, by unfold OpensName BNF; decide, by unfold BNF; decide⟩

theorem ABNF_wellChosen {f : Char → Bool} (hf : AlphabeticTable f) : WellChosen (ABNF f) where
  definable := fun _ => hf
  opening := by intro a b h; cases h
  alternative := ⟨by show Free '/'; unfold Free; decide, by
    unfold OpensName ABNF
    simp only [hf.ascii '/' (by decide)]
    decide⟩
  separator := ⟨'=', [], rfl, by unfold Free; decide, by
    unfold OpensName ABNF
    simp only [hf.ascii '=' (by decide)]
    decide, by show '=' ≠ '/'; decide⟩

/-- `{a} -> 'x' {b}, 'y'` and `{b} -> ['z']`. -/
example : ∃ g, Grammar.parseFrom braces (chars! "{a} -> 'x' {b}, 'y'\n{b} -> ['z']") = some (.ok g) ∧ g.productions.length = 3 :=
  ⟨_, by rfl, by rfl⟩

/-- A text of one production, which only the extended parser reads. -/
example : Grammar.parseFrom braces (chars! "{a} -> 'x', 'y'") =
    some (.ok ⟨[⟨.nonterminal ['a'], [⟨[.terminal ['x']]⟩, ⟨[.terminal ['y']]⟩]⟩]⟩) := by rfl

/-- C122: alternatives separated by `(` are an exception: the fast parser accepts this text, where a quote in a comment hides the brackets, and the
other parser rejects it. -/
theorem C122_bracket_witness : ∃ F s, Definable F ∧ F.alternativeSeparator = '(' ∧ (∃ g, Grammar.parseFrom F s = some (.ok g)) ∧
    parsedGrammarComplete F (s.length + 1) s = .err :=
  ⟨⟨some (')', '>'), ['='], '(', none, fun _ => false⟩, chars! ";'\n)a> = 'x' ()b>\n)b> = 'y'", (by intro h; cases h), rfl,
    ⟨_, by rfl⟩, by rfl⟩

/-- C122: without the conditions on the format there are texts with a reading that are rejected: with a space as production separator, `<a> 'x'`. -/
theorem C122_rejected_witness : ∃ F s pg, Definable F ∧ GrammarText F pg s ∧ Grammar.parseFrom F s = some (.error .parseError) := by
  refine ⟨⟨some ('<', '>'), [' '], '|', none, fun _ => false⟩, ['<', 'a', '>', ' ', '\'', 'x', '\''],
    [⟨['a'], [[.simple (.terminal ['x'])]]⟩], (by intro h; cases h), ?_, ?_⟩
  · refine ⟨_, .nil, .one ⟨['\'', 'x', '\''], ⟨[' ', '\'', 'x', '\''], ['\'', 'x', '\''], ['\'', 'x', '\''], ⟨rfl, by decide⟩, .nil, .inl rfl, .nil⟩, ?_⟩⟩
    exact .lastAlt (.one (.terminal ⟨'\'', .inr rfl, by decide, rfl⟩ .nil))
  · exact C122_nothing (by intro h; cases h) (.inr ⟨' ', [], rfl, .inl (by decide)⟩) _

/-- C122: and texts with two readings: with `<` between alternatives, `<a> ::= 'x' <<b>` has one alternative with the name `<b`, or two alternatives if the
name is `b`.  The parser takes the first. -/
theorem C122_ambiguous_witness : ∃ F s pg pg', Definable F ∧ GrammarText F pg s ∧ GrammarText F pg' s ∧ pg ≠ pg' ∧
    ∃ g, normalizeParsedGrammar pg = some g ∧ Grammar.parseFrom F s = some (.ok g) := by
  refine ⟨⟨some ('<', '>'), [':', ':', '='], '<', none, fun _ => false⟩, chars! "<a>::='x'<<b>",
    [⟨['a'], [[.simple (.terminal ['x']), .simple (.nonterminal ['<', 'b'])]]⟩],
    [⟨['a'], [[.simple (.terminal ['x'])], [.simple (.nonterminal ['b'])]]⟩], (by intro h; cases h), ?_, ?_, by simp, _, rfl, by rfl⟩
  · refine ⟨_, .nil, .one ⟨chars! "'x'<<b>", ⟨chars! "::='x'<<b>", _, _, ⟨rfl, by decide⟩, .nil, .inl rfl, .nil⟩, ?_⟩⟩
    exact .lastAlt (.more (.terminal (s' := chars! "<<b>") ⟨'\'', .inr rfl, by decide, rfl⟩ .nil) (.one (.nonterminal (s' := []) ⟨rfl, by decide⟩ .nil)))
  · refine ⟨_, .nil, .one ⟨chars! "'x'<<b>", ⟨chars! "::='x'<<b>", _, _, ⟨rfl, by decide⟩, .nil, .inl rfl, .nil⟩, ?_⟩⟩
    exact .nextAlt (s1 := chars! "<b>") (.one (.terminal (s' := chars! "<<b>") ⟨'\'', .inr rfl, by decide, rfl⟩ .nil)) .nil
      (.lastAlt (.one (.nonterminal (s' := []) ⟨rfl, by decide⟩ .nil)))

/-- Alternatives separated by spaces: the two terms form one alternative. -/
example : Grammar.parseFrom ⟨some ('<', '>'), ['='], ' ', none, fun _ => false⟩ (chars! "<a> = 'x' 'y'") =
    some (.ok ⟨[⟨.nonterminal ['a'], [⟨[.terminal ['x'], .terminal ['y']]⟩]⟩]⟩) := by rfl

/-- From `<a b> ::= 'x' | 'y' <a b>` to braces. -/
example : ∃ g, Grammar.parseFrom BNF (chars! "<a b> ::= 'x' | 'y' <a b>") = some (.ok g) ∧
    grammarText braces g = (chars! "{a b} -> 'x' , 'y' {a b}\n") ∧ Grammar.parseFrom braces (grammarText braces g) = some (.ok g) := by
  refine ⟨⟨[⟨.nonterminal (chars! "a b"), [⟨[.terminal ['x']]⟩, ⟨[.terminal ['y'], .nonterminal (chars! "a b")]⟩]⟩]⟩, by rfl, by rfl, ?_⟩
  refine C122_translate (F := BNF) BNF_wellChosen.definable braces_wellChosen (s := chars! "<a b> ::= 'x' | 'y' <a b>") (by rfl) ?_
  rintro n ⟨p, hp, h⟩
  simp only [List.mem_singleton] at hp
  subst hp
  have : n = chars! "a b" := by simpa [eq_comm] using h
  subst this
  show '}' ∉ _
  decide

end Bnf.Props
