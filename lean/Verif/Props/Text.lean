import Verif.Proofs.TextPrint
import Verif.Proofs.Ebnf

/-! # Properties C17–C32: grammar texts

Texts in the examples are lists of characters; the comment beside each shows the text. -/

set_option autoImplicit false

namespace Bnf.Props
open Bnf Spec

/-- `char::is_alphabetic` restricted to ASCII meets the assumptions about the table. -/
theorem table_example : AlphabeticTable Char.isAlpha where
  ascii := fun _ _ => rfl
  space := by
    intro c h
    unfold isWhitespace at h
    simp only [List.mem_cons, List.not_mem_nil, or_false, decide_eq_true_eq] at h
    unfold Char.isAlpha Char.isUpper Char.isLower
    rcases h with h | h | h | h | h | h | h | h | h | h | h | h | h | h | h | h | h | h | h | h | h | h | h | h | h <;>
      simp [h]

/-! ## C17–C20: printing and reading back -/

/-- C17: a term survives printing and reading exactly when it is a name without `>` or a terminal that does not contain both
kinds of quotes. -/
theorem C17_term_round_trip (t : Term) : Term.fromStr t.display = some (.ok t) ↔
    (∃ u, t = .nonterminal u ∧ '>' ∉ u) ∨ (∃ u, t = .terminal u ∧ ¬ ('"' ∈ u ∧ '\'' ∈ u)) := by
  rw [term_round_trip]
  cases t with
  | terminal u =>
    simp only [Printable, Term.terminal.injEq, reduceCtorEq, false_and, exists_false, false_or, not_and]
    constructor
    · intro h; exact ⟨u, rfl, fun h1 h2 => h.elim (fun h => h h1) (fun h => h h2)⟩
    · rintro ⟨v, rfl, h⟩
      by_cases hq : '"' ∈ u
      · exact .inr (h hq)
      · exact .inl hq
  | nonterminal u =>
    simp only [Printable, Term.nonterminal.injEq, reduceCtorEq, false_and, exists_false, or_false]
    constructor
    · intro h; exact ⟨u, rfl, h⟩
    · rintro ⟨v, rfl, h⟩; exact h

/-- `"it's"` and `<a b>` come back. -/
example : Term.fromStr (Term.terminal ['i', 't', '\'', 's']).display = some (.ok (.terminal ['i', 't', '\'', 's'])) :=
  (C17_term_round_trip _).mpr (.inr ⟨_, rfl, by decide⟩)
example : Term.fromStr (Term.nonterminal ['a', ' ', 'b']).display = some (.ok (.nonterminal ['a', ' ', 'b'])) :=
  (C17_term_round_trip _).mpr (.inl ⟨_, rfl, by decide⟩)

/-- A terminal with both kinds of quotes, or a name with `>`, does not come back. -/
theorem C17_failure_witness : Term.fromStr (Term.terminal ['"', '\'']).display ≠ some (.ok (.terminal ['"', '\''])) ∧
    Term.fromStr (Term.nonterminal ['>']).display ≠ some (.ok (.nonterminal ['>'])) := by
  simp [C17_term_round_trip]

/-- C18: an expression survives printing and reading exactly when it is not empty and all its terms are printable. -/
theorem C18_expression_round_trip (e : Expression) :
    Expression.fromStr e.display = some (.ok e) ↔ e.terms ≠ [] ∧ ∀ t ∈ e.terms, Printable t :=
  expression_round_trip e

/-- `<a> "it's" '"' ''`. -/
example : Expression.fromStr (Expression.display ⟨[.nonterminal ['a'], .terminal ['i', 't', '\'', 's'], .terminal ['"'], .terminal []]⟩) =
    some (.ok ⟨[.nonterminal ['a'], .terminal ['i', 't', '\'', 's'], .terminal ['"'], .terminal []]⟩) :=
  (C18_expression_round_trip _).mpr ⟨by simp, by simp [Printable]⟩

/-- C19: a production survives printing and reading exactly when its left-hand side is a printable nonterminal, it has an
alternative, and no alternative is empty or unprintable. -/
theorem C19_production_round_trip (p : Production) :
    Production.fromStr p.display = some (.ok p) ↔
      (∃ u, p.lhs = .nonterminal u ∧ '>' ∉ u) ∧ p.rhs ≠ [] ∧ ∀ e ∈ p.rhs, e.terms ≠ [] ∧ ∀ t ∈ e.terms, Printable t :=
  production_round_trip p

/-- `<s> ::= <s> '(' | '|'`. -/
def pRound : Production := ⟨.nonterminal ['s'], [⟨[.nonterminal ['s'], .terminal ['(']]⟩, ⟨[.terminal ['|']]⟩]⟩

theorem pRound_printable : PrintableProduction pRound :=
  ⟨⟨_, rfl, by decide⟩, by simp [pRound], by simp [pRound, PrintableExpression, Printable]⟩

example : Production.fromStr pRound.display = some (.ok pRound) := (C19_production_round_trip _).mpr pRound_printable

/-- C20: a grammar survives printing and reading exactly when it has a production and all its productions are printable.
(`from_str` detects the format and chooses between two parsers.) -/
theorem C20_grammar_round_trip {f : Char → Bool} (hf : AlphabeticTable f) (g : Grammar) :
    Grammar.fromStr f g.display = some (.ok g) ↔
      g.productions ≠ [] ∧ ∀ p ∈ g.productions, (∃ u, p.lhs = .nonterminal u ∧ '>' ∉ u) ∧ p.rhs ≠ [] ∧
        ∀ e ∈ p.rhs, e.terms ≠ [] ∧ ∀ t ∈ e.terms, Printable t :=
  grammar_round_trip hf g

/-- C20 for `parse_from::<BNF>`. -/
theorem C20_parse_from_round_trip (g : Grammar) (h : PrintableGrammar g) : Grammar.parseFrom BNF g.display = some (.ok g) :=
  grammar_parse_display h

/-- A grammar of two productions with brackets in a terminal (`C20_grammar_round_trip` covers both parsers). -/
example : Grammar.fromStr Char.isAlpha (Grammar.display ⟨[pRound, pRound]⟩) = some (.ok ⟨[pRound, pRound]⟩) :=
  (C20_grammar_round_trip table_example _).mpr ⟨by simp, fun p hp => by
    have : p = pRound := by simpa using hp
    subst this; exact pRound_printable⟩

/-! ## C21: printing a parsed grammar -/

/-- C21: for every text that `parse_from::<BNF>` accepts, reading the printed grammar gives the same grammar. -/
theorem C21_reparse {f : Char → Bool} {s g} (h : Grammar.parseFrom BNF s = some (.ok g)) :
    Grammar.fromStr f g.display = some (.ok g) ∧ Grammar.parseFrom BNF g.display = some (.ok g) := by
  obtain ⟨pg, h1, h2⟩ := (parseFrom_ok BNF_regular).mp h
  have := grammar_parse_display (text_printable h1 h2)
  exact ⟨fromStr_of_BNF this, this⟩

/-- C21 for texts whose format is detected as BNF. -/
theorem C21_reparse_detected {f : Char → Bool} {s g} (hb : isFormatStandardBnf s = true)
    (h : Grammar.fromStr f s = some (.ok g)) : Grammar.fromStr f g.display = some (.ok g) := by
  rw [fromStr_eq, hb, if_pos rfl] at h
  exact (C21_reparse h).1

/-- `<a> ::= ('x' | <a>) [<a>] ; c` -/
def tGroups : Str := ['<', 'a', '>', ' ', ':', ':', '=', ' ', '(', '\'', 'x', '\'', ' ', '|', ' ', '<', 'a', '>', ')', ' ', '[', '<', 'a', '>', ']', ' ', ';', ' ', 'c']

/-- `__anon0`. -/
def anon0 : Str := ['_', '_', 'a', 'n', 'o', 'n', '0']
/-- `__anon1`. -/
def anon1 : Str := ['_', '_', 'a', 'n', 'o', 'n', '1']

def gGroups : Grammar := ⟨[⟨.nonterminal ['a'], [⟨[.nonterminal anon0, .nonterminal anon1]⟩]⟩,
  ⟨.nonterminal anon0, [⟨[.terminal ['x']]⟩, ⟨[.nonterminal ['a']]⟩]⟩,
  ⟨.nonterminal anon1, [⟨[.nonterminal ['a']]⟩, ⟨[.terminal []]⟩]⟩]⟩

theorem tGroups_parse : Grammar.parseFrom BNF tGroups = some (.ok gGroups) := by rfl

example : Grammar.parseFrom BNF gGroups.display = some (.ok gGroups) := (C21_reparse (f := Char.isAlpha) tGroups_parse).2

/-- The BNF restriction matters: an ABNF name may contain `>`; `a>b = 'x'` is accepted, printed as `<a>b> ::= 'x'`, and
that is rejected. -/
theorem C21_abnf_witness : ∃ g, Grammar.parseFrom (ABNF Char.isAlpha) ['a', '>', 'b', ' ', '=', ' ', '\'', 'x', '\''] = some (.ok g) ∧
    Grammar.fromStr Char.isAlpha g.display = some (.error .parseError) :=
  ⟨⟨[⟨.nonterminal ['a', '>', 'b'], [⟨[.terminal ['x']]⟩]⟩]⟩, by rfl, by rfl⟩

/-! ## C22: layout -/

/-- C22: two texts that spell the same tokens, with whatever layout and comments, give the same result (the same grammar, or
both an error). -/
theorem C22_layout {F : Format} (hF : Supported F) {ts s s'} (h : SpellsText F ts s) (h' : SpellsText F ts s') :
    Grammar.parseFrom F s = Grammar.parseFrom F s' :=
  parseFrom_respell hF.regular h h'

/-- Layout can be put before and after every text. -/
theorem C22_around {F : Format} (hF : Supported F) {ts s s'} (h : Layout s' s) (hs : SpellsText F ts s) :
    Grammar.parseFrom F s' = Grammar.parseFrom F s := by
  obtain ⟨s1, h1, h2⟩ := hs
  exact C22_layout hF ⟨s1, layout_trans h h1, h2⟩ ⟨s1, h1, h2⟩

/-- `<a>::='x'` and `<a> ;c⏎ ::= 'x' ` spell the same tokens. -/
example : Grammar.parseFrom BNF ['<', 'a', '>', ':', ':', '=', '\'', 'x', '\''] = Grammar.parseFrom BNF ['<', 'a', '>', ' ', ';', 'c', '\n', ' ', ':', ':', '=', ' ', '\'', 'x', '\'', ' '] := by
  refine C22_layout .bnf (ts := [.name ['a'], .separator, .literal ['x']])
    ⟨_, .nil, .name (s1 := [':', ':', '=', '\'', 'x', '\'']) (s2 := [':', ':', '=', '\'', 'x', '\'']) ⟨rfl, by decide⟩ .nil (.separator (s1 := ['\'', 'x', '\'']) (s2 := ['\'', 'x', '\'']) ?_ .nil
      (.literal (s1 := []) (s2 := []) ⟨'\'', .inr rfl, by decide, rfl⟩ .nil .nil))⟩
    ⟨_, .nil, .name (s1 := [' ', ';', 'c', '\n', ' ', ':', ':', '=', ' ', '\'', 'x', '\'', ' ']) (s2 := [':', ':', '=', ' ', '\'', 'x', '\'', ' ']) ⟨rfl, by decide⟩ ?_ (.separator (s1 := [' ', '\'', 'x', '\'', ' ']) (s2 := ['\'', 'x', '\'', ' ']) ?_ layout_space
      (.literal (s1 := [' ']) (s2 := []) ⟨'\'', .inr rfl, by decide, rfl⟩ layout_space .nil))⟩
  · intro cs h; revert h; simp [BNF]
  · exact .space (by decide) (.comment (u := ['c']) (c := '\n') (by simp [IsNewline]) (.inr rfl) layout_space)
  · intro cs h; revert h; simp [BNF]

/-- `::=` with `|` directly after it is one token: a space in between is a different text (an error). -/
theorem C22_bar_witness : (∃ g, Grammar.parseFrom BNF ['<', 'a', '>', ':', ':', '=', '|', '\'', 'x', '\''] = some (.ok g)) ∧
    Grammar.parseFrom BNF ['<', 'a', '>', ':', ':', '=', ' ', '|', '\'', 'x', '\''] = some (.error .parseError) := ⟨⟨_, by rfl⟩, by rfl⟩

/-- No layout is allowed after an opening bracket. -/
theorem C22_bracket_witness : (∃ g, Grammar.parseFrom BNF ['<', 'a', '>', ':', ':', '=', '(', '\'', 'x', '\'', ' ', ')'] = some (.ok g)) ∧
    Grammar.parseFrom BNF ['<', 'a', '>', ':', ':', '=', '(', ' ', '\'', 'x', '\'', ' ', ')'] = some (.error .parseError) := ⟨⟨_, by rfl⟩, by rfl⟩

/-! ## C23, C24: accepted texts -/

/-- C23: a text is accepted exactly when it is a sentence of the concrete syntax, and the result is the grammar it denotes
(with groups and optionals lowered by `normalize_parsed_grammar`, see C29–C32). -/
theorem C23_accepted_texts {F : Format} (hF : Supported F) (s : Str) (g : Grammar) :
    Grammar.parseFrom F s = some (.ok g) ↔ ∃ pg, GrammarText F pg s ∧ normalizeParsedGrammar pg = some g :=
  parseFrom_ok hF.regular

/-- C23: every other text gives a parse error; parsing always ends. -/
theorem C23_rejected_texts {F : Format} (hF : Supported F) (s : Str) :
    Grammar.parseFrom F s = some (.error .parseError) ↔ ¬ ∃ pg, GrammarText F pg s :=
  parseFrom_error hF.regular

/-- C23: a text without groups and optionals denotes the grammar as written. -/
theorem C23_plain_texts {F : Format} (hF : Supported F) {s : Str} {ps : List Production}
    (hp : ∀ p ∈ ps, ∃ u, p.lhs = .nonterminal u) (h : GrammarText F (toParsed ps) s) :
    Grammar.parseFrom F s = some (.ok ⟨ps⟩) :=
  (C23_accepted_texts hF s _).mpr ⟨_, h, normalize_plain hp⟩

/-- C23: the syntax is unambiguous. -/
theorem C23_unambiguous {F : Format} (hF : Supported F) {s : Str} {pg pg'} (h : GrammarText F pg s) (h' : GrammarText F pg' s) :
    pg = pg' := grammarText_unique hF.regular h h'

/-- Both formats accept something; an unclosed group is rejected. -/
example : ∃ pg, GrammarText BNF pg tGroups :=
  ((C23_accepted_texts .bnf _ _).mp tGroups_parse).imp fun _ h => h.1
example : ∃ pg, GrammarText (ABNF Char.isAlpha) pg ['a', 'b', ' ', '=', ' ', '"', 'x', '"', ' ', '/', ' ', 'c', 'd', '\n', 'c', 'd', ' ', '=', '(', '"', 'y', '"', ')'] :=
  ((C23_accepted_texts (.abnf table_example) _ ⟨[⟨.nonterminal ['a', 'b'], [⟨[.terminal ['x']]⟩, ⟨[.nonterminal ['c', 'd']]⟩]⟩,
    ⟨.nonterminal ['c', 'd'], [⟨[.nonterminal anon0]⟩]⟩, ⟨.nonterminal anon0, [⟨[.terminal ['y']]⟩]⟩]⟩).mp (by rfl)).imp fun _ h => h.1
example : ¬ ∃ pg, GrammarText BNF pg ['<', 'a', '>', ':', ':', '=', '(', '\'', 'x', '\''] := (C23_rejected_texts .bnf _).mp (by rfl)

/-- C24: whatever the heuristic says, the result is that of the extended parser with normalization. -/
theorem C24_fast_path_transparent {F : Format} (hF : Supported F) (s : Str) :
    grammarComplete F s = (parsedGrammarComplete F (s.length + 1) s).andThen fun r pg =>
      match normalizeParsedGrammar pg with
      | none => .fuel
      | some g => .ok r g :=
  grammarCompleteFuel_eq hF.regular (Nat.lt_succ_self _)

/-- C24: if the plain parser accepts a text, so does the extended parser, with the same grammar. -/
theorem C24_plain_implies_extended {F : Format} (hF : Supported F) {s : Str} {g n}
    (h : Nom.allConsuming (plainGrammar F n) s = .ok [] g) :
    ∃ pg, parsedGrammarComplete F (s.length + 1) s = .ok [] pg ∧ normalizeParsedGrammar pg = some g := by
  obtain ⟨h1, h2⟩ := plainGrammar_sound hF.regular h
  exact ⟨_, parsedGrammarComplete_complete hF.regular h1 (Nat.lt_succ_self _), normalize_plain h2⟩

/-- The heuristic does misjudge texts: a quote in a comment makes it overlook a group, and a bracket in a name is taken for a
group. -/
theorem C24_heuristic_witness :
    grammarHasExtendedSyntax [';', '\'', '\n', '<', 'a', '>', ':', ':', '=', '(', '\'', 'x', '\'', ')'] = false ∧ (∃ pg, GrammarText BNF pg [';', '\'', '\n', '<', 'a', '>', ':', ':', '=', '(', '\'', 'x', '\'', ')']) ∧
    grammarHasExtendedSyntax ['<', '(', '>', ':', ':', '=', '\'', 'x', '\''] = true ∧ (∃ g, Grammar.parseFrom BNF ['<', '(', '>', ':', ':', '=', '\'', 'x', '\''] = some (.ok g)) :=
  ⟨by rfl, (((C23_accepted_texts .bnf _ ⟨[⟨.nonterminal ['a'], [⟨[.nonterminal anon0]⟩]⟩,
    ⟨.nonterminal anon0, [⟨[.terminal ['x']]⟩]⟩]⟩).mp (by rfl)).imp fun _ h => h.1), by rfl, ⟨_, by rfl⟩⟩

theorem extendedScan_in {q : Char} (hq : q = '"' ∨ q = '\'') (s : Str) : extendedScan (q = '"') (q = '\'') s = true ↔
    ∃ body r, s = body ++ q :: r ∧ q ∉ body ∧ extendedScan false false r = true := by
  induction s with
  | nil => simp [extendedScan]
  | cons c cs ih =>
    by_cases hc : c = q
    · subst hc
      have h1 : extendedScan (c = '"') (c = '\'') (c :: cs) = extendedScan false false cs := by rcases hq with rfl | rfl <;> simp [extendedScan]
      rw [h1]
      constructor
      · exact fun h => ⟨[], cs, rfl, by simp, h⟩
      · rintro ⟨body, r, he, hb, h⟩
        cases body with
        | nil => simp only [List.nil_append, List.cons.injEq, true_and] at he; rw [he]; exact h
        | cons d ds => simp only [List.cons_append, List.cons.injEq] at he; exact absurd (by rw [he.1]; simp) hb
    · have h1 : extendedScan (q = '"') (q = '\'') (c :: cs) = extendedScan (q = '"') (q = '\'') cs := by rcases hq with rfl | rfl <;> simp [extendedScan, bne_iff_ne.mpr hc]
      rw [h1, ih]
      constructor
      · rintro ⟨body, r, he, hb, h⟩
        exact ⟨c :: body, r, by rw [he]; rfl, by simpa using ⟨Ne.symm hc, hb⟩, h⟩
      · rintro ⟨body, r, he, hb, h⟩
        cases body with
        | nil => simp only [List.nil_append, List.cons.injEq] at he; exact absurd he.1 hc
        | cons d ds =>
          simp only [List.cons_append, List.cons.injEq] at he
          exact ⟨ds, r, he.2, fun hm => hb (by simp [hm]), h⟩

theorem extendedScan_iff (s : Str) : extendedScan false false s = true ↔
    ∃ a c b, s = a ++ c :: b ∧ (c = '(' ∨ c = '[') ∧ QuotesClosed a := by
  constructor
  · intro h
    induction hn : s.length using Nat.strong_induction_on generalizing s with
    | _ n ih =>
      subst hn
      cases s with
      | nil => simp [extendedScan] at h
      | cons c cs =>
        by_cases hq : c = '"' ∨ c = '\''
        · have h1 : extendedScan (c = '"') (c = '\'') cs = true := by rcases hq with rfl | rfl <;> simpa [extendedScan] using h
          obtain ⟨body, r, rfl, hb, h2⟩ := (extendedScan_in hq cs).mp h1
          obtain ⟨a, d, b, rfl, hd, ha⟩ := ih r.length (by simp; omega) r h2 rfl
          exact ⟨c :: body ++ c :: a, d, b, by simp, hd, .quoted hq hb ha⟩
        · rw [not_or] at hq
          by_cases hc : c = '(' ∨ c = '['
          · exact ⟨[], c, cs, rfl, hc, .nil⟩
          · have h1 : extendedScan false false cs = true := by simpa [extendedScan, hq.1, hq.2, hc] using h
            obtain ⟨a, d, b, rfl, hd, ha⟩ := ih cs.length (by simp) cs h1 rfl
            exact ⟨c :: a, d, b, rfl, hd, .plain hq.1 hq.2 ha⟩
  · rintro ⟨a, c, b, rfl, hc, ha⟩
    induction ha with
    | nil => rcases hc with rfl | rfl <;> simp [extendedScan]
    | @plain d s h1 h2 _ ih =>
      simp only [List.cons_append, extendedScan, h1, h2, if_false, Bool.false_eq_true]
      split
      · rfl
      · exact ih
    | @quoted q body s hq hb _ ih =>
      have := (extendedScan_in hq (body ++ q :: (s ++ c :: b))).mpr ⟨body, _, rfl, hb, ih⟩
      rcases hq with rfl | rfl <;> simpa [extendedScan] using this

/-- C24: what the heuristic recognises: an opening bracket outside of quotes, where the whole text counts, with its comments and names. -/
theorem C24_heuristic_exact (s : Str) : grammarHasExtendedSyntax s = true ↔
    ∃ a c b, s = a ++ c :: b ∧ (c = '(' ∨ c = '[') ∧ QuotesClosed a := by
  rw [← extendedScan_iff]
  unfold grammarHasExtendedSyntax
  split
  · rename_i h
    simp only [Bool.and_eq_true, Bool.not_eq_true', List.contains_eq_mem, decide_eq_false_iff_not] at h
    constructor
    · intro h'; simp at h'
    · intro h'
      obtain ⟨a, c, b, rfl, hc, -⟩ := (extendedScan_iff s).mp h'
      rcases hc with rfl | rfl
      · exact absurd (by simp) h.1
      · exact absurd (by simp) h.2
  · rfl

/-- A bracket after a quoted text is recognised, one inside a quoted text is not. -/
example : grammarHasExtendedSyntax ['\'', '[', '"', '\'', '['] = true ∧ grammarHasExtendedSyntax ['\'', '[', '\''] = false := by decide +kernel

/-- The plain parser accepts texts of two or more productions. -/
example : ∃ g, Nom.allConsuming (plainGrammar BNF 100) ['<', 'a', '>', ':', ':', '=', '\'', 'x', '\'', '\n', '<', 'a', '>', ':', ':', '=', '<', 'a', '>'] = .ok [] g := ⟨_, by rfl⟩

/-! ## C25, C26 -/

/-- C25: parsed grammars are well formed, in both formats. -/
theorem C25_well_formed {F : Format} (hF : Supported F) {s g} (h : Grammar.parseFrom F s = some (.ok g)) :
    g.productions ≠ [] ∧ ∀ p ∈ g.productions, (∃ u, p.lhs = .nonterminal u) ∧ p.rhs ≠ [] ∧ ∀ e ∈ p.rhs, e.terms ≠ [] := by
  obtain ⟨pg, h1, h2⟩ := (parseFrom_ok hF.regular).mp h
  exact text_wellFormed h1 h2

/-- C25 for `from_str`. -/
theorem C25_well_formed_from_str {f : Char → Bool} (hf : AlphabeticTable f) {s g} (h : Grammar.fromStr f s = some (.ok g)) :
    WellFormedGrammar g := by
  rw [fromStr_eq] at h
  split at h
  · exact C25_well_formed .bnf h
  · exact C25_well_formed (.abnf hf) h

example : WellFormedGrammar gGroups := C25_well_formed .bnf tGroups_parse

/-- C26: `from_str` reads BNF exactly when the first character after whitespace and comments is `<`, and ABNF otherwise. -/
theorem C26_detection (f : Char → Bool) (s : Str) :
    ((∃ r, Layout s ('<' :: r)) → Grammar.fromStr f s = Grammar.parseFrom BNF s) ∧
    (¬ (∃ r, Layout s ('<' :: r)) → Grammar.fromStr f s = Grammar.parseFrom (ABNF f) s) := by
  rw [fromStr_eq]
  constructor
  · intro h; rw [(isFormat_iff s).mpr h, if_pos rfl]
  · intro h; rw [if_neg (by rw [isFormat_iff]; exact h)]

/-- C26: a text of either format is read in that format by `from_str`. -/
theorem C26_no_misreading {f : Char → Bool} (hf : AlphabeticTable f) {F s g} (hF : F = BNF ∨ F = ABNF f)
    (h : Grammar.parseFrom F s = some (.ok g)) : Grammar.fromStr f s = some (.ok g) := by
  rcases hF with rfl | rfl
  · exact fromStr_of_BNF h
  · exact fromStr_of_ABNF hf h

/-- C26: no text is accepted in both formats. -/
theorem C26_exclusive {f : Char → Bool} (hf : AlphabeticTable f) (s : Str) :
    ¬ ((∃ g, Grammar.parseFrom BNF s = some (.ok g)) ∧ ∃ g, Grammar.parseFrom (ABNF f) s = some (.ok g)) := by
  rintro ⟨⟨g, h⟩, g', h'⟩
  obtain ⟨pg, h1, _⟩ := (parseFrom_ok BNF_regular).mp h
  obtain ⟨pg', h2, _⟩ := (parseFrom_ok (ABNF_regular hf)).mp h'
  have e1 := isFormat_BNF h1
  rw [isFormat_ABNF hf h2] at e1
  cases e1

/-- ` ;c⏎<a>` is BNF, `a` is not. -/
example : (∃ r, Layout [' ', ';', 'c', '\n', '<', 'a', '>'] ('<' :: r)) ∧ ¬ ∃ r, Layout ['a'] ('<' :: r) := by
  rw [← isFormat_iff, ← isFormat_iff]; exact ⟨by rfl, by simp [show isFormatStandardBnf ['a'] = false by rfl]⟩

/-! ## C27: skipping layout -/

/-- C27: skipping layout never fails; what is skipped is layout; the rest is empty or starts with something that is neither
whitespace nor `;`; skipping again changes nothing; the rest is the only such rest. -/
theorem C27_layout_skipping (s : Str) : ∃ r, whitespacePlusComments s = .ok r () ∧ Layout s r ∧ (∃ u, s = u ++ r) ∧
    (∀ c cs, r = c :: cs → isWhitespace c = false ∧ c ≠ ';') ∧ whitespacePlusComments r = .ok r () ∧
    ∀ r', Layout s r' → (∀ c cs, r' = c :: cs → isWhitespace c = false ∧ c ≠ ';') → r' = r := by
  have ht := skipM_tight false s
  refine ⟨skipM false s, ws_eq s, layout_skipM s, (layout_skipM s).suffix, ?_, ?_, ?_⟩
  · intro c cs h
    exact ht c cs h
  · rw [ws_eq, skipM_of_tight ht]
  · intro r' h hr
    refine layout_eq h ?_
    cases r' with
    | nil => exact Tight.nil
    | cons c cs => exact tight_cons (hr c cs rfl).1 (hr c cs rfl).2

example : whitespacePlusComments [' ', ';', 'é', '\n', ';', ' ', '(', '\n', '\t', 'x', ' ', ';'] = .ok ['x', ' ', ';'] () := by rfl

/-- C27: what counts as whitespace, in Unicode code points. -/
theorem C27_whitespace_table (c : Char) : isWhitespace c = true ↔
    (9 ≤ c.toNat ∧ c.toNat ≤ 13) ∨ c.toNat = 0x20 ∨ c.toNat = 0x85 ∨ c.toNat = 0xA0 ∨ c.toNat = 0x1680 ∨
    (0x2000 ≤ c.toNat ∧ c.toNat ≤ 0x200A) ∨ c.toNat = 0x2028 ∨ c.toNat = 0x2029 ∨ c.toNat = 0x202F ∨ c.toNat = 0x205F ∨
    c.toNat = 0x3000 := by
  have e : c.toNat = c.val.toNat := rfl
  simp only [isWhitespace, List.mem_cons, List.not_mem_nil, or_false, decide_eq_true_eq, ← UInt32.toNat_inj, UInt32.reduceToNat, e]
  omega

/-- No-break space counts, zero-width space does not. -/
example : isWhitespace (Char.ofNat 0xA0) = true ∧ isWhitespace (Char.ofNat 0x200B) = false := by decide

/-! ## C28: empty groups -/

/-- C28: in every accepted text every group and optional, at any depth, has at least one alternative, and every alternative at
least one term. -/
theorem C28_no_empty_groups {F : Format} {s pg} (h : GrammarText F pg s) :
    (∀ as, PartOf (.term (.group as)) pg ∨ PartOf (.term (.optional as)) pg → as ≠ [] ∧ ∀ e ∈ as, e ≠ []) := by
  intro as hp
  have ha : PartOf (.alts as) pg := by
    rcases hp with ⟨p, hp, hw⟩ | ⟨p, hp, hw⟩
    · exact ⟨p, hp, Within.trans (.group .refl) hw⟩
    · exact ⟨p, hp, Within.trans (.optional .refl) hw⟩
  refine ⟨(text_nonempty h ha).2 _ rfl, ?_⟩
  intro e he
  obtain ⟨p, hp, hw⟩ := ha
  exact (text_nonempty h ⟨p, hp, Within.trans (.alts he .refl) hw⟩).1 _ rfl

/-- C28: where a term is expected, `()` and `[]` are errors, whatever follows (the parser the code uses, with enough fuel for
one level). -/
theorem C28_empty_group_is_error {F : Format} (hF : Supported F) (n : Nat) (s : Str) :
    parsedTerm F (n + 2) ('(' :: ')' :: s) = .err ∧ parsedTerm F (n + 2) ('[' :: ']' :: s) = .err := by
  have hR := hF.regular
  have inner : ∀ c, c = ')' ∨ c = ']' → ∀ s, parsedAltsWith F (n + 1) (parsedTerm F (n + 1)) (c :: s) = .err := by
    intro c hc s
    have := parsedTerm_err (close_not_starts hR hc) n s
    simp [parsedAltsWith, Nom.xtList, Nom.xtLoop, parsedExpressionWith, Nom.many1, Nom.terminated, this, Res.andThen]
  have hnt : ∀ c, c = '(' ∨ c = '[' → ∀ s, nameText F (c :: s) = .err := by
    intro c hc s
    refine nameText_err (fun h => ?_) s
    have := (hR.nameStart c h).2
    rcases hc with rfl | rfl <;> simp at this
  constructor
  · show Nom.alt parsedTerminal _ _ = _
    simp [Nom.alt, parsedTerminal, quotedText_err (c := '(') (by decide) (by decide), parsedNonterminal,
      hnt '(' (.inl rfl), parsedAnonymousGroup, parsedOptionalGroup, Nom.delimited, inner ')' (.inl rfl), Res.andThen, Nom.char]
  · show Nom.alt parsedTerminal _ _ = _
    simp [Nom.alt, parsedTerminal, quotedText_err (c := '[') (by decide) (by decide), parsedNonterminal,
      hnt '[' (.inr rfl), parsedAnonymousGroup, parsedOptionalGroup, Nom.delimited, inner ']' (.inr rfl), Res.andThen, Nom.char]

/-- A text with a group inside an optional. -/
example : ∃ pg as, GrammarText BNF pg ['<', 'a', '>', ':', ':', '=', '[', '(', '\'', 'x', '\'', ')', ']'] ∧ PartOf (.term (.group as)) pg := by
  have h := parsedGrammarComplete_sound BNF_regular.named (n := 50) (s := ['<', 'a', '>', ':', ':', '=', '[', '(', '\'', 'x', '\'', ')', ']']) (r := [])
    (g := [⟨['a'], [[.optional [[.group [[.simple (.terminal ['x'])]]]]]]⟩]) (by rfl)
  exact ⟨_, [[.simple (.terminal ['x'])]], h, _, List.mem_cons_self .., .alts (List.mem_cons_self ..) (.terms (List.mem_cons_self ..)
    (.optional (.alts (List.mem_cons_self ..) (.terms (List.mem_cons_self ..) .refl))))⟩
example : Grammar.parseFrom BNF ['<', 'a', '>', ':', ':', '=', '\'', 'x', '\'', ' ', '(', ')', ' '] = some (.error .parseError) := by rfl

/-! ## C29–C32: normalization -/

/-- C29: from every nonterminal declared in a text, the parsed grammar derives exactly the strings that the text means, reading a
group as a choice and an optional as a choice or nothing.  Hypothesis: every nonterminal used in the text is declared in it, or
at least not called `__anonN`. -/
theorem C29_language {F : Format} (hF : Supported F) {s pg g} (ht : GrammarText F pg s)
    (hg : Grammar.parseFrom F s = some (.ok g)) (hyg : ∀ n, UsedIn n pg → DeclaredIn n pg ∨ ∀ k, n ≠ anonName k)
    {n} (hn : DeclaredIn n pg) (w : Str) :
    Derives g (.nonterminal n) w ↔ Means pg (.term (.simple (.nonterminal n))) w := by
  obtain ⟨pg', h1, h2⟩ := (parseFrom_ok hF.regular).mp hg
  rw [grammarText_unique hF.regular ht h1] at *
  exact normalize_language h2 (fun as ha => (text_nonempty h1 ha).2 _ rfl) hyg hn w

def pgGroups : ParsedGrammar := [⟨['a'], [[.group [[.simple (.terminal ['x'])], [.simple (.nonterminal ['a'])]],
  .optional [[.simple (.nonterminal ['a'])]]]]⟩]

theorem pgGroups_text : GrammarText BNF pgGroups tGroups :=
  parsedGrammarComplete_sound BNF_regular.named (n := 100) (r := []) (by rfl)

/-- Every nonterminal used in `<a> ::= ('x' | <a>) [<a>]` is declared in it. -/
theorem pgGroups_used : ∀ n, UsedIn n pgGroups → DeclaredIn n pgGroups := by
  rintro n ⟨p, hp, hw⟩
  have : n = ['a'] := by
    simp only [pgGroups, List.mem_singleton] at hp
    subst hp
    cases hw with
    | alts h1 h2 =>
      simp only [List.mem_singleton] at h1; subst h1
      cases h2 with
      | terms h3 h4 =>
        simp only [List.mem_cons, List.not_mem_nil, or_false] at h3
        rcases h3 with rfl | rfl
        · cases h4 with
          | group h5 =>
            cases h5 with
            | alts h6 h7 =>
              simp only [List.mem_cons, List.not_mem_nil, or_false] at h6
              rcases h6 with rfl | rfl <;> cases h7 with
              | terms h8 h9 => simp only [List.mem_singleton] at h8; subst h8; cases h9; try rfl
        · cases h4 with
          | optional h5 =>
            cases h5 with
            | alts h6 h7 =>
              simp only [List.mem_singleton] at h6; subst h6
              cases h7 with
              | terms h8 h9 => simp only [List.mem_singleton] at h8; subst h8; cases h9; rfl
  exact this ▸ ⟨_, List.mem_cons_self .., rfl⟩

/-- The hypotheses hold for `<a> ::= ('x' | <a>) [<a>]`, which means "x" and "xx". -/
example : (∀ n, UsedIn n pgGroups → DeclaredIn n pgGroups) ∧ DeclaredIn ['a'] pgGroups ∧
    Derives gGroups (.nonterminal ['a']) ['x', 'x'] := by
  have hd : DeclaredIn ['a'] pgGroups := ⟨_, List.mem_cons_self .., rfl⟩
  have hu := pgGroups_used
  refine ⟨hu, hd, ?_⟩
  rw [C29_language .bnf pgGroups_text tGroups_parse (fun n h => .inl (hu n h)) hd]
  have hx : Means pgGroups (.terms [.group [[.simple (.terminal ['x'])], [.simple (.nonterminal ['a'])]],
      .optional [[.simple (.nonterminal ['a'])]]]) ['x'] :=
    .cons (v := ['x']) (w := []) (.group (.choose (List.mem_cons_self ..) (.cons (v := ['x']) (w := []) .terminal .nil)))
      (.cons (v := []) (w := []) .absent .nil)
  have ha : Means pgGroups (.term (.simple (.nonterminal ['a']))) ['x'] :=
    .nonterminal (p := pgGroups.head (by simp [pgGroups])) (List.mem_cons_self ..) (.choose (List.mem_cons_self ..) hx)
  exact .nonterminal (p := pgGroups.head (by simp [pgGroups])) (List.mem_cons_self ..) (.choose (List.mem_cons_self ..)
    (.cons (v := ['x']) (w := ['x']) (.group (.choose (List.mem_cons_self ..) (.cons (v := ['x']) (w := []) .terminal .nil)))
      (.cons (v := ['x']) (w := []) (.present (.choose (List.mem_cons_self ..) (.cons (v := ['x']) (w := []) ha .nil))) .nil)))

/-- C30: the parsed grammar is the productions of the text, in order, with the same left-hand sides and numbers of
alternatives, followed by productions for generated names.  The generated names are pairwise different and not declared in the
text, so each has exactly one production, and each belongs to a group or optional of the text. -/
theorem C30_fresh_names {F : Format} (hF : Supported F) {s pg g} (ht : GrammarText F pg s)
    (hg : Grammar.parseFrom F s = some (.ok g)) : ∃ user anon : List Production, g.productions = user ++ anon ∧
    user.map (fun p => (p.lhs, p.rhs.length)) = pg.map (fun p => (.nonterminal p.lhs, p.rhs.length)) ∧
    (anon.map (·.lhs)).Nodup ∧
    (∀ p ∈ anon, ∃ k, p.lhs = .nonterminal (anonName k) ∧ ¬ DeclaredIn (anonName k) pg ∧
      ∃ as, (PartOf (.term (.group as)) pg ∧ p.rhs.length = as.length) ∨
        (PartOf (.term (.optional as)) pg ∧ p.rhs.length = as.length + 1)) ∧
    (∀ p ∈ anon, ∀ q ∈ g.productions, q.lhs = p.lhs → q = p) := by
  obtain ⟨pg', h1, h2⟩ := (parseFrom_ok hF.regular).mp hg
  have e := grammarText_unique hF.regular ht h1
  subst e
  obtain ⟨user, anon, h3, h4, h5, h6, h7⟩ := normalize_spec h2
  have hfresh : ∀ p ∈ anon, ∃ k, p.lhs = .nonterminal (anonName k) ∧ ¬ DeclaredIn (anonName k) pg := by
    intro p hp
    obtain ⟨x, k, hx, hn, rfl⟩ := h6 p hp
    exact ⟨k, hx, fun ⟨q, hq, hl⟩ => hn (List.mem_map.mpr ⟨q, hq, hl⟩)⟩
  refine ⟨user, anon, h3, ?_, h5, ?_, ?_⟩
  · have : ∀ {l l'}, List.Forall₂ (LowP (DefIn anon)) l l' →
        l'.map (fun p => (p.lhs, p.rhs.length)) = l.map (fun p => (Term.nonterminal p.lhs, p.rhs.length)) := by
      intro l l' h
      induction h with
      | nil => rfl
      | cons h _ ih => simp only [List.map_cons]; rw [h.1, lowA_length h.2, ih]
    exact this h4
  · intro p hp
    obtain ⟨k, hk, hd⟩ := hfresh p hp
    refine ⟨k, hk, hd, ?_⟩
    obtain ⟨q, hq, ho⟩ := h7 p hp
    obtain ⟨as, rhs, hl, hc⟩ := ho p (List.mem_singleton.mpr rfl)
    refine ⟨as, ?_⟩
    rcases hc with ⟨hw, hr⟩ | ⟨hw, hr⟩
    · refine .inl ⟨⟨q, hq, hw⟩, ?_⟩
      have hne : as ≠ [] := (text_nonempty h1 ⟨q, hq, Within.trans (.group .refl) hw⟩).2 _ rfl
      have hlen := lowA_length hl
      rw [if_neg (by intro h; rw [List.isEmpty_iff.mp h] at hlen; exact hne (List.length_eq_zero_iff.mp hlen.symm))] at hr
      rw [hr, hlen]
    · exact .inr ⟨⟨q, hq, hw⟩, by rw [hr, ← lowA_length hl]; simp⟩
  · intro p hp q hq hl
    rw [h3] at hq
    rcases List.mem_append.mp hq with hq | hq
    · exfalso
      obtain ⟨q0, hq0, hl0, _⟩ := forall₂_mem_right h4 q hq
      obtain ⟨k, hk, hd⟩ := hfresh p hp
      rw [hl, hk] at hl0
      injection hl0 with hl0
      exact hd ⟨q0, hq0, hl0.symm⟩
    · exact List.inj_on_of_nodup_map h5 hq hp hl

/-- A text that itself declares `__anon0`: the group gets the name `__anon1`. -/
example : Grammar.parseFrom BNF ['<', '_', '_', 'a', 'n', 'o', 'n', '0', '>', ':', ':', '=', '(', '\'', 'x', '\'', ')'] = some (.ok ⟨[⟨.nonterminal anon0, [⟨[.nonterminal anon1]⟩]⟩,
    ⟨.nonterminal anon1, [⟨[.terminal ['x']]⟩]⟩]⟩) := by rfl

/-- C31 (partial): a nonterminal that is used but not declared in the text is not defined in the parsed grammar either — unless
its name is of the form `__anonN`.  Missing: the statement for such names, which is false (`C31_capture_witness`). -/
theorem C31_hygiene_partial {F : Format} (hF : Supported F) {s pg g} (ht : GrammarText F pg s)
    (hg : Grammar.parseFrom F s = some (.ok g)) {n} (hn : ¬ DeclaredIn n pg) (hk : ∀ k, n ≠ anonName k) :
    ∀ p ∈ g.productions, p.lhs ≠ .nonterminal n := by
  obtain ⟨user, anon, h1, h2, _, h4, _⟩ := C30_fresh_names hF ht hg
  intro p hp hl
  rw [h1] at hp
  rcases List.mem_append.mp hp with hp | hp
  · have : (p.lhs, p.rhs.length) ∈ pg.map (fun p => (Term.nonterminal p.lhs, p.rhs.length)) := by
      rw [← h2]; exact List.mem_map.mpr ⟨p, hp, rfl⟩
    obtain ⟨q, hq, he⟩ := List.mem_map.mp this
    injection he with he _
    rw [hl] at he
    injection he with he
    exact hn ⟨q, hq, he⟩
  · obtain ⟨k, hk', _⟩ := h4 p hp
    rw [hl] at hk'
    injection hk' with hk'
    exact hk k hk'

/-- `<a> ::= <b> ('x')`: `b` stays undefined. -/
example : ∃ pg g, GrammarText BNF pg ['<', 'a', '>', ':', ':', '=', '<', 'b', '>', '(', '\'', 'x', '\'', ')'] ∧ Grammar.parseFrom BNF ['<', 'a', '>', ':', ':', '=', '<', 'b', '>', '(', '\'', 'x', '\'', ')'] = some (.ok g) ∧
    UsedIn ['b'] pg ∧ ¬ DeclaredIn ['b'] pg := by
  refine ⟨[⟨['a'], [[.simple (.nonterminal ['b']), .group [[.simple (.terminal ['x'])]]]]⟩], _,
    parsedGrammarComplete_sound BNF_regular.named (n := 50) (r := []) (by rfl), by rfl,
    ⟨_, List.mem_cons_self .., .alts (List.mem_cons_self ..) (.terms (List.mem_cons_self ..) .refl)⟩, ?_⟩
  rintro ⟨p, hp, hl⟩
  simp only [List.mem_singleton] at hp
  subst hp
  revert hl; decide

/-- C31 fails for an undefined nonterminal called `__anon0`: in `<a> ::= <__anon0> ('x')` the reference is captured by the
group. -/
theorem C31_capture_witness : ∃ pg g, GrammarText BNF pg ['<', 'a', '>', ':', ':', '=', '<', '_', '_', 'a', 'n', 'o', 'n', '0', '>', '(', '\'', 'x', '\'', ')'] ∧
    Grammar.parseFrom BNF ['<', 'a', '>', ':', ':', '=', '<', '_', '_', 'a', 'n', 'o', 'n', '0', '>', '(', '\'', 'x', '\'', ')'] = some (.ok g) ∧ UsedIn anon0 pg ∧ ¬ DeclaredIn anon0 pg ∧
    ∃ p ∈ g.productions, p.lhs = .nonterminal anon0 := by
  refine ⟨[⟨['a'], [[.simple (.nonterminal anon0), .group [[.simple (.terminal ['x'])]]]]⟩],
    ⟨[⟨.nonterminal ['a'], [⟨[.nonterminal anon0, .nonterminal anon0]⟩]⟩, ⟨.nonterminal anon0, [⟨[.terminal ['x']]⟩]⟩]⟩,
    parsedGrammarComplete_sound BNF_regular.named (n := 50) (r := []) (by rfl), by rfl,
    ⟨_, List.mem_cons_self .., .alts (List.mem_cons_self ..) (.terms (List.mem_cons_self ..) .refl)⟩, ?_, ?_⟩
  · rintro ⟨p, hp, hl⟩
    simp only [List.mem_singleton] at hp
    subst hp
    revert hl; decide
  · exact ⟨⟨.nonterminal anon0, [⟨[.terminal ['x']]⟩]⟩, by simp, rfl⟩

/-- C32: if a text differs from another only in that some optionals `[A | B]` are written `(A | B | '')`, both give the same
grammar. -/
theorem C32_optional_is_group {F F' : Format} (hF : Supported F) (hF' : Supported F') {s s' pg pg'} (h : GrammarText F pg s)
    (h' : GrammarText F' pg' s') (hu : UnoptionGrammar pg pg') : Grammar.parseFrom F s = Grammar.parseFrom F' s' := by
  obtain ⟨g, hg⟩ := normalize_total pg
  rw [(parseFrom_ok hF.regular).mpr ⟨pg, h, hg⟩,
    (parseFrom_ok hF'.regular).mpr ⟨pg', h', (unoption_normalize hu).trans hg⟩]

/-- `<a> ::= ['x' ['y']]` and `<a> ::= ('x' ['y'] | '')`. -/
example : Grammar.parseFrom BNF ['<', 'a', '>', ':', ':', '=', '[', '\'', 'x', '\'', '[', '\'', 'y', '\'', ']', ']'] = Grammar.parseFrom BNF ['<', 'a', '>', ':', ':', '=', '(', '\'', 'x', '\'', '[', '\'', 'y', '\'', ']', '|', '\'', '\'', ')'] :=
  C32_optional_is_group .bnf .bnf
    (pg := [⟨['a'], [[.optional [[.simple (.terminal ['x']), .optional [[.simple (.terminal ['y'])]]]]]]⟩])
    (pg' := [⟨['a'], [[.group ([[.simple (.terminal ['x']), .optional [[.simple (.terminal ['y'])]]]] ++ [[.simple (.terminal [])]])]]⟩])
    (parsedGrammarComplete_sound BNF_regular.named (n := 50) (r := []) (by rfl))
    (parsedGrammarComplete_sound BNF_regular.named (n := 50) (r := []) (by rfl))
    (.cons (.alts (.terms (.replace .refl) .refl) .refl) .nil)

/-! ## C58: the other `from_str` functions -/

/-- C58: `Term::from_str` accepts exactly a quoted text or a name in angle brackets, followed by layout only. -/
theorem C58_term_texts (s : Str) (t : Term) :
    Term.fromStr s = some (.ok t) ↔ ∃ u s', Layout s' [] ∧
      ((t = .terminal u ∧ ∃ q, (q = '"' ∨ q = '\'') ∧ q ∉ u ∧ s = q :: (u ++ q :: s')) ∨
        (t = .nonterminal u ∧ '>' ∉ u ∧ s = '<' :: (u ++ '>' :: s'))) := by
  unfold Term.fromStr
  rw [toResult_ok]
  constructor
  · rintro ⟨r, h0⟩
    obtain ⟨rfl, h⟩ := allConsuming_ok.mp h0
    cases (term_sound BNF_regular h).1 with
    | terminal h hl => exact ⟨_, _, hl, .inl ⟨rfl, h⟩⟩
    | nonterminal h hl => exact ⟨_, _, hl, .inr ⟨rfl, h.2, h.1⟩⟩
  · rintro ⟨u, s', hl, ⟨rfl, h⟩ | ⟨rfl, h1, h2⟩⟩
    · exact ⟨[], allConsuming_ok.mpr ⟨rfl, term_complete BNF_regular (.terminal h hl) Tight.nil⟩⟩
    · exact ⟨[], allConsuming_ok.mpr ⟨rfl, term_complete BNF_regular (.nonterminal ⟨h2, h1⟩ hl) Tight.nil⟩⟩

/-- C58: `Expression::from_str` accepts exactly the sequences of such terms. -/
theorem C58_expression_texts (s : Str) (e : Expression) :
    Expression.fromStr s = some (.ok e) ↔ Syn BNF (.terms (e.terms.map .simple)) s [] := by
  unfold Expression.fromStr
  rw [toResult_ok]
  constructor
  · rintro ⟨r, h0⟩
    obtain ⟨rfl, h⟩ := allConsuming_ok.mp h0
    exact expression_sound BNF_regular h
  · intro h
    exact ⟨[], allConsuming_ok.mpr ⟨rfl, expression_complete BNF_regular h (.inl rfl) (Nat.lt_succ_self _)⟩⟩

/-- C58: `Production::from_str` accepts exactly one production without groups, without layout before it. -/
theorem C58_production_texts (s : Str) (p : Production) :
    Production.fromStr s = some (.ok p) ↔
      ∃ u, p.lhs = .nonterminal u ∧ Spec.Prod BNF ⟨u, p.rhs.map fun e => e.terms.map .simple⟩ s [] := by
  unfold Production.fromStr
  rw [toResult_ok]
  constructor
  · rintro ⟨r, h0⟩
    obtain ⟨rfl, h⟩ := allConsuming_ok.mp h0
    exact production_sound BNF_regular h
  · obtain ⟨l, es⟩ := p
    rintro ⟨u, hu, h⟩
    simp only at hu
    subst hu
    exact ⟨[], allConsuming_ok.mpr ⟨rfl, production_complete BNF_regular h (.inl rfl) (Nat.lt_succ_self _)⟩⟩

/-- C58: every other text is an error; the functions always return. -/
theorem C58_other_texts (s : Str) :
    ((¬ ∃ t, Term.fromStr s = some (.ok t)) → Term.fromStr s = some (.error .parseError)) ∧
    ((¬ ∃ e, Expression.fromStr s = some (.ok e)) → Expression.fromStr s = some (.error .parseError)) ∧
    ((¬ ∃ p, Production.fromStr s = some (.ok p)) → Production.fromStr s = some (.error .parseError)) :=
  ⟨(toResult_cases (allConsuming_no_fuel (term_no_fuel s))).resolve_left,
    (toResult_cases (allConsuming_no_fuel (expression_no_fuel BNF_regular (Nat.lt_succ_self _)))).resolve_left,
    (toResult_cases (allConsuming_no_fuel (production_no_fuel BNF_regular (Nat.lt_succ_self _)))).resolve_left⟩

/-- C58: in particular, layout before the term, expression or production is an error (unlike before a grammar). -/
theorem C58_leading_space (c : Char) (hc : isWhitespace c = true) (s : Str) :
    Term.fromStr (c :: s) = some (.error .parseError) ∧ Expression.fromStr (c :: s) = some (.error .parseError) ∧
    Production.fromStr (c :: s) = some (.error .parseError) := by
  have h0 : ¬ Starts BNF c := by
    intro h
    rcases h with rfl | rfl | rfl | rfl | h
    · exact absurd hc (by decide)
    · exact absurd hc (by decide)
    · exact absurd hc (by decide)
    · exact absurd hc (by decide)
    · have := (BNF_regular.nameStart c h).1
      rw [hc] at this; simp at this
  refine ⟨(C58_other_texts _).1 ?_, (C58_other_texts _).2.1 ?_, (C58_other_texts _).2.2 ?_⟩
  · rintro ⟨t, h⟩
    rw [Term.fromStr, toResult_ok] at h
    obtain ⟨r, h⟩ := h
    obtain ⟨c', cs, e, h⟩ := (term_sound BNF_regular (allConsuming_ok.mp h).2).1.start
    injection e with e; subst e; exact h0 h
  · rintro ⟨t, h⟩
    obtain ⟨c', cs, e, h⟩ := ((C58_expression_texts _ _).mp h).start
    injection e with e; subst e; exact h0 h
  · rintro ⟨t, h⟩
    obtain ⟨u, _, h⟩ := (C58_production_texts _ _).mp h
    obtain ⟨c', cs, e, h⟩ := h.start
    injection e with e; subst e; exact h0 (.inr (.inr (.inr (.inr h))))

/-- `'x' ;c` and `<a>`; `'x' <b>`; `<a> ::=| 'x' | <b>`. -/
example : Term.fromStr ['\'', 'x', '\'', ' ', ';', 'c'] = some (.ok (.terminal ['x'])) ∧
    Expression.fromStr ['\'', 'x', '\'', '<', 'b', '>'] = some (.ok ⟨[.terminal ['x'], .nonterminal ['b']]⟩) ∧
    Production.fromStr ['<', 'a', '>', ':', ':', '=', '|', '\'', 'x', '\'', '|', '<', 'b', '>'] =
      some (.ok ⟨.nonterminal ['a'], [⟨[.terminal ['x']]⟩, ⟨[.nonterminal ['b']]⟩]⟩) ∧
    Term.fromStr ['\'', 'x', '\'', '<', 'b', '>'] = some (.error .parseError) := ⟨by rfl, by rfl, by rfl, by rfl⟩

end Bnf.Props
