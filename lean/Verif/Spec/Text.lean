import Verif.Spec.Syntax

/-!
# What is said about grammar texts

Printable and well-formed grammars, tokens, and parts of parsed grammars.
-/

set_option autoImplicit false

namespace Bnf.Spec
open Bnf

/-- Terms whose printed form can be read back: a name without `>`, a terminal without one of the two kinds of quotes. -/
def Printable : Term → Prop
  | .terminal u => '"' ∉ u ∨ '\'' ∉ u
  | .nonterminal u => '>' ∉ u

/-- Non-empty expressions of printable terms. -/
def PrintableExpression (e : Expression) : Prop := e.terms ≠ [] ∧ ∀ t ∈ e.terms, Printable t

/-- Productions with a printable nonterminal on the left, and at least one alternative. -/
def PrintableProduction (p : Production) : Prop :=
  (∃ u, p.lhs = .nonterminal u ∧ '>' ∉ u) ∧ p.rhs ≠ [] ∧ ∀ e ∈ p.rhs, PrintableExpression e

/-- Non-empty grammars of printable productions. -/
def PrintableGrammar (g : Grammar) : Prop := g.productions ≠ [] ∧ ∀ p ∈ g.productions, PrintableProduction p

/-- At least one production, nonterminals on the left, at least one alternative each, at least one term in each alternative. -/
def WellFormedGrammar (g : Grammar) : Prop :=
  g.productions ≠ [] ∧ ∀ p ∈ g.productions, (∃ u, p.lhs = .nonterminal u) ∧ p.rhs ≠ [] ∧ ∀ e ∈ p.rhs, e.terms ≠ []

/-- Parts of a term, of a sequence of terms, of a list of alternatives, at any depth. -/
inductive Within : Item → Item → Prop
  | refl {i} : Within i i
  | terms {i t ts} : t ∈ ts → Within i (.term t) → Within i (.terms ts)
  | alts {i e as} : e ∈ as → Within i (.terms e) → Within i (.alts as)
  | group {i as} : Within i (.alts as) → Within i (.term (.group as))
  | optional {i as} : Within i (.alts as) → Within i (.term (.optional as))

/-- Parts of a parsed grammar. -/
def PartOf (i : Item) (g : ParsedGrammar) : Prop := ∃ p ∈ g, Within i (.alts p.rhs)

/-- Tokens of a grammar text. -/
inductive Token where
  | literal (u : Str)
  | name (u : Str)
  | /-- `::=` -/ separator
  | /-- `::=|` -/ separatorBar
  | /-- `|` -/ bar
  | /-- `(` -/ openGroup
  | /-- `)` -/ closeGroup
  | /-- `[` -/ openOptional
  | /-- `]` -/ closeOptional

/-- The text spells these tokens, with any layout after each of them except opening brackets. (`::=` directly followed by
`|` is one token.) -/
inductive Spells (F : Format) : List Token → Str → Prop
  | nil : Spells F [] []
  | literal {u ts s s1 s2} : Quoted u s s1 → Layout s1 s2 → Spells F ts s2 → Spells F (.literal u :: ts) s
  | name {u ts s s1 s2} : Name F u s s1 → Layout s1 s2 → Spells F ts s2 → Spells F (.name u :: ts) s
  | separator {ts s1 s2} : (∀ cs, s1 ≠ F.alternativeSeparator :: cs) → Layout s1 s2 → Spells F ts s2 →
      Spells F (.separator :: ts) (F.productionSeparator ++ s1)
  | separatorBar {ts s1 s2} : Layout s1 s2 → Spells F ts s2 →
      Spells F (.separatorBar :: ts) (F.productionSeparator ++ F.alternativeSeparator :: s1)
  | bar {ts s1 s2} : Layout s1 s2 → Spells F ts s2 → Spells F (.bar :: ts) (F.alternativeSeparator :: s1)
  | openGroup {ts s} : Spells F ts s → Spells F (.openGroup :: ts) ('(' :: s)
  | closeGroup {ts s1 s2} : Layout s1 s2 → Spells F ts s2 → Spells F (.closeGroup :: ts) (')' :: s1)
  | openOptional {ts s} : Spells F ts s → Spells F (.openOptional :: ts) ('[' :: s)
  | closeOptional {ts s1 s2} : Layout s1 s2 → Spells F ts s2 → Spells F (.closeOptional :: ts) (']' :: s1)

/-- The same, with any layout at the start. -/
def SpellsText (F : Format) (ts : List Token) (s : Str) : Prop := ∃ s1, Layout s s1 ∧ Spells F ts s1

/-- A text at the end of which no quote is open, where a quote of one kind inside quotes of the other kind means nothing. -/
inductive QuotesClosed : Str → Prop
  | nil : QuotesClosed []
  | plain {c s} : c ≠ '"' → c ≠ '\'' → QuotesClosed s → QuotesClosed (c :: s)
  | quoted {q body s} : q = '"' ∨ q = '\'' → q ∉ body → QuotesClosed s → QuotesClosed (q :: body ++ q :: s)

end Bnf.Spec
