import Verif.Model.Text

/-!
# Concrete syntax of grammar texts

A context-free description, independent of the parser: `X s r` means that the text `s` is an `X` followed by the text `r`.  There is
no longest match, no ordered choice and no lookahead (except that an undelimited name extends to the next whitespace
character, `)`, `]` or the end).
-/

set_option autoImplicit false

namespace Bnf.Spec
open Bnf

/-- End of line. -/
def IsNewline (c : Char) : Prop := c = '\r' ∨ c = '\n'

/-- Any sequence of whitespace characters and comments.  A comment is `;` up to the end of the line or of the text. -/
inductive Layout : Str → Str → Prop
  | nil {s} : Layout s s
  | space {c s r} : isWhitespace c = true → Layout s r → Layout (c :: s) r
  | comment {u c s r} : (∀ d ∈ u, ¬ IsNewline d) → IsNewline c → Layout s r → Layout (';' :: (u ++ c :: s)) r
  | lastComment {u} : (∀ d ∈ u, ¬ IsNewline d) → Layout (';' :: u) []

/-- Characters at which an undelimited name ends. -/
def NameStop (c : Char) : Prop := isWhitespace c = true ∨ c = ')' ∨ c = ']'

/-- `s` is the nonterminal `u` followed by `r`. -/
def Name (F : Format) (u : Str) (s r : Str) : Prop :=
  match F.nonterminalDelimiter with
  | some (a, b) => s = a :: (u ++ b :: r) ∧ b ∉ u
  | none => s = u ++ r ∧ (∃ c cs, u = c :: cs ∧ F.isAlphabetic c = true) ∧ (∀ c ∈ u, ¬ NameStop c) ∧
      (r = [] ∨ ∃ c cs, r = c :: cs ∧ NameStop c)

/-- `s` is the quoted text `u` followed by `r`. -/
def Quoted (u : Str) (s r : Str) : Prop :=
  ∃ q, (q = '"' ∨ q = '\'') ∧ q ∉ u ∧ s = q :: (u ++ q :: r)

/-- Syntactic categories with the value they denote. -/
inductive Item where
  | term (t : ParsedTerm)
  | terms (ts : List ParsedTerm)
  | alts (as : List (List ParsedTerm))

/-- Terms, sequences of terms (alternatives) and lists of alternatives.  Layout follows every token except an opening
bracket. -/
inductive Syn (F : Format) : Item → Str → Str → Prop
  | terminal {u s s' r} : Quoted u s s' → Layout s' r → Syn F (.term (.simple (.terminal u))) s r
  | nonterminal {u s s' r} : Name F u s s' → Layout s' r → Syn F (.term (.simple (.nonterminal u))) s r
  | group {as s s' r} : Syn F (.alts as) s (')' :: s') → Layout s' r → Syn F (.term (.group as)) ('(' :: s) r
  | optional {as s s' r} : Syn F (.alts as) s (']' :: s') → Layout s' r → Syn F (.term (.optional as)) ('[' :: s) r
  | one {t s r} : Syn F (.term t) s r → Syn F (.terms [t]) s r
  | more {t ts s s' r} : Syn F (.term t) s s' → Syn F (.terms ts) s' r → Syn F (.terms (t :: ts)) s r
  | lastAlt {e s r} : Syn F (.terms e) s r → Syn F (.alts [e]) s r
  | nextAlt {e as s s1 s2 r} : Syn F (.terms e) s (F.alternativeSeparator :: s1) → Layout s1 s2 →
      Syn F (.alts as) s2 r → Syn F (.alts (e :: as)) s r

/-- Left-hand side with the production separator, possibly followed directly by the alternative separator. -/
def Lhs (F : Format) (u : Str) (s r : Str) : Prop :=
  ∃ s1 s2 s3, Name F u s s1 ∧ Layout s1 (F.productionSeparator ++ s2) ∧
    (s2 = s3 ∨ s2 = F.alternativeSeparator :: s3) ∧ Layout s3 r

/-- A production. -/
def Prod (F : Format) (p : ParsedProduction) (s r : Str) : Prop :=
  ∃ s1, Lhs F p.lhs s s1 ∧ Syn F (.alts p.rhs) s1 r

/-- One or more productions. -/
inductive Prods (F : Format) : ParsedGrammar → Str → Str → Prop
  | one {p s r} : Prod F p s r → Prods F [p] s r
  | more {p ps s s' r} : Prod F p s s' → Prods F ps s' r → Prods F (p :: ps) s r

/-- A whole grammar text. -/
def GrammarText (F : Format) (g : ParsedGrammar) (s : Str) : Prop :=
  ∃ s1, Layout s s1 ∧ Prods F g s1 []

/-- Facts about `char::is_alphabetic` that the ABNF results rely on: it is right on ASCII, and no whitespace character is
alphabetic. -/
structure AlphabeticTable (f : Char → Bool) : Prop where
  ascii : ∀ c : Char, c.toNat < 128 → f c = c.isAlpha
  space : ∀ c : Char, isWhitespace c = true → f c = false

/-- The two formats of the crate. -/
inductive Supported : Format → Prop
  | bnf : Supported BNF
  | abnf {f : Char → Bool} : AlphabeticTable f → Supported (ABNF f)

end Bnf.Spec
