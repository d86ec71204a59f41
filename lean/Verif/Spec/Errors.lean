import Verif.Model.Errors
import Verif.Spec.Syntax

/-!
# Where a rejected grammar text is faulted

For every rejected text, the position (given as the text from there on) and the kind of error that is reported, in terms of the
concrete syntax of `Spec.Syntax`, not of the parser.
-/

set_option autoImplicit false

namespace Bnf.Spec
open Bnf

/-- No layout comes first. -/
def Settled (s : Str) : Prop := ∀ r, Layout s r → r = s

/-- The text does not begin with `u`. -/
def Lacks (u s : Str) : Prop := ∀ r, s ≠ u ++ r

/-- No list of alternatives goes on at `r`: neither an alternative separator nor a term comes next, unless that term is
the name of the next production (the production separator follows it). -/
structure Stop (F : Format) (r : Str) : Prop where
  settled : Settled r
  noAlternative : Lacks [F.alternativeSeparator] r
  noSeparator : Lacks F.productionSeparator r
  noTerm : ∀ t r', Syn F (.term t) r r' → Settled r' → ¬ Lacks F.productionSeparator r'

/-- A list of alternatives that should begin at `s` is faulted at `i`. -/
inductive AltsFault (F : Format) : Str → Str → E.Kind → Prop
  /-- no term at all, not even the beginning of an optional: `Char` (the last thing tried is `[`).  This is also what
  becomes of an unclosed quote and of anything wrong inside `(…)`. -/
  | noTerm {s} : (∀ t r, ¬ Syn F (.term t) s r) → Lacks ['['] s → AltsFault F s s .char
  /-- a fault inside `[…]` -/
  | inside {s i k} : AltsFault F s i k → AltsFault F ('[' :: s) i k
  /-- no `]` -/
  | unclosed {s as r} : Syn F (.alts as) s r → Stop F r → Lacks [']'] r → AltsFault F ('[' :: s) r .char
  /-- the only term is followed by a production separator -/
  | separator {s t r} : Syn F (.term t) s (F.productionSeparator ++ r) → AltsFault F s (F.productionSeparator ++ r) .not
  /-- a later alternative -/
  | later {e s s1 s2 i k} : Syn F (.terms e) s (F.alternativeSeparator :: s1) → Layout s1 s2 → Settled s2 →
      AltsFault F s2 i k → AltsFault F s i k

/-- The name of a nonterminal that should begin at `s` is faulted at `i`. -/
def NameFault (F : Format) (s i : Str) (k : E.Kind) : Prop :=
  match F.nonterminalDelimiter with
  | some (a, b) => (Lacks [a] s ∧ i = s ∧ k = .char) ∨ (∃ r, s = a :: r ∧ b ∉ r ∧ i = [] ∧ k = .char)
  | none => (∀ c r, s = c :: r → F.isAlphabetic c = false) ∧ i = s ∧ k = .satisfy

/-- The left-hand side with the production separator. -/
def LhsFault (F : Format) (s i : Str) (k : E.Kind) : Prop :=
  NameFault F s i k ∨ ∃ u r, Name F u s r ∧ Layout r i ∧ Settled i ∧ Lacks F.productionSeparator i ∧ k = .tag

/-- `Lhs`, where an alternative separator directly behind the production separator is always part of it and no layout is
left. -/
def WholeLhs (F : Format) (u : Str) (s r : Str) : Prop :=
  ∃ s1 s2 s3, Name F u s s1 ∧ Layout s1 (F.productionSeparator ++ s2) ∧
    ((s2 = s3 ∧ Lacks [F.alternativeSeparator] s2) ∨ s2 = F.alternativeSeparator :: s3) ∧ Layout s3 r ∧ Settled r

/-- A production which the end of the text or the beginning of a production follows. -/
def WholeProd (F : Format) (p : ParsedProduction) (s r : Str) : Prop :=
  Prod F p s r ∧ (r = [] ∨ ∃ u r', Lhs F u r r')

/-- One or more of them. -/
inductive WholeProds (F : Format) : ParsedGrammar → Str → Str → Prop
  | one {p s r} : WholeProd F p s r → WholeProds F [p] s r
  | more {p ps s s' r} : WholeProd F p s s' → WholeProds F ps s' r → WholeProds F (p :: ps) s r

/-- A production that should begin at `s` is faulted at `i`: in its left-hand side, in its right-hand side, or behind it, where
neither the text ends nor the next production begins. -/
def ProdFault (F : Format) (s i : Str) (k : E.Kind) : Prop :=
  LhsFault F s i k ∨
  (∃ u r, WholeLhs F u s r ∧ AltsFault F r i k) ∨
  (∃ u r as r', WholeLhs F u s r ∧ Syn F (.alts as) r r' ∧ Stop F r' ∧ r' ≠ [] ∧ LhsFault F r' i k)

/-- A text is faulted at `i`: in its first production, or, if that is in order, at the beginning of the first
production that is not. -/
def TextFault (F : Format) (s i : Str) (k : E.Kind) : Prop :=
  ∃ s1, Layout s s1 ∧ Settled s1 ∧
    (ProdFault F s1 i k ∨ ∃ ps, WholeProds F ps s1 i ∧ i ≠ [] ∧ (∀ p r, ¬ WholeProd F p i r) ∧ k = .eof)

/-! ## `Expression::from_str` and `Production::from_str`, which know no brackets -/

/-- An alternative without brackets. -/
def PlainTerms (F : Format) (e : Expression) (s r : Str) : Prop := Syn F (.terms (e.terms.map .simple)) s r

/-- A list of alternatives without brackets. -/
def PlainAlts (F : Format) (es : List Expression) (s r : Str) : Prop :=
  Syn F (.alts (es.map fun e => e.terms.map .simple)) s r

/-- No alternative without brackets goes on at `r`. -/
structure PlainStop (F : Format) (r : Str) : Prop where
  settled : Settled r
  noSeparator : Lacks F.productionSeparator r
  noTerm : ∀ t r', Syn F (.term (.simple t)) r r' → Settled r' → ¬ Lacks F.productionSeparator r'

/-- An alternative without brackets that should begin at `s` is faulted at `i`: there is neither a quoted text nor a name,
which is reported as a fault of the name (an unclosed quote at the quote), or the only term is followed by a production
separator. -/
def PlainTermsFault (F : Format) (s i : Str) (k : E.Kind) : Prop :=
  ((∀ u r, ¬ Quoted u s r) ∧ NameFault F s i k) ∨
  ∃ t r, Syn F (.term (.simple t)) s i ∧ i = F.productionSeparator ++ r ∧ k = .not

/-- The same for a list of alternatives: the first faulted one. -/
inductive PlainAltsFault (F : Format) : Str → Str → E.Kind → Prop
  | here {s i k} : PlainTermsFault F s i k → PlainAltsFault F s i k
  | later {e s s1 s2 i k} : PlainTerms F e s (F.alternativeSeparator :: s1) → Layout s1 s2 → Settled s2 →
      PlainAltsFault F s2 i k → PlainAltsFault F s i k

/-- The fault of a text that should be an expression: in its first term, or behind the longest expression at its
beginning. -/
def ExpressionFault (F : Format) (s i : Str) (k : E.Kind) : Prop :=
  PlainTermsFault F s i k ∨ ∃ e, PlainTerms F e s i ∧ PlainStop F i ∧ i ≠ [] ∧ k = .eof

/-- The fault of a text that should be a single production: in its left-hand side, in its right-hand side, or behind it; there
it is `Eof` if the next production could begin (`<`), otherwise `Char`. -/
def ProductionFault (s i : Str) (k : E.Kind) : Prop :=
  LhsFault BNF s i k ∨
  (∃ u r, WholeLhs BNF u s r ∧ PlainAltsFault BNF r i k) ∨
  (∃ u r es, WholeLhs BNF u s r ∧ PlainAlts BNF es r i ∧ PlainStop BNF i ∧ Lacks ['|'] i ∧ i ≠ [] ∧
    ((Lacks ['<'] i ∧ k = .char) ∨ (¬ Lacks ['<'] i ∧ k = .eof)))

/-! ## The texts of the messages -/

/-- The name of a kind. -/
def kindName : E.Kind → String
  | .char => "Char"
  | .satisfy => "Satisfy"
  | .tag => "Tag"
  | .takeUntil => "TakeUntil"
  | .not => "Not"
  | .eof => "Eof"
  | .many1 => "Many1"

/-- `m` is the message of the conversion that `parse_from` and `from_str` use; `text` is the faulted text as printed by `{:?}`. -/
def MessageOf (text : Str) (k : E.Kind) (m : Str) : Prop :=
  ∃ a b c d, a = "Parsing error: Error(Error { input: ".toList ∧ b = ", code: ".toList ∧ c = (kindName k).toList ∧
    d = " })".toList ∧ m = a ++ text ++ b ++ c ++ d

/-- The same for the conversion of a bare `nom::error::Error`. -/
def MessageOfPlain (text : Str) (k : E.Kind) (m : Str) : Prop :=
  ∃ a b c d, a = "Parsing error: Error { input: ".toList ∧ b = ", code: ".toList ∧ c = (kindName k).toList ∧
    d = " }".toList ∧ m = a ++ text ++ b ++ c ++ d

/-- The same for the conversion of a pair. -/
def MessageOfPair (text : Str) (k : E.Kind) (m : Str) : Prop :=
  ∃ a b c, a = "Parsing error: ".toList ∧ b = (kindName k).toList ∧ c = "\n ".toList ∧ m = a ++ b ++ c ++ text

end Bnf.Spec
