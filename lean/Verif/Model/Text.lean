import Verif.Model.Nom

/-!
# The grammar text parser (`src/parsers/`), `FromStr` and `Display`

Function by function.  Tracing spans are left out.  Nesting of groups is recursion in the code (`parsed_term` calls
`parsed_expression` and back); here the recursion takes fuel.
-/

namespace Bnf

/-- Rust `char::is_whitespace`: the Unicode property White_Space. -/
def isWhitespace (c : Char) : Bool :=
  c.val ∈ [0x9, 0xA, 0xB, 0xC, 0xD, 0x20, 0x85, 0xA0, 0x1680, 0x2000, 0x2001, 0x2002, 0x2003, 0x2004, 0x2005, 0x2006,
    0x2007, 0x2008, 0x2009, 0x200A, 0x2028, 0x2029, 0x202F, 0x205F, 0x3000]

/-- `src/parsers/mod.rs` 69-79: `trait Format`, a record of the values its functions return.  `isAlphabetic` is Rust's
`char::is_alphabetic` (the Unicode property Alphabetic, a table of the standard library), a parameter of the model. -/
structure Format where
  nonterminalDelimiter : Option (Char × Char)
  productionSeparator : Str
  alternativeSeparator : Char
  productionStartChar : Option Char
  isAlphabetic : Char → Bool

/-- `src/parsers/bnf.rs` 6-19.  BNF does not use `is_alphabetic`. -/
def BNF : Format where
  nonterminalDelimiter := some ('<', '>')
  productionSeparator := [':', ':', '=']
  alternativeSeparator := '|'
  productionStartChar := some '<'
  isAlphabetic := fun _ => false

/-- `src/parsers/augmented.rs` 6-16. -/
def ABNF (isAlphabetic : Char → Bool) : Format where
  nonterminalDelimiter := none
  productionSeparator := ['=']
  alternativeSeparator := '/'
  productionStartChar := none
  isAlphabetic := isAlphabetic

/-- `src/parsers/mod.rs` 30-45: `enum ParsedTerm` and `enum ParsedExpression` (one constructor with a list of terms, inlined
here as that list). -/
inductive ParsedTerm where
  | simple (t : Term)
  | group (alts : List (List ParsedTerm))
  | optional (alts : List (List ParsedTerm))
  deriving Repr

/-- `src/parsers/mod.rs` 40-45. -/
abbrev ParsedExpression := List ParsedTerm

/-- `src/parsers/mod.rs` 47-55. -/
structure ParsedProduction where
  lhs : Str
  rhs : List ParsedExpression
  deriving Repr

/-- `src/parsers/mod.rs` 57-67. -/
abbrev ParsedGrammar := List ParsedProduction

/-! ## Layout -/

/-- `src/parsers/mod.rs` 135-150: the loop of `whitespace_plus_comments`.  `find` and slicing at the found position is
`dropWhile`. `none`: out of fuel. -/
def wsLoop : Nat → Str → Option Str
  | 0, _ => none
  | n + 1, input =>
    let rest := input.dropWhile isWhitespace
    if byteLen rest = byteLen input then
      match rest with
      | ';' :: afterSemicolon =>
        match afterSemicolon.dropWhile (fun c => !(c == '\r' || c == '\n')) with
        | [] => some []
        | c :: cs => wsLoop n (c :: cs)
      | _ => some input
    else wsLoop n rest

/-- `src/parsers/mod.rs` 131-151: `whitespace_plus_comments`. -/
def whitespacePlusComments : P Unit := fun s =>
  match wsLoop (s.length + 1) s with
  | some r => .ok r ()
  | none => .fuel

/-! ## Plain parser -/

open Nom

/-- `src/parsers/mod.rs` 83-94, 267-278 and 351-362 (the same code three times): the name of a nonterminal.  In the form
without delimiters the result of `satisfy` is dropped, the name is read from the same position. -/
def nameText (F : Format) : P Str := fun s =>
  match F.nonterminalDelimiter with
  | some (a, b) => delimited (char a) (takeTill fun c => c == b) (char b) s
  | none => (satisfy F.isAlphabetic s).andThen fun _ _ =>
      takeTill (fun c => isWhitespace c || c == ')' || c == ']') s

/-- `src/parsers/mod.rs` 81-99. -/
def nonterminal (F : Format) : P Term := fun s =>
  (nameText F s).andThen fun s nt => (whitespacePlusComments s).andThen fun s _ => .ok s (.nonterminal nt)

/-- `src/parsers/mod.rs` 101-111. -/
def prodLhs (F : Format) : P Term := fun s =>
  (nonterminal F s).andThen fun s nt =>
  (tag F.productionSeparator s).andThen fun s _ =>
  (opt (char F.alternativeSeparator) s).andThen fun s _ =>
  (whitespacePlusComments s).andThen fun s _ => .ok s nt

/-- `src/parsers/mod.rs` 120-124 and 286-290: the quoted text. -/
def quotedText : P Str :=
  alt (delimited (char '"') (takeUntil '"') (char '"')) (delimited (char '\'') (takeUntil '\'') (char '\''))

/-- `src/parsers/mod.rs` 118-129. -/
def terminal : P Term := fun s =>
  (quotedText s).andThen fun s t => (whitespacePlusComments s).andThen fun s _ => .ok s (.terminal t)

/-- `src/parsers/mod.rs` 160-163. -/
def term (F : Format) : P Term := alt terminal (nonterminal F)

/-- `src/parsers/mod.rs` 165-171 and 297-302. -/
def expressionNext (F : Format) : P Unit := fun s =>
  (char F.alternativeSeparator s).andThen fun s _ => (whitespacePlusComments s).andThen fun s _ => .ok s ()

/-- `src/parsers/mod.rs` 173-179. -/
def expression (F : Format) (n : Nat) : P Expression := fun s =>
  (many1 n (terminated (term F) (not (tag F.productionSeparator))) s).andThen fun s ts => .ok s ⟨ts⟩

/-- `src/parsers/mod.rs` 113-116. -/
def prodRhs (F : Format) (n : Nat) : P (List Expression) := xtList n (expression F n) (expressionNext F)

/-- `src/parsers/mod.rs` 185-195: the lookahead at the end of a production. -/
def productionEnd (F : Format) : P Unit := fun s =>
  match F.productionStartChar with
  | some c => alt (recognize (peek eof)) (recognize (peek (preceded whitespacePlusComments (char c)))) s
  | none => alt (recognize (peek eof)) (recognize (peek (prodLhs F))) s

/-- `src/parsers/mod.rs` 181-198. -/
def production (F : Format) (n : Nat) : P Production := fun s =>
  (prodLhs F s).andThen fun s lhs =>
  (prodRhs F n s).andThen fun s rhs =>
  (productionEnd F s).andThen fun s _ => .ok s ⟨lhs, rhs⟩

/-- `src/parsers/mod.rs` 241-249. -/
def plainGrammar (F : Format) (n : Nat) : P Grammar := fun s =>
  (whitespacePlusComments s).andThen fun s _ =>
  (production F n s).andThen fun s first =>
  (many1 n (preceded whitespacePlusComments (production F n)) s).andThen fun s rest => .ok s ⟨first :: rest⟩

/-- `src/parsers/mod.rs` 153-158. -/
def isFormatStandardBnf (s : Str) : Bool :=
  match (whitespacePlusComments s).andThen fun s _ => char '<' s with
  | .ok _ _ => true
  | _ => false

/-- `src/parsers/mod.rs` 215-237: the scan of `grammar_has_extended_syntax`. -/
def extendedScan : Bool → Bool → Str → Bool
  | _, _, [] => false
  | inDouble, inSingle, c :: cs =>
    if inDouble then extendedScan (c != '"') inSingle cs
    else if inSingle then extendedScan inDouble (c != '\'') cs
    else if c = '"' then extendedScan true inSingle cs
    else if c = '\'' then extendedScan inDouble true cs
    else if c = '(' ∨ c = '[' then true
    else extendedScan inDouble inSingle cs

/-- `src/parsers/mod.rs` 211-238. -/
def grammarHasExtendedSyntax (s : Str) : Bool :=
  if !s.contains '(' && !s.contains '[' then false else extendedScan false false s

/-! ## Extended parser -/

/-- `src/parsers/mod.rs` 266-283. -/
def parsedNonterminal (F : Format) : P ParsedTerm := fun s =>
  (nameText F s).andThen fun s nt =>
  (whitespacePlusComments s).andThen fun s _ => .ok s (.simple (.nonterminal nt))

/-- `src/parsers/mod.rs` 285-295. -/
def parsedTerminal : P ParsedTerm := fun s =>
  (quotedText s).andThen fun s t => (whitespacePlusComments s).andThen fun s _ => .ok s (.simple (.terminal t))

/-- `src/parsers/mod.rs` 340-348: `parsed_expression`, given the parser for its terms. -/
def parsedExpressionWith (F : Format) (n : Nat) (pt : P ParsedTerm) : P ParsedExpression :=
  many1 n (terminated pt (not (tag F.productionSeparator)))

/-- `src/parsers/mod.rs` 307, 320 and 374: the list of alternatives. -/
def parsedAltsWith (F : Format) (n : Nat) (pt : P ParsedTerm) : P (List ParsedExpression) :=
  xtList n (parsedExpressionWith F n pt) (expressionNext F)

/-- `src/parsers/mod.rs` 304-315, given the parser for the terms inside. -/
def parsedAnonymousGroup (F : Format) (n : Nat) (pt : P ParsedTerm) : P ParsedTerm := fun s =>
  (delimited (char '(') (parsedAltsWith F n pt) (char ')') s).andThen fun s rhs =>
  (whitespacePlusComments s).andThen fun s _ => .ok s (.group rhs)

/-- `src/parsers/mod.rs` 317-328, given the parser for the terms inside. -/
def parsedOptionalGroup (F : Format) (n : Nat) (pt : P ParsedTerm) : P ParsedTerm := fun s =>
  (delimited (char '[') (parsedAltsWith F n pt) (char ']') s).andThen fun s rhs =>
  (whitespacePlusComments s).andThen fun s _ => .ok s (.optional rhs)

/-- `src/parsers/mod.rs` 330-338. -/
def parsedTerm (F : Format) : Nat → P ParsedTerm
  | 0 => fun _ => .fuel
  | n + 1 => alt parsedTerminal (alt (parsedNonterminal F)
      (alt (parsedAnonymousGroup F n (parsedTerm F n)) (parsedOptionalGroup F n (parsedTerm F n))))

/-- `src/parsers/mod.rs` 340-348. -/
def parsedExpression (F : Format) (n : Nat) : P ParsedExpression := parsedExpressionWith F n (parsedTerm F n)

/-- `src/parsers/mod.rs` 350-371. -/
def parsedProdLhs (F : Format) : P Str := fun s =>
  (nameText F s).andThen fun s nt =>
  (whitespacePlusComments s).andThen fun s _ =>
  (tag F.productionSeparator s).andThen fun s _ =>
  (opt (char F.alternativeSeparator) s).andThen fun s _ =>
  (whitespacePlusComments s).andThen fun s _ => .ok s nt

/-- `src/parsers/mod.rs` 373-375. -/
def parsedProdRhs (F : Format) (n : Nat) : P (List ParsedExpression) := parsedAltsWith F n (parsedTerm F n)

/-- `src/parsers/mod.rs` 377-384. -/
def parsedProduction (F : Format) (n : Nat) : P ParsedProduction := fun s =>
  (parsedProdLhs F s).andThen fun s lhs =>
  (parsedProdRhs F n s).andThen fun s rhs =>
  (alt (recognize (peek eof)) (recognize (peek (parsedProdLhs F))) s).andThen fun s _ => .ok s ⟨lhs, rhs⟩

/-- `src/parsers/mod.rs` 386-391. -/
def parsedGrammar (F : Format) (n : Nat) : P ParsedGrammar := fun s =>
  (whitespacePlusComments s).andThen fun s _ =>
  many1 n (preceded whitespacePlusComments (parsedProduction F n)) s

/-- `src/parsers/mod.rs` 393-395. -/
def parsedGrammarComplete (F : Format) (n : Nat) : P ParsedGrammar := allConsuming (parsedGrammar F n)

/-! ## Normalization -/

/-- `format!("{}", n)` for `usize`: the decimal digits. -/
def decimal (n : Nat) : Str := Nat.toDigits 10 n

/-- `src/parsers/mod.rs` 414: `format!("__anon{}", counter)`. -/
def anonName (n : Nat) : Str := ['_', '_', 'a', 'n', 'o', 'n'] ++ decimal n

/-- The variables that `normalize_parsed_grammar` threads through by `&mut`: `used_names` (only asked for membership), `counter` and
`anon_prods`. -/
structure NormState where
  used : List Str
  counter : Nat
  anon : List Production

/-- `src/parsers/mod.rs` 413-420: the loop of `fresh_anon_name`, with the number of candidates that may be tried as fuel.
The counter is a `usize`: C112 shows that it does not overflow. -/
def freshLoop (used : List Str) : Nat → Nat → Option (Str × Nat)
  | 0, _ => none
  | n + 1, counter =>
    let candidate := anonName counter
    if candidate ∈ used then freshLoop used n (counter + 1) else some (candidate, counter + 1)

/-- `src/parsers/mod.rs` 412-421.  `used` is finite, so one of the first `used.length + 1` candidates is free (proved); `none`
would mean that the loop runs longer. -/
def freshAnonName (st : NormState) : Option (Str × NormState) :=
  match freshLoop st.used (st.used.length + 1) st.counter with
  | none => none
  | some (nm, c) => some (nm, { st with used := nm :: st.used, counter := c })

/-- The expression `''`: `src/parsers/mod.rs` 453 and 468. -/
def emptyAlt : Expression := ⟨[.terminal []]⟩

mutual

/-- `src/parsers/mod.rs` 437-476: `lower_term`. -/
def lowerTerm : ParsedTerm → NormState → Option (Term × NormState)
  | .simple t, st => some (t, st)
  | .group exprs, st =>
    match freshAnonName st with
    | none => none
    | some (name, st) =>
      match lowerAlts exprs st with
      | none => none
      | some (rhs, st) =>
        let rhs := if rhs.isEmpty then [emptyAlt] else rhs
        some (.nonterminal name, { st with anon := st.anon ++ [⟨.nonterminal name, rhs⟩] })
  | .optional exprs, st =>
    match freshAnonName st with
    | none => none
    | some (name, st) =>
      match lowerAlts exprs st with
      | none => none
      | some (rhs, st) =>
        some (.nonterminal name, { st with anon := st.anon ++ [⟨.nonterminal name, rhs ++ [emptyAlt]⟩] })

/-- `src/parsers/mod.rs` 430-433: the `map` of `lower_expression` over its terms, from left to right. -/
def lowerTerms : List ParsedTerm → NormState → Option (List Term × NormState)
  | [], st => some ([], st)
  | t :: ts, st =>
    match lowerTerm t st with
    | none => none
    | some (t', st) =>
      match lowerTerms ts st with
      | none => none
      | some (ts', st) => some (t' :: ts', st)

/-- `src/parsers/mod.rs` 447-450, 463-466 and 483-486: the `map` of `lower_expression` (423-435) over alternatives. -/
def lowerAlts : List (List ParsedTerm) → NormState → Option (List Expression × NormState)
  | [], st => some ([], st)
  | e :: es, st =>
    match lowerTerms e st with
    | none => none
    | some (e', st) =>
      match lowerAlts es st with
      | none => none
      | some (es', st) => some (⟨e'⟩ :: es', st)

end

/-- `src/parsers/mod.rs` 480-488: the loop over the productions. -/
def lowerProds : ParsedGrammar → NormState → Option (List Production × NormState)
  | [], st => some ([], st)
  | p :: ps, st =>
    match lowerAlts p.rhs st with
    | none => none
    | some (rhs, st) =>
      match lowerProds ps st with
      | none => none
      | some (ps', st) => some (⟨.nonterminal p.lhs, rhs⟩ :: ps', st)

/-- `src/parsers/mod.rs` 401-492: `normalize_parsed_grammar`. -/
def normalizeParsedGrammar (g : ParsedGrammar) : Option Grammar :=
  match lowerProds g ⟨g.map (·.lhs), 0, []⟩ with
  | none => none
  | some (out, st) => some ⟨out ++ st.anon⟩

/-! ## Entry points -/

/-- `src/parsers/mod.rs` 253-262: `grammar_complete`, with fuel `n`. -/
def grammarCompleteFuel (F : Format) (n : Nat) : P Grammar := fun s =>
  let extended : Res Grammar :=
    (parsedGrammarComplete F n s).andThen fun s parsed =>
      match normalizeParsedGrammar parsed with
      | none => .fuel
      | some g => .ok s g
  if grammarHasExtendedSyntax s then extended
  else match allConsuming (plainGrammar F n) s with
    | .ok s g => .ok s g
    | .err => extended
    | .fuel => .fuel

/-- `src/parsers/mod.rs` 253-262: `grammar_complete`; the fuel is proved to suffice. -/
def grammarComplete (F : Format) : P Grammar := fun s => grammarCompleteFuel F (s.length + 1) s

/-- `match … { Ok((_, o)) => Ok(o), Err(e) => Err(Error::from(e)) }`, as in `src/grammar.rs` 335-338.  Out of fuel
(which is proved not to happen) is `none`. -/
def Res.toResult {α : Type} : Res α → Option (Except Error α)
  | .ok _ v => some (.ok v)
  | .err => some (.error .parseError)
  | .fuel => none

/-- `src/grammar.rs` 333-339: `Grammar::parse_from`. -/
def Grammar.parseFrom (F : Format) (s : Str) : Option (Except Error Grammar) := (grammarComplete F s).toResult

/-- `src/grammar.rs` 789-804: `Grammar::from_str` with the default feature `ABNF`. -/
def Grammar.fromStr (isAlphabetic : Char → Bool) (s : Str) : Option (Except Error Grammar) :=
  if isFormatStandardBnf s then (grammarComplete BNF s).toResult
  else (grammarComplete (ABNF isAlphabetic) s).toResult

/-- `src/term.rs` 49-57. -/
def Term.fromStr (s : Str) : Option (Except Error Term) := (allConsuming (term BNF) s).toResult

/-- `src/expression.rs` 142-151. -/
def Expression.fromStr (s : Str) : Option (Except Error Expression) :=
  (allConsuming (expression BNF (s.length + 1)) s).toResult

/-- `src/production.rs` 117-125. -/
def Production.fromStr (s : Str) : Option (Except Error Production) :=
  (allConsuming (production BNF (s.length + 1)) s).toResult

/-! ## Display -/

/-- `src/term.rs` 87-100. -/
def Term.display : Term → Str
  | .terminal s => if s.contains '\'' then ['"'] ++ s ++ ['"'] else ['\''] ++ s ++ ['\'']
  | .nonterminal s => ['<'] ++ s ++ ['>']

/-- `[T]::join`. -/
def join (sep : Str) : List Str → Str
  | [] => []
  | [x] => x
  | x :: y :: l => x ++ sep ++ join sep (y :: l)

/-- `src/expression.rs` 129-140. -/
def Expression.display (e : Expression) : Str := join [' '] (e.terms.map Term.display)

/-- `src/production.rs` 102-115. -/
def Production.display (p : Production) : Str :=
  p.lhs.display ++ [' ', ':', ':', '=', ' '] ++ join [' ', '|', ' '] (p.rhs.map Expression.display)

/-- `src/grammar.rs` 775-787 (`writeln!` appends a newline). -/
def Grammar.display (g : Grammar) : Str := join ['\n'] (g.productions.map Production.display) ++ ['\n']

end Bnf
