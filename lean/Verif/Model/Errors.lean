import Verif.Model.Text

/-!
# Parse errors with their payload

`Model.Nom` and `Model.Text` say when parsing a text fails; here the same functions are modelled once more with what
`nom::error::Error` carries: the text at which the failing parser stood (`input`) and which parser it was (`code`).  This
payload is rendered into `Error::ParseError` (`src/error.rs` 33-37).  `Props.Errors` proves that forgetting the payload gives
the model without it.

nom 8 is not in the repository.  Facts used, from its documentation and source: a parser that fails by itself reports the
text it was called with and its own `ErrorKind`; `Error::append` keeps the inner error (`many1` passes the error of its first
element on) and `Error::or` keeps the later one (`alt` reports the error of its last alternative); `all_consuming` reports
the unread text with `Eof`; the remaining combinators pass errors on unchanged.
-/

set_option autoImplicit false

namespace Bnf.E
open Bnf

/-- The variants of `nom::error::ErrorKind` that the parsers used by the crate produce. -/
inductive Kind where
  | char | satisfy | tag | takeUntil | not | eof | many1
  deriving DecidableEq, Repr

/-- `#[derive(Debug)]` of `ErrorKind`. -/
def Kind.debug : Kind → Str
  | .char => ['C', 'h', 'a', 'r']
  | .satisfy => ['S', 'a', 't', 'i', 's', 'f', 'y']
  | .tag => ['T', 'a', 'g']
  | .takeUntil => ['T', 'a', 'k', 'e', 'U', 'n', 't', 'i', 'l']
  | .not => ['N', 'o', 't']
  | .eof => ['E', 'o', 'f']
  | .many1 => ['M', 'a', 'n', 'y', '1']

/-- `IResult<&str, α>` with the payload of `nom::Err::Error`. -/
inductive Res (α : Type) where
  | fuel
  | err (input : Str) (code : Kind)
  | ok (rest : Str) (val : α)
  deriving DecidableEq, Repr

/-- A parser. -/
abbrev P (α : Type) := Str → Res α

section Combinators
variable {α β γ : Type}

/-- Forget the payload. -/
def Res.erase : Res α → Bnf.Res α
  | .fuel => .fuel
  | .err _ _ => .err
  | .ok r v => .ok r v

/-- The `?` operator followed by the rest of the function. -/
def Res.andThen (x : Res α) (f : Str → α → Res β) : Res β :=
  match x with
  | .fuel => .fuel
  | .err i k => .err i k
  | .ok r v => f r v

/-- `nom::character::complete::char`. -/
def char (c : Char) : P Char
  | d :: r => if d = c then .ok r d else .err (d :: r) .char
  | [] => .err [] .char

/-- `nom::character::complete::satisfy`. -/
def satisfy (f : Char → Bool) : P Char
  | d :: r => if f d then .ok r d else .err (d :: r) .satisfy
  | [] => .err [] .satisfy

/-- `nom::bytes::complete::tag`: the error is at the beginning of the tag, however much of it was found. -/
def tag (t : Str) : P Unit := fun s =>
  match Nom.tag t s with
  | .ok r _ => .ok r ()
  | _ => .err s .tag

/-- `nom::bytes::complete::take_till`. -/
def takeTill (f : Char → Bool) : P Str :=
  fun s => .ok (s.dropWhile fun c => !f c) (s.takeWhile fun c => !f c)

/-- `nom::bytes::complete::take_until` for a pattern of one character. -/
def takeUntil (c : Char) : P Str :=
  fun s => if c ∈ s then .ok (s.dropWhile (· ≠ c)) (s.takeWhile (· ≠ c)) else .err s .takeUntil

/-- `nom::combinator::eof`. -/
def eof : P Unit
  | [] => .ok [] ()
  | c :: r => .err (c :: r) .eof

/-- `nom::sequence::delimited`. -/
def delimited (a : P α) (b : P β) (c : P γ) : P β := fun s =>
  (a s).andThen fun s _ => (b s).andThen fun s v => (c s).andThen fun s _ => .ok s v

/-- `nom::sequence::preceded`. -/
def preceded (a : P α) (b : P β) : P β := fun s => (a s).andThen fun s _ => b s

/-- `nom::sequence::terminated`. -/
def terminated (a : P α) (b : P β) : P α := fun s =>
  (a s).andThen fun s v => (b s).andThen fun s _ => .ok s v

/-- `nom::branch::alt` of two parsers: if both fail, the error is that of the second (`Error::or`). -/
def alt (a b : P α) : P α := fun s =>
  match a s with
  | .err _ _ => b s
  | x => x

/-- `nom::combinator::not`. -/
def not (a : P α) : P Unit := fun s =>
  match a s with
  | .ok _ _ => .err s .not
  | .err _ _ => .ok s ()
  | .fuel => .fuel

/-- `nom::combinator::peek`. -/
def peek (a : P α) : P α := fun s => (a s).andThen fun _ v => .ok s v

/-- `nom::combinator::recognize`, with the recognized text dropped. -/
def recognize (a : P α) : P Unit := fun s => (a s).andThen fun r _ => .ok r ()

/-- `nom::combinator::opt`. -/
def opt (a : P α) : P (Option α) := fun s =>
  match a s with
  | .ok r v => .ok r (some v)
  | .err _ _ => .ok s none
  | .fuel => .fuel

/-- `nom::combinator::all_consuming`. -/
def allConsuming (a : P α) : P α := fun s =>
  (a s).andThen fun r v => match r with
    | [] => .ok r v
    | c :: cs => .err (c :: cs) .eof

/-- The loop of `nom::multi::many1` after its first element. -/
def manyLoop (p : P α) : Nat → Str → List α → Res (List α)
  | 0, _, _ => .fuel
  | n + 1, s, acc =>
    match p s with
    | .fuel => .fuel
    | .err _ _ => .ok s acc
    | .ok r v => if byteLen r = byteLen s then .err s .many1 else manyLoop p n r (acc ++ [v])

/-- `nom::multi::many1`: the error of the first element is passed on (`Error::append`). -/
def many1 (n : Nat) (p : P α) : P (List α) := fun s => (p s).andThen fun r v => manyLoop p n r [v]

/-- `src/parsers/nom_xt.rs` 15-32: the loop of `xt_list_with_separator`; an error of the element parser is returned as it is (line 29). -/
def xtLoop (p : P α) (d : P β) : Nat → Str → List α → Res (List α)
  | 0, _, _ => .fuel
  | n + 1, s, acc =>
    match p s with
    | .fuel => .fuel
    | .err i k => .err i k
    | .ok r v =>
      match d r with
      | .fuel => .fuel
      | .err _ _ => .ok r (acc ++ [v])
      | .ok r' _ => xtLoop p d n r' (acc ++ [v])

/-- `src/parsers/nom_xt.rs` 4-35: `xt_list_with_separator`. -/
def xtList (n : Nat) (p : P α) (d : P β) : P (List α) := fun s => xtLoop p d n s []

end Combinators

/-! ## The parsers of `src/parsers/mod.rs` -/

/-- `src/parsers/mod.rs` 131-151: `whitespace_plus_comments`, which never fails. -/
def whitespacePlusComments : P Unit := fun s =>
  match wsLoop (s.length + 1) s with
  | some r => .ok r ()
  | none => .fuel

/-- `src/parsers/mod.rs` 83-94, 267-278 and 351-362. -/
def nameText (F : Format) : P Str := fun s =>
  match F.nonterminalDelimiter with
  | some (a, b) => delimited (char a) (takeTill fun c => c == b) (char b) s
  | none => (satisfy F.isAlphabetic s).andThen fun _ _ =>
      takeTill (fun c => isWhitespace c || c == ')' || c == ']') s

/-- `src/parsers/mod.rs` 81-99. -/
def nonterminal (F : Format) : P Term := fun s =>
  (nameText F s).andThen fun s nt => (whitespacePlusComments s).andThen fun s _ => .ok s (.nonterminal nt)

/-- `src/parsers/mod.rs` 101-111. -/
def prodLhs (F : Format) : P Term := fun s =>
  (nonterminal F s).andThen fun s nt =>
  (tag F.productionSeparator s).andThen fun s _ =>
  (opt (char F.alternativeSeparator) s).andThen fun s _ =>
  (whitespacePlusComments s).andThen fun s _ => .ok s nt

/-- `src/parsers/mod.rs` 120-124 and 286-290. -/
def quotedText : P Str :=
  alt (delimited (char '"') (takeUntil '"') (char '"')) (delimited (char '\'') (takeUntil '\'') (char '\''))

/-- `src/parsers/mod.rs` 118-129. -/
def terminal : P Term := fun s =>
  (quotedText s).andThen fun s t => (whitespacePlusComments s).andThen fun s _ => .ok s (.terminal t)

/-- `src/parsers/mod.rs` 160-163. -/
def term (F : Format) : P Term := alt terminal (nonterminal F)

/-- `src/parsers/mod.rs` 165-171 and 297-302. -/
def expressionNext (F : Format) : P Unit := fun s =>
  (char F.alternativeSeparator s).andThen fun s _ => (whitespacePlusComments s).andThen fun s _ => .ok s ()

/-- `src/parsers/mod.rs` 173-179. -/
def expression (F : Format) (n : Nat) : P Expression := fun s =>
  (many1 n (terminated (term F) (not (tag F.productionSeparator))) s).andThen fun s ts => .ok s ⟨ts⟩

/-- `src/parsers/mod.rs` 113-116. -/
def prodRhs (F : Format) (n : Nat) : P (List Expression) := xtList n (expression F n) (expressionNext F)

/-- `src/parsers/mod.rs` 185-195. -/
def productionEnd (F : Format) : P Unit := fun s =>
  match F.productionStartChar with
  | some c => alt (recognize (peek eof)) (recognize (peek (preceded whitespacePlusComments (char c)))) s
  | none => alt (recognize (peek eof)) (recognize (peek (prodLhs F))) s

/-- `src/parsers/mod.rs` 181-198. -/
def production (F : Format) (n : Nat) : P Production := fun s =>
  (prodLhs F s).andThen fun s lhs =>
  (prodRhs F n s).andThen fun s rhs =>
  (productionEnd F s).andThen fun s _ => .ok s ⟨lhs, rhs⟩

/-- `src/parsers/mod.rs` 241-249. -/
def plainGrammar (F : Format) (n : Nat) : P Grammar := fun s =>
  (whitespacePlusComments s).andThen fun s _ =>
  (production F n s).andThen fun s first =>
  (many1 n (preceded whitespacePlusComments (production F n)) s).andThen fun s rest => .ok s ⟨first :: rest⟩

/-- `src/parsers/mod.rs` 266-283. -/
def parsedNonterminal (F : Format) : P ParsedTerm := fun s =>
  (nameText F s).andThen fun s nt =>
  (whitespacePlusComments s).andThen fun s _ => .ok s (.simple (.nonterminal nt))

/-- `src/parsers/mod.rs` 285-295. -/
def parsedTerminal : P ParsedTerm := fun s =>
  (quotedText s).andThen fun s t => (whitespacePlusComments s).andThen fun s _ => .ok s (.simple (.terminal t))

/-- `src/parsers/mod.rs` 340-348, given the parser for its terms. -/
def parsedExpressionWith (F : Format) (n : Nat) (pt : P ParsedTerm) : P ParsedExpression :=
  many1 n (terminated pt (not (tag F.productionSeparator)))

/-- `src/parsers/mod.rs` 307, 320 and 374. -/
def parsedAltsWith (F : Format) (n : Nat) (pt : P ParsedTerm) : P (List ParsedExpression) :=
  xtList n (parsedExpressionWith F n pt) (expressionNext F)

/-- `src/parsers/mod.rs` 304-315, given the parser for the terms inside. -/
def parsedAnonymousGroup (F : Format) (n : Nat) (pt : P ParsedTerm) : P ParsedTerm := fun s =>
  (delimited (char '(') (parsedAltsWith F n pt) (char ')') s).andThen fun s rhs =>
  (whitespacePlusComments s).andThen fun s _ => .ok s (.group rhs)

/-- `src/parsers/mod.rs` 317-328, given the parser for the terms inside. -/
def parsedOptionalGroup (F : Format) (n : Nat) (pt : P ParsedTerm) : P ParsedTerm := fun s =>
  (delimited (char '[') (parsedAltsWith F n pt) (char ']') s).andThen fun s rhs =>
  (whitespacePlusComments s).andThen fun s _ => .ok s (.optional rhs)

/-- `src/parsers/mod.rs` 330-338. -/
def parsedTerm (F : Format) : Nat → P ParsedTerm
  | 0 => fun _ => .fuel
  | n + 1 => alt parsedTerminal (alt (parsedNonterminal F)
      (alt (parsedAnonymousGroup F n (parsedTerm F n)) (parsedOptionalGroup F n (parsedTerm F n))))

/-- `src/parsers/mod.rs` 350-371. -/
def parsedProdLhs (F : Format) : P Str := fun s =>
  (nameText F s).andThen fun s nt =>
  (whitespacePlusComments s).andThen fun s _ =>
  (tag F.productionSeparator s).andThen fun s _ =>
  (opt (char F.alternativeSeparator) s).andThen fun s _ =>
  (whitespacePlusComments s).andThen fun s _ => .ok s nt

/-- `src/parsers/mod.rs` 373-375. -/
def parsedProdRhs (F : Format) (n : Nat) : P (List ParsedExpression) := parsedAltsWith F n (parsedTerm F n)

/-- `src/parsers/mod.rs` 377-384. -/
def parsedProduction (F : Format) (n : Nat) : P ParsedProduction := fun s =>
  (parsedProdLhs F s).andThen fun s lhs =>
  (parsedProdRhs F n s).andThen fun s rhs =>
  (alt (recognize (peek eof)) (recognize (peek (parsedProdLhs F))) s).andThen fun s _ => .ok s ⟨lhs, rhs⟩

/-- `src/parsers/mod.rs` 386-391. -/
def parsedGrammar (F : Format) (n : Nat) : P ParsedGrammar := fun s =>
  (whitespacePlusComments s).andThen fun s _ =>
  many1 n (preceded whitespacePlusComments (parsedProduction F n)) s

/-- `src/parsers/mod.rs` 393-395. -/
def parsedGrammarComplete (F : Format) (n : Nat) : P ParsedGrammar := allConsuming (parsedGrammar F n)

/-- `src/parsers/mod.rs` 253-262: `grammar_complete`; the error of the plain parser is dropped (line 256). -/
def grammarComplete (F : Format) : P Grammar := fun s =>
  let n := s.length + 1
  let extended : Res Grammar :=
    (parsedGrammarComplete F n s).andThen fun s parsed =>
      match normalizeParsedGrammar parsed with
      | none => .fuel
      | some g => .ok s g
  if grammarHasExtendedSyntax s then extended
  else match allConsuming (plainGrammar F n) s with
    | .ok s g => .ok s g
    | .err _ _ => extended
    | .fuel => .fuel

/-- `src/parsers/mod.rs` 205-208: `grammar`, which leaves text that it does not read; with fuel for every text. -/
def grammar (F : Format) : P Grammar := fun s =>
  (parsedGrammar F (s.length + 1) s).andThen fun s parsed =>
    match normalizeParsedGrammar parsed with
    | none => .fuel
    | some g => .ok s g

/-! ## `src/error.rs` -/

/-- The text `Parsing error: Error(Error { input: `. -/
def messageHead : Str :=
  ['P', 'a', 'r', 's', 'i', 'n', 'g', ' ', 'e', 'r', 'r', 'o', 'r', ':', ' ', 'E', 'r', 'r', 'o', 'r', '(', 'E', 'r', 'r', 'o', 'r', ' ', '{', ' ', 'i', 'n', 'p', 'u', 't', ':', ' ']

/-- The text `, code: `. -/
def messageCode : Str := [',', ' ', 'c', 'o', 'd', 'e', ':', ' ']

/-- `src/error.rs` 33-37: `From<nom::Err<nom::error::Error<&str>>>`: the text of `Error::ParseError`, which `Display` (15-23)
prints as it is.  `{err:?}` is the derived `Debug` of `nom::Err::Error(nom::error::Error { input, code })`; `dbg` is `Debug` of `str`, a
parameter of the model. -/
def message (dbg : Str → Str) (input : Str) (code : Kind) : Str :=
  messageHead ++ dbg input ++ messageCode ++ code.debug ++ [' ', '}', ')']

/-- `src/error.rs` 27-31: `From<nom::error::Error<&str>>`, which the crate itself does not use. -/
def messagePlain (dbg : Str → Str) (input : Str) (code : Kind) : Str :=
  ['P', 'a', 'r', 's', 'i', 'n', 'g', ' ', 'e', 'r', 'r', 'o', 'r', ':', ' ', 'E', 'r', 'r', 'o', 'r', ' ', '{', ' ', 'i', 'n', 'p', 'u', 't', ':', ' '] ++
    dbg input ++ messageCode ++ code.debug ++ [' ', '}']

/-- `src/error.rs` 39-44: `From<(&str, ErrorKind)>`, which the crate itself does not use: first the kind, on the next line the text. -/
def messagePair (dbg : Str → Str) (input : Str) (code : Kind) : Str :=
  ['P', 'a', 'r', 's', 'i', 'n', 'g', ' ', 'e', 'r', 'r', 'o', 'r', ':', ' '] ++ code.debug ++ ['\n', ' '] ++ dbg input

/-- `match … { Ok((_, o)) => Ok(o), Err(e) => Err(Error::from(e)) }`, as in `src/grammar.rs` 335-338; the error is the text of
`Error::ParseError`. -/
def Res.toResult {α : Type} (dbg : Str → Str) : Res α → Option (Except Str α)
  | .ok _ v => some (.ok v)
  | .err i k => some (.error (message dbg i k))
  | .fuel => none

/-- `src/grammar.rs` 333-339: `Grammar::parse_from`. -/
def parseFrom (dbg : Str → Str) (F : Format) (s : Str) : Option (Except Str Grammar) := (grammarComplete F s).toResult dbg

/-- `src/grammar.rs` 789-804: `Grammar::from_str` with the default feature `ABNF`. -/
def fromStr (dbg : Str → Str) (isAlphabetic : Char → Bool) (s : Str) : Option (Except Str Grammar) :=
  if isFormatStandardBnf s then (grammarComplete BNF s).toResult dbg
  else (grammarComplete (ABNF isAlphabetic) s).toResult dbg

/-- `src/term.rs` 49-57. -/
def termFromStr (dbg : Str → Str) (s : Str) : Option (Except Str Term) := (allConsuming (term BNF) s).toResult dbg

/-- `src/expression.rs` 142-151. -/
def expressionFromStr (dbg : Str → Str) (s : Str) : Option (Except Str Expression) :=
  (allConsuming (expression BNF (s.length + 1)) s).toResult dbg

/-- `src/production.rs` 117-125. -/
def productionFromStr (dbg : Str → Str) (s : Str) : Option (Except Str Production) :=
  (allConsuming (production BNF (s.length + 1)) s).toResult dbg

end Bnf.E
