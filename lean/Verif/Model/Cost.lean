import Verif.Model.Text

/-!
# How much work reading a grammar text takes

The parsers of `Model.Text` once more, each with two measures beside its result: `cost`, the number of characters it looks at (a parser that
looks whether the text has ended counts that as one more), and `depth`, how deeply calls of `parsed_term` are nested.  The results are literally those of
`Model.Text` (`Props.Cost`, `C76_same_results`).

What is not counted: allocation and copying of the texts read (each is copied once when it has been read), and the bounded number of steps
that a combinator takes for each parser that it calls.  `normalize_parsed_grammar` is not a parser; its loop is treated in `Props.Cost`.

nom 8 is not in the repository; which characters its parsers look at is taken from its source.
-/

set_option autoImplicit false

namespace Bnf

/-- A parser with its measures. -/
structure Timed (α : Type) where
  run : P α
  cost : Str → Nat
  depth : Str → Nat

namespace Timed
variable {α β γ : Type}

/-- `Ok((input, v))`. -/
def pure (v : α) : Timed α := ⟨fun s => .ok s v, fun _ => 0, fun _ => 0⟩

/-- The `?` operator followed by the rest of the function. -/
def bind (a : Timed α) (f : α → Timed β) : Timed β where
  run := fun s => (a.run s).andThen fun r v => (f v).run r
  cost := fun s => a.cost s + match a.run s with
    | .ok r v => (f v).cost r
    | _ => 0
  depth := fun s => max (a.depth s) (match a.run s with
    | .ok r v => (f v).depth r
    | _ => 0)

/-- A parser that calls no other parser. -/
def prim (run : P α) (cost : Str → Nat) : Timed α := ⟨run, cost, fun _ => 0⟩

/-- `nom::character::complete::char` looks at one character. -/
def char (c : Char) : Timed Char := prim (Nom.char c) fun _ => 1

/-- `nom::character::complete::satisfy` looks at one character. -/
def satisfy (f : Char → Bool) : Timed Char := prim (Nom.satisfy f) fun _ => 1

/-- `nom::bytes::complete::tag` looks at no more characters than the tag has. -/
def tag (t : Str) : Timed Unit := prim (Nom.tag t) fun _ => t.length

/-- `nom::bytes::complete::take_till` looks at the characters it takes and the next one. -/
def takeTill (f : Char → Bool) : Timed Str := prim (Nom.takeTill f) fun s => (s.takeWhile fun c => !f c).length + 1

/-- `nom::bytes::complete::take_until` looks at the characters before the one it searches and at that one. -/
def takeUntil (c : Char) : Timed Str := prim (Nom.takeUntil c) fun s => (s.takeWhile (· ≠ c)).length + 1

/-- `nom::combinator::eof`. -/
def eof : Timed Unit := prim Nom.eof fun _ => 1

/-- `nom::sequence::delimited`. -/
def delimited (a : Timed α) (b : Timed β) (c : Timed γ) : Timed β := bind a fun _ => bind b fun v => bind c fun _ => pure v

/-- `nom::sequence::preceded`. -/
def preceded (a : Timed α) (b : Timed β) : Timed β := bind a fun _ => b

/-- `nom::sequence::terminated`. -/
def terminated (a : Timed α) (b : Timed β) : Timed α := bind a fun v => bind b fun _ => pure v

/-- `nom::branch::alt`: the second parser is called if the first one fails. -/
def alt (a b : Timed α) : Timed α where
  run := Nom.alt a.run b.run
  cost := fun s => a.cost s + match a.run s with
    | .err => b.cost s
    | _ => 0
  depth := fun s => max (a.depth s) (match a.run s with
    | .err => b.depth s
    | _ => 0)

/-- `nom::combinator::not`. -/
def not (a : Timed α) : Timed Unit := ⟨Nom.not a.run, a.cost, a.depth⟩

/-- `nom::combinator::peek`. -/
def peek (a : Timed α) : Timed α := ⟨Nom.peek a.run, a.cost, a.depth⟩

/-- `nom::combinator::recognize`. -/
def recognize (a : Timed α) : Timed Unit := ⟨Nom.recognize a.run, a.cost, a.depth⟩

/-- `nom::combinator::opt`. -/
def opt (a : Timed α) : Timed (Option α) := ⟨Nom.opt a.run, a.cost, a.depth⟩

/-- `nom::combinator::all_consuming` looks whether the text has ended, if the parser succeeds. -/
def allConsuming (a : Timed α) : Timed α where
  run := Nom.allConsuming a.run
  cost := fun s => a.cost s + match a.run s with
    | .ok _ _ => 1
    | _ => 0
  depth := a.depth

/-- The loop of `nom::multi::many1`: what its calls of the element parser cost. -/
def manyCost (p : Timed α) : Nat → Str → Nat
  | 0, _ => 0
  | n + 1, s => p.cost s + match p.run s with
    | .ok r _ => if byteLen r = byteLen s then 0 else manyCost p n r
    | _ => 0

/-- The loop of `nom::multi::many1`: how deep its calls of the element parser go. -/
def manyDepth (p : Timed α) : Nat → Str → Nat
  | 0, _ => 0
  | n + 1, s => max (p.depth s) (match p.run s with
    | .ok r _ => if byteLen r = byteLen s then 0 else manyDepth p n r
    | _ => 0)

/-- `nom::multi::many1`. -/
def many1 (n : Nat) (p : Timed α) : Timed (List α) where
  run := Nom.many1 n p.run
  cost := fun s => p.cost s + match p.run s with
    | .ok r _ => manyCost p n r
    | _ => 0
  depth := fun s => max (p.depth s) (match p.run s with
    | .ok r _ => manyDepth p n r
    | _ => 0)

/-- `src/parsers/nom_xt.rs` 15-32: what the calls in the loop cost. -/
def xtCost (p : Timed α) (d : Timed β) : Nat → Str → Nat
  | 0, _ => 0
  | n + 1, s => p.cost s + match p.run s with
    | .ok r _ => d.cost r + (match d.run r with
      | .ok r' _ => xtCost p d n r'
      | _ => 0)
    | _ => 0

/-- `src/parsers/nom_xt.rs` 15-32: how deep the calls in the loop go. -/
def xtDepth (p : Timed α) (d : Timed β) : Nat → Str → Nat
  | 0, _ => 0
  | n + 1, s => max (p.depth s) (match p.run s with
    | .ok r _ => max (d.depth r) (match d.run r with
      | .ok r' _ => xtDepth p d n r'
      | _ => 0)
    | _ => 0)

/-- `src/parsers/nom_xt.rs` 4-35: `xt_list_with_separator`. -/
def xtList (n : Nat) (p : Timed α) (d : Timed β) : Timed (List α) := ⟨Nom.xtList n p.run d.run, xtCost p d n, xtDepth p d n⟩

/-! ## The parsers of `src/parsers/mod.rs` -/

/-- `src/parsers/mod.rs` 135-150: the loop of `whitespace_plus_comments`.  `trim_start_matches` looks at the whitespace and the next character, the
test for `;` at one character, `find` at the characters up to the end of the line. -/
def wsCost : Nat → Str → Nat
  | 0, _ => 0
  | n + 1, input =>
    let rest := input.dropWhile isWhitespace
    (input.takeWhile isWhitespace).length + 1 +
    if byteLen rest = byteLen input then
      match rest with
      | ';' :: afterSemicolon =>
        1 + ((afterSemicolon.takeWhile (fun c => !(c == '\r' || c == '\n'))).length + 1) +
        match afterSemicolon.dropWhile (fun c => !(c == '\r' || c == '\n')) with
        | [] => 0
        | c :: cs => wsCost n (c :: cs)
      | _ => 1
    else wsCost n rest

/-- `src/parsers/mod.rs` 131-151: `whitespace_plus_comments`. -/
def ws : Timed Unit := prim whitespacePlusComments fun s => wsCost (s.length + 1) s

/-- `src/parsers/mod.rs` 83-94, 267-278 and 351-362: the name of a nonterminal. -/
def nameText (F : Format) : Timed Str :=
  match F.nonterminalDelimiter with
  | some (a, b) => delimited (char a) (takeTill fun c => c == b) (char b)
  | none => ⟨fun s => (Nom.satisfy F.isAlphabetic s).andThen fun _ _ =>
        Nom.takeTill (fun c => isWhitespace c || c == ')' || c == ']') s,
      fun s => 1 + match Nom.satisfy F.isAlphabetic s with
        | .ok _ _ => (takeTill fun c => isWhitespace c || c == ')' || c == ']').cost s
        | _ => 0,
      fun _ => 0⟩

/-- `src/parsers/mod.rs` 81-99. -/
def nonterminal (F : Format) : Timed Term := bind (nameText F) fun nt => bind ws fun _ => pure (.nonterminal nt)

/-- `src/parsers/mod.rs` 101-111. -/
def prodLhs (F : Format) : Timed Term :=
  bind (nonterminal F) fun nt =>
  bind (tag F.productionSeparator) fun _ =>
  bind (opt (char F.alternativeSeparator)) fun _ =>
  bind ws fun _ => pure nt

/-- `src/parsers/mod.rs` 120-124 and 286-290. -/
def quotedText : Timed Str :=
  alt (delimited (char '"') (takeUntil '"') (char '"')) (delimited (char '\'') (takeUntil '\'') (char '\''))

/-- `src/parsers/mod.rs` 118-129. -/
def terminal : Timed Term := bind quotedText fun t => bind ws fun _ => pure (.terminal t)

/-- `src/parsers/mod.rs` 160-163. -/
def term (F : Format) : Timed Term := alt terminal (nonterminal F)

/-- `src/parsers/mod.rs` 165-171 and 297-302. -/
def expressionNext (F : Format) : Timed Unit := bind (char F.alternativeSeparator) fun _ => bind ws fun _ => pure ()

/-- `src/parsers/mod.rs` 173-179. -/
def expression (F : Format) (n : Nat) : Timed Expression :=
  bind (many1 n (terminated (term F) (not (tag F.productionSeparator)))) fun ts => pure ⟨ts⟩

/-- `src/parsers/mod.rs` 113-116. -/
def prodRhs (F : Format) (n : Nat) : Timed (List Expression) := xtList n (expression F n) (expressionNext F)

/-- `src/parsers/mod.rs` 185-195. -/
def productionEnd (F : Format) : Timed Unit :=
  match F.productionStartChar with
  | some c => alt (recognize (peek eof)) (recognize (peek (preceded ws (char c))))
  | none => alt (recognize (peek eof)) (recognize (peek (prodLhs F)))

/-- `src/parsers/mod.rs` 181-198. -/
def production (F : Format) (n : Nat) : Timed Production :=
  bind (prodLhs F) fun lhs =>
  bind (prodRhs F n) fun rhs =>
  bind (productionEnd F) fun _ => pure ⟨lhs, rhs⟩

/-- `src/parsers/mod.rs` 241-249. -/
def plainGrammar (F : Format) (n : Nat) : Timed Grammar :=
  bind ws fun _ =>
  bind (production F n) fun first =>
  bind (many1 n (preceded ws (production F n))) fun rest => pure ⟨first :: rest⟩

/-- `src/parsers/mod.rs` 266-283. -/
def parsedNonterminal (F : Format) : Timed ParsedTerm :=
  bind (nameText F) fun nt => bind ws fun _ => pure (.simple (.nonterminal nt))

/-- `src/parsers/mod.rs` 285-295. -/
def parsedTerminal : Timed ParsedTerm := bind quotedText fun t => bind ws fun _ => pure (.simple (.terminal t))

/-- `src/parsers/mod.rs` 340-348, given the parser for its terms. -/
def parsedExpressionWith (F : Format) (n : Nat) (pt : Timed ParsedTerm) : Timed ParsedExpression :=
  many1 n (terminated pt (not (tag F.productionSeparator)))

/-- `src/parsers/mod.rs` 307, 320 and 374. -/
def parsedAltsWith (F : Format) (n : Nat) (pt : Timed ParsedTerm) : Timed (List ParsedExpression) :=
  xtList n (parsedExpressionWith F n pt) (expressionNext F)

/-- `src/parsers/mod.rs` 304-315, given the parser for the terms inside. -/
def parsedAnonymousGroup (F : Format) (n : Nat) (pt : Timed ParsedTerm) : Timed ParsedTerm :=
  bind (delimited (char '(') (parsedAltsWith F n pt) (char ')')) fun rhs => bind ws fun _ => pure (.group rhs)

/-- `src/parsers/mod.rs` 317-328, given the parser for the terms inside. -/
def parsedOptionalGroup (F : Format) (n : Nat) (pt : Timed ParsedTerm) : Timed ParsedTerm :=
  bind (delimited (char '[') (parsedAltsWith F n pt) (char ']')) fun rhs => bind ws fun _ => pure (.optional rhs)

/-- One more nested call. -/
def deeper (a : Timed α) : Timed α := ⟨a.run, a.cost, fun s => a.depth s + 1⟩

/-- `src/parsers/mod.rs` 330-338. -/
def parsedTerm (F : Format) : Nat → Timed ParsedTerm
  | 0 => prim (fun _ => .fuel) fun _ => 0
  | n + 1 => deeper (alt parsedTerminal (alt (parsedNonterminal F)
      (alt (parsedAnonymousGroup F n (parsedTerm F n)) (parsedOptionalGroup F n (parsedTerm F n)))))

/-- `src/parsers/mod.rs` 350-371. -/
def parsedProdLhs (F : Format) : Timed Str :=
  bind (nameText F) fun nt =>
  bind ws fun _ =>
  bind (tag F.productionSeparator) fun _ =>
  bind (opt (char F.alternativeSeparator)) fun _ =>
  bind ws fun _ => pure nt

/-- `src/parsers/mod.rs` 373-375. -/
def parsedProdRhs (F : Format) (n : Nat) : Timed (List ParsedExpression) := parsedAltsWith F n (parsedTerm F n)

/-- `src/parsers/mod.rs` 377-384. -/
def parsedProduction (F : Format) (n : Nat) : Timed ParsedProduction :=
  bind (parsedProdLhs F) fun lhs =>
  bind (parsedProdRhs F n) fun rhs =>
  bind (alt (recognize (peek eof)) (recognize (peek (parsedProdLhs F)))) fun _ => pure ⟨lhs, rhs⟩

/-- `src/parsers/mod.rs` 386-391. -/
def parsedGrammar (F : Format) (n : Nat) : Timed ParsedGrammar :=
  bind ws fun _ => many1 n (preceded ws (parsedProduction F n))

/-- `src/parsers/mod.rs` 393-395. -/
def parsedGrammarComplete (F : Format) (n : Nat) : Timed ParsedGrammar := allConsuming (parsedGrammar F n)

/-- `str::contains` with a character: the characters up to the first occurrence. -/
def containsCost (c : Char) (s : Str) : Nat := (s.takeWhile (· ≠ c)).length + 1

/-- `src/parsers/mod.rs` 215-237: the characters read by the scan. -/
def scanCost : Bool → Bool → Str → Nat
  | _, _, [] => 1
  | inDouble, inSingle, c :: cs => 1 +
    if inDouble then scanCost (c != '"') inSingle cs
    else if inSingle then scanCost inDouble (c != '\'') cs
    else if c = '"' then scanCost true inSingle cs
    else if c = '\'' then scanCost inDouble true cs
    else if c = '(' ∨ c = '[' then 0
    else scanCost inDouble inSingle cs

/-- `src/parsers/mod.rs` 211-238: `grammar_has_extended_syntax`. -/
def hasExtendedCost (s : Str) : Nat :=
  containsCost '(' s + (if s.contains '(' then 0 else containsCost '[' s) +
    if !s.contains '(' && !s.contains '[' then 0 else scanCost false false s

/-- `src/parsers/mod.rs` 253-262: `grammar_complete`, without the normalization. -/
def grammarComplete (F : Format) : Timed Grammar where
  run := Bnf.grammarComplete F
  cost := fun s => hasExtendedCost s +
    if grammarHasExtendedSyntax s then (parsedGrammarComplete F (s.length + 1)).cost s
    else (allConsuming (plainGrammar F (s.length + 1))).cost s +
      match (allConsuming (plainGrammar F (s.length + 1))).run s with
      | .err => (parsedGrammarComplete F (s.length + 1)).cost s
      | _ => 0
  depth := fun s =>
    if grammarHasExtendedSyntax s then (parsedGrammarComplete F (s.length + 1)).depth s
    else match (allConsuming (plainGrammar F (s.length + 1))).run s with
      | .err => (parsedGrammarComplete F (s.length + 1)).depth s
      | _ => 0

/-- `src/parsers/mod.rs` 153-158: `is_format_standard_bnf`. -/
def isFormatCost (s : Str) : Nat := (preceded ws (char '<')).cost s

/-- `src/grammar.rs` 789-804: `Grammar::from_str`: the characters looked at. -/
def fromStrCost (isAlphabetic : Char → Bool) (s : Str) : Nat :=
  isFormatCost s + if isFormatStandardBnf s then (grammarComplete BNF).cost s else (grammarComplete (ABNF isAlphabetic)).cost s

/-- `src/grammar.rs` 789-804: `Grammar::from_str`: the depth of nested calls of `parsed_term`. -/
def fromStrDepth (isAlphabetic : Char → Bool) (s : Str) : Nat :=
  if isFormatStandardBnf s then (grammarComplete BNF).depth s else (grammarComplete (ABNF isAlphabetic)).depth s

end Timed
end Bnf
