import Verif.Model.Basic

/-!
# Serialization: the derived `Serialize` and `Deserialize`, with `serde_json`

The crate only derives the two traits (feature `serde`, on by default); what the derived code does is taken from the documentation of `serde`, and
the JSON format from that of `serde_json`, the format the crate's own feature brings along.  Deserialization is modelled in two steps, reading a JSON value and
converting it; `serde_json` does both at once, which only matters for the text of errors (not modelled).
-/

set_option autoImplicit false

namespace Bnf

/-- JSON values.  Objects are lists of members in the order of the text, with repetitions.  The value of a number is left out: numbers
are accepted only where they are ignored. -/
inductive Json where
  | null
  | bool (b : Bool)
  | num
  | str (s : Str)
  | arr (l : List Json)
  | obj (l : List (Str × Json))

/-! ## `Serialize` -/

/-- `src/term.rs` 21-28: a newtype variant is an object with the name of the variant as its only key. -/
def Term.toJson : Term → Json
  | .terminal s => .obj [(['T', 'e', 'r', 'm', 'i', 'n', 'a', 'l'], .str s)]
  | .nonterminal s => .obj [(['N', 'o', 'n', 't', 'e', 'r', 'm', 'i', 'n', 'a', 'l'], .str s)]

/-- `src/expression.rs` 14-18: a struct is an object with its fields. -/
def Expression.toJson (e : Expression) : Json := .obj [(['t', 'e', 'r', 'm', 's'], .arr (e.terms.map Term.toJson))]

/-- `src/production.rs` 17-23. -/
def Production.toJson (p : Production) : Json :=
  .obj [(['l', 'h', 's'], p.lhs.toJson), (['r', 'h', 's'], .arr (p.rhs.map Expression.toJson))]

/-- `src/grammar.rs` 312-316. -/
def Grammar.toJson (g : Grammar) : Json :=
  .obj [(['p', 'r', 'o', 'd', 'u', 'c', 't', 'i', 'o', 'n', 's'], .arr (g.productions.map Production.toJson))]

/-- Lower case hexadecimal digits, as `serde_json` writes them. -/
def hexDigit (n : Nat) : Char := if n < 10 then Char.ofNat (48 + n) else Char.ofNat (87 + n)

/-- `serde_json`'s `format_escaped_str`: quotes, backslashes and control characters are escaped. -/
def escapeChar (c : Char) : Str :=
  if c = '"' then ['\\', '"']
  else if c = '\\' then ['\\', '\\']
  else if c = Char.ofNat 8 then ['\\', 'b']
  else if c = Char.ofNat 12 then ['\\', 'f']
  else if c = '\n' then ['\\', 'n']
  else if c = '\r' then ['\\', 'r']
  else if c = '\t' then ['\\', 't']
  else if c.toNat < 32 then ['\\', 'u', '0', '0', hexDigit (c.toNat / 16), hexDigit (c.toNat % 16)]
  else [c]

/-- A string in quotes. -/
def jsonString (s : Str) : Str := '"' :: s.flatMap escapeChar ++ ['"']

mutual
/-- `serde_json::to_string` of a value (`CompactFormatter`).  Numbers do not occur in serialized grammars. -/
def Json.compact : Json → Str
  | .null => ['n', 'u', 'l', 'l']
  | .bool true => ['t', 'r', 'u', 'e']
  | .bool false => ['f', 'a', 'l', 's', 'e']
  | .num => ['0']
  | .str s => jsonString s
  | .arr l => '[' :: compactElements l ++ [']']
  | .obj l => '{' :: compactMembers l ++ ['}']
/-- Elements with commas between them. -/
def compactElements : List Json → Str
  | [] => []
  | [j] => j.compact
  | j :: js => j.compact ++ ',' :: compactElements js
/-- Members with commas between them. -/
def compactMembers : List (Str × Json) → Str
  | [] => []
  | [(k, j)] => jsonString k ++ ':' :: j.compact
  | (k, j) :: js => jsonString k ++ ':' :: j.compact ++ ',' :: compactMembers js
end

/-- A new line at the given depth. -/
def jsonIndent (d : Nat) : Str := '\n' :: List.replicate (2 * d) ' '

mutual
/-- `serde_json::to_string_pretty` of a value (`PrettyFormatter`), inside `d` brackets. -/
def Json.pretty (d : Nat) : Json → Str
  | .null => ['n', 'u', 'l', 'l']
  | .bool true => ['t', 'r', 'u', 'e']
  | .bool false => ['f', 'a', 'l', 's', 'e']
  | .num => ['0']
  | .str s => jsonString s
  | .arr [] => ['[', ']']
  | .arr (j :: js) => '[' :: prettyElements (d + 1) (j :: js) ++ jsonIndent d ++ [']']
  | .obj [] => ['{', '}']
  | .obj (m :: ms) => '{' :: prettyMembers (d + 1) (m :: ms) ++ jsonIndent d ++ ['}']
/-- Elements, each on a line of its own. -/
def prettyElements (d : Nat) : List Json → Str
  | [] => []
  | [j] => jsonIndent d ++ j.pretty d
  | j :: js => jsonIndent d ++ j.pretty d ++ ',' :: prettyElements d js
/-- Members, each on a line of its own. -/
def prettyMembers (d : Nat) : List (Str × Json) → Str
  | [] => []
  | [(k, j)] => jsonIndent d ++ jsonString k ++ ':' :: ' ' :: j.pretty d
  | (k, j) :: js => jsonIndent d ++ jsonString k ++ ':' :: ' ' :: j.pretty d ++ ',' :: prettyMembers d js
end

/-- `serde_json::to_string(&grammar)`. -/
def Grammar.jsonText (g : Grammar) : Str := g.toJson.compact

/-- `serde_json::to_string_pretty(&grammar)`. -/
def Grammar.jsonPretty (g : Grammar) : Str := g.toJson.pretty 0

/-! ## `Deserialize` -/

/-- A field of an object: exactly one member must have this key (`missing_field`, `duplicate_field`). -/
def jsonField (k : Str) (ms : List (Str × Json)) : Option Json :=
  match ms.filter fun m => m.1 == k with
  | [m] => some m.2
  | _ => none

/-- The derived visitor of a struct: a map, in which unknown keys are ignored, or a sequence of exactly the fields in their order. -/
def jsonStruct (fields : List Str) : Json → Option (List Json)
  | .obj ms => fields.mapM fun k => jsonField k ms
  | .arr l => if l.length = fields.length then some l else none
  | _ => none

/-- A vector. -/
def jsonVec {α : Type} (f : Json → Option α) : Json → Option (List α)
  | .arr l => l.mapM f
  | _ => none

/-- `src/term.rs` 21-28: `serde_json` takes an enum only from an object with one member or (for variants without data) a string. -/
def Term.fromJson : Json → Option Term
  | .obj [(k, .str s)] =>
    if k = ['T', 'e', 'r', 'm', 'i', 'n', 'a', 'l'] then some (.terminal s)
    else if k = ['N', 'o', 'n', 't', 'e', 'r', 'm', 'i', 'n', 'a', 'l'] then some (.nonterminal s)
    else none
  | _ => none

/-- `src/expression.rs` 14-18. -/
def Expression.fromJson (j : Json) : Option Expression :=
  match jsonStruct [['t', 'e', 'r', 'm', 's']] j with
  | some [ts] => (jsonVec Term.fromJson ts).map Expression.mk
  | _ => none

/-- `src/production.rs` 17-23. -/
def Production.fromJson (j : Json) : Option Production :=
  match jsonStruct [['l', 'h', 's'], ['r', 'h', 's']] j with
  | some [l, r] =>
    match Term.fromJson l, jsonVec Expression.fromJson r with
    | some l, some r => some ⟨l, r⟩
    | _, _ => none
  | _ => none

/-- `src/grammar.rs` 312-316. -/
def Grammar.fromJson (j : Json) : Option Grammar :=
  match jsonStruct [['p', 'r', 'o', 'd', 'u', 'c', 't', 'i', 'o', 'n', 's']] j with
  | some [ps] => (jsonVec Production.fromJson ps).map Grammar.mk
  | _ => none

/-! ## Reading JSON -/

/-- White space of JSON. -/
def isJsonSpace (c : Char) : Bool := c == ' ' || c == '\n' || c == '\t' || c == '\r'

/-- Skip white space. -/
def skipJsonSpace (s : Str) : Str := s.dropWhile isJsonSpace

/-- A hexadecimal digit. -/
def hexValue (c : Char) : Option Nat :=
  if '0' ≤ c ∧ c ≤ '9' then some (c.toNat - 48)
  else if 'a' ≤ c ∧ c ≤ 'f' then some (c.toNat - 87)
  else if 'A' ≤ c ∧ c ≤ 'F' then some (c.toNat - 55)
  else none

/-- Four hexadecimal digits. -/
def hexFour : Str → Option (Nat × Str)
  | a :: b :: c :: d :: s =>
    match hexValue a, hexValue b, hexValue c, hexValue d with
    | some a, some b, some c, some d => some (((a * 16 + b) * 16 + c) * 16 + d, s)
    | _, _, _, _ => none
  | _ => none

/-- After a backslash. -/
def readEscape : Str → Option (Char × Str)
  | '"' :: s => some ('"', s)
  | '\\' :: s => some ('\\', s)
  | '/' :: s => some ('/', s)
  | 'b' :: s => some (Char.ofNat 8, s)
  | 'f' :: s => some (Char.ofNat 12, s)
  | 'n' :: s => some ('\n', s)
  | 'r' :: s => some ('\r', s)
  | 't' :: s => some ('\t', s)
  | 'u' :: s =>
    match hexFour s with
    | none => none
    | some (v, s) =>
      if v < 0xD800 ∨ 0xDFFF < v then some (Char.ofNat v, s)
      else if v < 0xDC00 then
        match s with
        | '\\' :: 'u' :: s =>
          match hexFour s with
          | none => none
          | some (w, s) =>
            if 0xDC00 ≤ w ∧ w ≤ 0xDFFF then some (Char.ofNat (0x10000 + (v - 0xD800) * 0x400 + (w - 0xDC00)), s) else none
        | _ => none
      else none
  | _ => none

/-- The characters of a string up to the closing quotes; the first argument is fuel.  (In ignored values `serde_json` also accepts
surrogates that do not belong to a pair; the model does not.) -/
def readChars : Nat → Str → Option (Str × Str)
  | 0, _ => none
  | _ + 1, [] => none
  | n + 1, c :: s =>
    if c = '"' then some ([], s)
    else if c = '\\' then
      match readEscape s with
      | none => none
      | some (d, s) => (readChars n s).map fun r => (d :: r.1, r.2)
    else if c.toNat < 32 then none
    else (readChars n s).map fun r => (c :: r.1, r.2)

/-- At least one digit, and all that follow. -/
def readDigits : Str → Option Str
  | [] => none
  | c :: s => if c.isDigit then some (s.dropWhile Char.isDigit) else none

/-- The part of a number behind the sign and before fraction and exponent: no leading zeros. -/
def readInteger : Str → Option Str
  | '0' :: s => match s with
    | c :: _ => if c.isDigit then none else some s
    | [] => some []
  | s => readDigits s

/-- Fraction, if any. -/
def readFraction : Str → Option Str
  | '.' :: s => readDigits s
  | s => some s

/-- Exponent, if any. -/
def readExponent (s : Str) : Option Str :=
  match s with
  | c :: s' =>
    if c = 'e' ∨ c = 'E' then
      match s' with
      | d :: s'' => if d = '+' ∨ d = '-' then readDigits s'' else readDigits s'
      | [] => none
    else some s
  | [] => some []

/-- A number. -/
def readNumber (s : Str) : Option Str :=
  let s := match s with
    | '-' :: s => s
    | s => s
  match readInteger s with
  | none => none
  | some s => match readFraction s with
    | none => none
    | some s => readExponent s

mutual
/-- A value, after white space.  (`serde_json` limits the nesting of values that are not ignored to 128; those of a grammar are nested
seven deep.) -/
def readValue : Nat → Str → Option (Json × Str)
  | 0, _ => none
  | n + 1, s =>
    match skipJsonSpace s with
    | [] => none
    | c :: s =>
      if c = '"' then (readChars (s.length + 1) s).map fun r => (.str r.1, r.2)
      else if c = '[' then
        match skipJsonSpace s with
        | ']' :: s => some (.arr [], s)
        | _ => (readElements n s).map fun r => (.arr r.1, r.2)
      else if c = '{' then
        match skipJsonSpace s with
        | '}' :: s => some (.obj [], s)
        | _ => (readMembers n s).map fun r => (.obj r.1, r.2)
      else match c, s with
        | 'n', 'u' :: 'l' :: 'l' :: s => some (.null, s)
        | 't', 'r' :: 'u' :: 'e' :: s => some (.bool true, s)
        | 'f', 'a' :: 'l' :: 's' :: 'e' :: s => some (.bool false, s)
        | _, _ => (readNumber (c :: s)).map fun s => (.num, s)
/-- The elements of an array (at least one) and its end. -/
def readElements : Nat → Str → Option (List Json × Str)
  | 0, _ => none
  | n + 1, s =>
    match readValue n s with
    | none => none
    | some (j, s) =>
      match skipJsonSpace s with
      | ',' :: s => (readElements n s).map fun r => (j :: r.1, r.2)
      | ']' :: s => some ([j], s)
      | _ => none
/-- The members of an object (at least one) and its end. -/
def readMembers : Nat → Str → Option (List (Str × Json) × Str)
  | 0, _ => none
  | n + 1, s =>
    match skipJsonSpace s with
    | '"' :: s =>
      match readChars (s.length + 1) s with
      | none => none
      | some (k, s) =>
        match skipJsonSpace s with
        | ':' :: s =>
          match readValue n s with
          | none => none
          | some (j, s) =>
            match skipJsonSpace s with
            | ',' :: s => (readMembers n s).map fun r => ((k, j) :: r.1, r.2)
            | '}' :: s => some ([(k, j)], s)
            | _ => none
        | _ => none
    | _ => none
end

/-- A whole text: one value, then only white space.  The fuel is enough for every text (shown for those that are read). -/
def readJson (s : Str) : Option Json :=
  match readValue (2 * s.length + 1) s with
  | some (j, r) => if (skipJsonSpace r).isEmpty then some j else none
  | none => none

/-- `serde_json::from_str::<Grammar>`; `none` is an error. -/
def Grammar.fromJsonText (s : Str) : Option Grammar := (readJson s).bind Grammar.fromJson

/-- `serde_json::from_str::<Production>`. -/
def Production.fromJsonText (s : Str) : Option Production := (readJson s).bind Production.fromJson

/-- `serde_json::from_str::<Expression>`. -/
def Expression.fromJsonText (s : Str) : Option Expression := (readJson s).bind Expression.fromJson

/-- `serde_json::from_str::<Term>`. -/
def Term.fromJsonText (s : Str) : Option Term := (readJson s).bind Term.fromJson

end Bnf
