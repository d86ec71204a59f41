import Verif.Model.Errors
import Verif.Chars

/-!
# What the derived `Debug` implementations write

`#[derive(Debug)]` of the values of the crate (`src/term.rs` 21, `src/expression.rs` 14, `src/production.rs` 17, `src/grammar.rs` 52, 59 and 312) with the
format specifications `{:?}` and `{:#?}` (for instance `examples/create_grammar.rs` 23).  The derived code calls the builders of `core::fmt`
(`debug_tuple`, `debug_struct`, `debug_list`), which are modelled on a type of values to print.  Which characters above ASCII are printed as they are is a
parameter `plain` (`core`'s tables of printable characters, without those that extend a grapheme).
-/

set_option autoImplicit false

namespace Bnf

/-- `char::escape_unicode`: `\u{…}` with hexadecimal digits. -/
def escapeUnicode (c : Char) : Str := ['\\', 'u', '{'] ++ Nat.toDigits 16 c.toNat ++ ['}']

/-- `char::escape_debug_ext` as `Debug` of `str` calls it (single quotes are not escaped); printable ASCII is never escaped but for quote and backslash. -/
def escapeDebug (plain : Char → Bool) (c : Char) : Str :=
  if c = '\x00' then ['\\', '0']
  else if c = '\t' then ['\\', 't']
  else if c = '\r' then ['\\', 'r']
  else if c = '\n' then ['\\', 'n']
  else if c = '\\' then ['\\', '\\']
  else if c = '"' then ['\\', '"']
  else if 32 ≤ c.toNat ∧ c.toNat ≤ 126 then [c]
  else if plain c then [c]
  else escapeUnicode c

/-- `Debug` of `str`. -/
def strDebug (plain : Char → Bool) (s : Str) : Str := '"' :: s.flatMap (escapeDebug plain) ++ ['"']

mutual
/-- A value to print: a string, a tuple variant with one field, a struct or a `Vec`. -/
inductive DVal where
  | str (s : Str)
  | tuple (name : Str) (v : DVal)
  | struct (name : Str) (fields : DFields)
  | list (vs : DVals)
/-- Named fields. -/
inductive DFields where
  | nil
  | cons (name : Str) (v : DVal) (rest : DFields)
/-- Elements. -/
inductive DVals where
  | nil
  | cons (v : DVal) (rest : DVals)
end

mutual
/-- `{:?}`: `debug_tuple`, `debug_struct` and `debug_list` without `#`. -/
def DVal.compact (plain : Char → Bool) : DVal → Str
  | .str s => strDebug plain s
  | .tuple name v => name ++ ['('] ++ v.compact plain ++ [')']
  | .struct name fs => name ++ fs.compact plain true
  | .list vs => ['['] ++ vs.compact plain true ++ [']']
/-- `DebugStruct::field` and `finish`: ` { ` before the first field, `, ` before the others, ` }` at the end if there are fields. -/
def DFields.compact (plain : Char → Bool) : Bool → DFields → Str
  | true, .nil => []
  | false, .nil => [' ', '}']
  | first, .cons name v fs => (if first then [' ', '{', ' '] else [',', ' ']) ++ name ++ [':', ' '] ++ v.compact plain ++ fs.compact plain false
/-- `DebugList::entry`: `, ` before all but the first. -/
def DVals.compact (plain : Char → Bool) : Bool → DVals → Str
  | _, .nil => []
  | first, .cons v vs => (if first then [] else [',', ' ']) ++ v.compact plain ++ vs.compact plain false
end

/-- `PadAdapter::write_str` of `core::fmt::builders`: four spaces at the beginning of each line; the flag tells whether a line begins here. -/
def pad : Bool → Str → Str
  | _, [] => []
  | start, c :: cs => (if start then [' ', ' ', ' ', ' '] else []) ++ c :: pad (c == '\n') cs

mutual
/-- `{:#?}`: each field and element is written through a new `PadAdapter`, followed by `,\n`. -/
def DVal.pretty (plain : Char → Bool) : DVal → Str
  | .str s => strDebug plain s
  | .tuple name v => name ++ ['(', '\n'] ++ pad true (v.pretty plain ++ [',', '\n']) ++ [')']
  | .struct name fs => name ++ fs.pretty plain true
  | .list vs => ['['] ++ vs.pretty plain true ++ [']']
/-- `DebugStruct::field` and `finish` with `#`: ` {\n` before the first field, `}` at the end if there are fields. -/
def DFields.pretty (plain : Char → Bool) : Bool → DFields → Str
  | true, .nil => []
  | false, .nil => ['}']
  | first, .cons name v fs =>
    (if first then [' ', '{', '\n'] else []) ++ pad true (name ++ [':', ' '] ++ v.pretty plain ++ [',', '\n']) ++ fs.pretty plain false
/-- `DebugList::entry` with `#`: a line feed before the first. -/
def DVals.pretty (plain : Char → Bool) : Bool → DVals → Str
  | _, .nil => []
  | first, .cons v vs => (if first then ['\n'] else []) ++ pad true (v.pretty plain ++ [',', '\n']) ++ vs.pretty plain false
end

/-- `Debug` of `Vec`: the elements in order. -/
def DVals.ofList : List DVal → DVals
  | [] => .nil
  | v :: vs => .cons v (ofList vs)

/-- `src/term.rs` 21-28. -/
def Term.debugVal : Term → DVal
  | .terminal s => .tuple (chars! "Terminal") (.str s)
  | .nonterminal s => .tuple (chars! "Nonterminal") (.str s)

/-- `src/expression.rs` 14-18. -/
def Expression.debugVal (e : Expression) : DVal := .struct (chars! "Expression") (.cons (chars! "terms") (.list (.ofList (e.terms.map Term.debugVal))) .nil)

/-- `src/production.rs` 17-23. -/
def Production.debugVal (p : Production) : DVal :=
  .struct (chars! "Production") (.cons (chars! "lhs") p.lhs.debugVal (.cons (chars! "rhs") (.list (.ofList (p.rhs.map Expression.debugVal))) .nil))

/-- `src/grammar.rs` 312-316. -/
def Grammar.debugVal (g : Grammar) : DVal :=
  .struct (chars! "Grammar") (.cons (chars! "productions") (.list (.ofList (g.productions.map Production.debugVal))) .nil)

/-- The fields of `ParseTree`, `src/grammar.rs` 59-64. -/
def treeVal (lhs : Term) (rhs : DVals) : DVal := .struct (chars! "ParseTree") (.cons (chars! "lhs") lhs.debugVal (.cons (chars! "rhs") (.list rhs) .nil))

mutual
/-- `src/grammar.rs` 52-56. -/
def ParseTreeNode.debugVal : ParseTreeNode → DVal
  | .terminal s => .tuple (chars! "Terminal") (.str s)
  | .nonterminal lhs rhs => .tuple (chars! "Nonterminal") (treeVal lhs (nodesVal rhs))
/-- Nodes in order. -/
def nodesVal : List ParseTreeNode → DVals
  | [] => .nil
  | n :: ns => .cons n.debugVal (nodesVal ns)
end

/-- `src/grammar.rs` 59-64. -/
def ParseTree.debugVal (t : ParseTree) : DVal := treeVal t.lhs (nodesVal t.rhs)

/-- `format!("{g:?}")`. -/
def Grammar.debug (plain : Char → Bool) (g : Grammar) : Str := g.debugVal.compact plain

/-- `format!("{g:#?}")`. -/
def Grammar.debugPretty (plain : Char → Bool) (g : Grammar) : Str := g.debugVal.pretty plain

/-- `format!("{t:?}")` of a parse tree. -/
def ParseTree.debug (plain : Char → Bool) (t : ParseTree) : Str := t.debugVal.compact plain

/-- `format!("{t:#?}")` of a parse tree. -/
def ParseTree.debugPretty (plain : Char → Bool) (t : ParseTree) : Str := t.debugVal.pretty plain

end Bnf
