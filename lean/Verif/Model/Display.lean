import Verif.Model.Text

/-!
# Displaying parse trees (`src/grammar.rs` 73-279)

Writing to the formatter is modelled as producing text; write errors (which a `String` never reports) are not modelled.
-/

set_option autoImplicit false

namespace Bnf

/-! ## `Display for ParseTree` -/

/-- `src/grammar.rs` 73-74: `ParseTreeFormatSet`, a set of column indices, as a list. -/
abbrev FormatSet := List Nat

/-- `src/grammar.rs` 131-152: `fmt_node_prefix`, the columns from `idx` on; `rest` is `depth - idx`. -/
def fmtColumns (set : FormatSet) (isLast : Bool) : Nat → Nat → Str
  | 0, _ => []
  | 1, _ => if isLast then ['└', '─', '─', ' '] else ['├', '─', '─', ' ']
  | rest + 2, idx => (if set.contains idx then ['│', ' ', ' ', ' '] else [' ', ' ', ' ', ' ']) ++ fmtColumns set isLast (rest + 1) (idx + 1)

/-- `src/grammar.rs` 125-152: `fmt_node_prefix`. -/
def fmtNodePrefix (set : FormatSet) (depth : Nat) (isLast : Bool) : Str := fmtColumns set isLast depth 0

/-- `src/grammar.rs` 92-97: the right-hand side on the line of a node. -/
def fmtRhs : List ParseTreeNode → Str
  | [] => []
  | .terminal t :: ns => [' ', '"'] ++ t ++ ['"'] ++ fmtRhs ns
  | .nonterminal lhs _ :: ns => [' '] ++ lhs.display ++ fmtRhs ns

/-- `depth_format_set.insert(depth)` -/
def FormatSet.insert (set : FormatSet) (i : Nat) : FormatSet := i :: set

/-- `depth_format_set.remove(&depth)` -/
def FormatSet.remove (set : FormatSet) (i : Nat) : FormatSet := set.filter fun j => j != i

mutual
/-- `src/grammar.rs` 76-123: `ParseTree::fmt` (for `nonterminal`), and the case of a terminal child, 110-113.
Returns the text and the set of columns. -/
def fmtNode : ParseTreeNode → FormatSet → Nat → Bool → Str × FormatSet
  | .terminal t, set, depth, isLast => (fmtNodePrefix set depth isLast ++ ['"'] ++ t ++ ['"', '\n'], set)
  | .nonterminal lhs rhs, set, depth, isLast =>
    let set := set.insert depth
    let line := fmtNodePrefix set depth isLast ++ lhs.display ++ [' ', ':', ':', '='] ++ fmtRhs rhs ++ ['\n']
    let (text, set) := fmtChildren rhs set depth
    (line ++ text, set)

/-- `src/grammar.rs` 105-119: the loop over the children of a node at `depth`. -/
def fmtChildren : List ParseTreeNode → FormatSet → Nat → Str × FormatSet
  | [], set, _ => ([], set)
  | child :: rest, set, depth =>
    let isLast := rest.isEmpty
    let set := if isLast then set.remove depth else set
    let (text, set) := fmtNode child set (depth + 1) isLast
    let (texts, set) := fmtChildren rest set depth
    (text ++ texts, set)
end

/-- `src/grammar.rs` 185-190: `Display for ParseTree`. -/
def ParseTree.display (t : ParseTree) : Str := (fmtNode (.nonterminal t.lhs t.rhs) [] 0 true).1

/-! ## Mermaid -/

/-- `src/grammar.rs` 194: `MERMAID_ESCAPE_CHARS`. -/
def mermaidEscapeChars : List Char := ['"', '&', '#', '<', '>', '[', '\\', ']', ';', '\n', '\r']

/-- `src/grammar.rs` 200-210: `escape_mermaid_label`. -/
def escapeMermaidLabel : Str → Str
  | [] => []
  | c :: cs =>
    if mermaidEscapeChars.contains c then ['#'] ++ (toString c.toNat).toList ++ [';'] ++ escapeMermaidLabel cs
    else c :: escapeMermaidLabel cs

/-- `src/grammar.rs` 238-243, 251-256: one edge. -/
def mermaidEdge (i : Nat) (li : Str) (j : Nat) (lj : Str) : Str :=
  (toString i).toList ++ ['[', '"'] ++ li ++ ['"', ']', ' ', '-', '-', '>', ' '] ++ (toString j).toList ++ ['[', '"'] ++ lj ++ ['"', ']', '\n']

mutual
/-- `src/grammar.rs` 220-271: `MermaidParseTree::fmt`; `none` is the panic of `unreachable!()`.  Returns text and counter. -/
def mermaidTree : Term → List ParseTreeNode → Nat → Option (Str × Nat)
  | .terminal _, _, _ => none
  | .nonterminal lhs, rhs, count =>
    let header : Str := if count = 0 then ['f', 'l', 'o', 'w', 'c', 'h', 'a', 'r', 't', ' ', 'T', 'D', '\n'] else []
    match mermaidChildren rhs (escapeMermaidLabel lhs) count count with
    | none => none
    | some (text, count) => some (header ++ text, count)

/-- `src/grammar.rs` 233-268: the loop over the right-hand side. -/
def mermaidChildren : List ParseTreeNode → Str → Nat → Nat → Option (Str × Nat)
  | [], _, _, count => some ([], count)
  | .terminal t :: ns, lhs, lhsCount, count =>
    let count := count + 1
    match mermaidChildren ns lhs lhsCount count with
    | none => none
    | some (text, count') => some (mermaidEdge lhsCount lhs count (escapeMermaidLabel t) ++ text, count')
  | .nonterminal (.terminal _) _ :: _, _, _, _ => none
  | .nonterminal (.nonterminal n) rhs :: ns, lhs, lhsCount, count =>
    let count := count + 1
    match mermaidTree (.nonterminal n) rhs count with
    | none => none
    | some (inner, count') =>
      match mermaidChildren ns lhs lhsCount count' with
      | none => none
      | some (text, count'') => some (mermaidEdge lhsCount lhs count (escapeMermaidLabel n) ++ inner ++ text, count'')
end

/-- `src/grammar.rs` 168-170 and 274-279: `mermaid().to_string()`; `none` is a panic. -/
def ParseTree.mermaid (t : ParseTree) : Option Str := (mermaidTree t.lhs t.rhs 0).map Prod.fst

end Bnf
