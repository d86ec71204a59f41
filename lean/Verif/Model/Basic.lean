/-!
# Basic data types of the crate

Strings are lists of Unicode scalar values (`Char` is exactly Rust's `char`).  Byte lengths and
byte offsets are those of the UTF-8 encoding.
-/

namespace Bnf

/-- Rust `str`/`String` as the sequence of its characters. -/
abbrev Str := List Char

/-- `str::len`: number of bytes of the UTF-8 encoding. -/
def byteLen : Str → Nat
  | [] => 0
  | c :: cs => c.utf8Size + byteLen cs

/-- `str::get(i..)`: the text from byte offset `i`, `none` if `i` is out of range or not on a
character boundary. -/
def getFrom : Str → Nat → Option Str
  | s, 0 => some s
  | [], _ + 1 => none
  | c :: cs, n + 1 => if n + 1 < c.utf8Size then none else getFrom cs (n + 1 - c.utf8Size)

/-- `src/term.rs` 21-28: `enum Term`. -/
inductive Term where
  | terminal (s : Str)
  | nonterminal (s : Str)
  deriving DecidableEq, Repr, Inhabited

/-- `src/expression.rs` 13-18: `struct Expression`. -/
structure Expression where
  terms : List Term
  deriving DecidableEq, Repr, Inhabited

/-- `src/production.rs` 16-23: `struct Production`. -/
structure Production where
  lhs : Term
  rhs : List Expression
  deriving DecidableEq, Repr, Inhabited

/-- `src/grammar.rs` 311-316: `struct Grammar`. -/
structure Grammar where
  productions : List Production
  deriving DecidableEq, Repr, Inhabited

/-- `src/grammar.rs` 51-56: `enum ParseTreeNode`.  The nested `ParseTree` of the `Nonterminal`
variant is inlined as its two fields. -/
inductive ParseTreeNode where
  | terminal (s : Str)
  | nonterminal (lhs : Term) (rhs : List ParseTreeNode)
  deriving Repr, Inhabited

/-- `src/grammar.rs` 58-64: `struct ParseTree`. -/
structure ParseTree where
  lhs : Term
  rhs : List ParseTreeNode
  deriving Repr, Inhabited

/-- `src/error.rs` 7-13: `enum Error`.  `ParseError`'s text contains a debug rendering of nom's error and
is left out here; where that error points to is modelled separately in `Model/Errors`. -/
inductive Error where
  | parseError
  | generateError (msg : Str)
  | validationError (msg : Str)
  deriving DecidableEq, Repr

/-- `src/grammar.rs` 487-490: `starting_term`: left-hand side of the first production. -/
def Grammar.startingTerm (g : Grammar) : Option Term :=
  match g.productions with
  | [] => none
  | p :: _ => some p.lhs

/-- Rust `HashMap` with values looked up by key only: an association list in which the
newest binding of a key counts. -/
abbrev AMap (K V : Type) := List (K × V)

/-- `HashMap::get`. -/
def AMap.get {K V : Type} [DecidableEq K] : AMap K V → K → Option V
  | [], _ => none
  | (k', v) :: m, k => if k' = k then some v else AMap.get m k

/-- `HashMap::insert`. -/
def AMap.set {K V : Type} (m : AMap K V) (k : K) (v : V) : AMap K V := (k, v) :: m

end Bnf
