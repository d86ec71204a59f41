import Verif.Model.Earley

/-!
# Derived and debugging views: `Debug` of `InputRange`, `Ord` of `Term` and `Expression`
-/

set_option autoImplicit false

namespace Bnf

/-- `str::get(..n)`: the first `n` bytes, `None` if `n` is too large or not at a character boundary. -/
def getTo : Str → Nat → Option Str
  | _, 0 => some []
  | [], _ + 1 => none
  | c :: cs, n + 1 => if n + 1 < c.utf8Size then none else (getTo cs (n + 1 - c.utf8Size)).map (c :: ·)

/-- `src/earley/input_range.rs` 59-71: `Debug for InputRange`. -/
def InputRange.debug (r : InputRange) : Str :=
  let before := (getTo r.input r.start).getD []
  let scanned := ((getFrom r.input r.start).bind fun s => getTo s r.len).getD []
  let after := (getFrom r.input (r.start + r.len)).getD []
  ['I', 'n', 'p', 'u', 't', 'R', 'a', 'n', 'g', 'e', '(', '"'] ++ before ++ ['|'] ++ scanned ++ ['|'] ++ after ++ ['"', ')']

/-- The bytes of a `String`. -/
def bytes (s : Str) : List UInt8 := s.flatMap String.utf8EncodeChar

/-- `Ord` of slices: the first difference decides, a proper prefix is smaller. -/
def cmpList {α : Type} (cmp : α → α → Ordering) : List α → List α → Ordering
  | [], [] => .eq
  | [], _ :: _ => .lt
  | _ :: _, [] => .gt
  | a :: as, b :: bs => match cmp a b with
    | .eq => cmpList cmp as bs
    | o => o

/-- `Ord` of integers. -/
def cmpByte (a b : UInt8) : Ordering := if a.toNat < b.toNat then .lt else if a.toNat = b.toNat then .eq else .gt

/-- `Ord for String` compares the bytes. -/
def cmpString (s t : Str) : Ordering := cmpList cmpByte (bytes s) (bytes t)

/-- `src/term.rs` 21-28, `derive(Ord, PartialOrd)`: variants in the order of their declaration, then the string. -/
def cmpTerm : Term → Term → Ordering
  | .terminal s, .terminal t => cmpString s t
  | .terminal _, .nonterminal _ => .lt
  | .nonterminal _, .terminal _ => .gt
  | .nonterminal s, .nonterminal t => cmpString s t

/-- `src/expression.rs` 14-18, `derive(PartialOrd, Ord)`: the vectors of terms. -/
def cmpExpression (a b : Expression) : Ordering := cmpList cmpTerm a.terms b.terms

end Bnf
