import Verif.Model.Basic

/-!
# The nom combinators used by the grammar text parser

nom 8 itself is not in the repository; its combinators are modelled from its documentation and source.  Errors carry no
information here (`nom::error::Error` is only rendered into the text of `Error::ParseError`, `src/error.rs` 33-37); `Model.Errors`
models that text.
`nom::Err::Failure` and `nom::Err::Incomplete` do not occur: the code uses only `complete` parsers and no `cut`.

Loops and recursion take fuel; running out of it is the separate result `fuel`, never confused with
success or failure.
-/

namespace Bnf

/-- `IResult<&str, α>`: remaining text and value, or an error.  `fuel`: the model ran out of fuel. -/
inductive Res (α : Type) where
  | fuel
  | err
  | ok (rest : Str) (val : α)
  deriving DecidableEq, Repr

/-- A parser `Fn(&str) -> IResult<&str, α>`. -/
abbrev P (α : Type) := Str → Res α

namespace Res
variable {α β : Type}

/-- The `?` operator followed by the rest of the function. -/
def andThen (x : Res α) (f : Str → α → Res β) : Res β :=
  match x with
  | .fuel => .fuel
  | .err => .err
  | .ok r v => f r v

def map (f : α → β) (x : Res α) : Res β := x.andThen fun r v => .ok r (f v)

end Res

namespace Nom
variable {α β γ : Type}

/-- `nom::character::complete::char`. -/
def char (c : Char) : P Char
  | d :: r => if d = c then .ok r d else .err
  | [] => .err

/-- `nom::character::complete::satisfy`. -/
def satisfy (f : Char → Bool) : P Char
  | d :: r => if f d then .ok r d else .err
  | [] => .err

/-- `nom::bytes::complete::tag`. -/
def tag : Str → P Unit
  | [], s => .ok s ()
  | _ :: _, [] => .err
  | c :: cs, d :: s => if c = d then tag cs s else .err

/-- `nom::bytes::complete::take_till`: the longest prefix without a character satisfying `f`; never fails. -/
def takeTill (f : Char → Bool) : P Str :=
  fun s => .ok (s.dropWhile fun c => !f c) (s.takeWhile fun c => !f c)

/-- `nom::bytes::complete::take_until` for a pattern of one character: fails if the character does not occur. -/
def takeUntil (c : Char) : P Str :=
  fun s => if c ∈ s then .ok (s.dropWhile (· ≠ c)) (s.takeWhile (· ≠ c)) else .err

/-- `nom::combinator::eof`. -/
def eof : P Unit
  | [] => .ok [] ()
  | _ :: _ => .err

/-- `nom::sequence::delimited`. -/
def delimited (a : P α) (b : P β) (c : P γ) : P β := fun s =>
  (a s).andThen fun s _ => (b s).andThen fun s v => (c s).andThen fun s _ => .ok s v

/-- `nom::sequence::preceded`. -/
def preceded (a : P α) (b : P β) : P β := fun s => (a s).andThen fun s _ => b s

/-- `nom::sequence::terminated`. -/
def terminated (a : P α) (b : P β) : P α := fun s =>
  (a s).andThen fun s v => (b s).andThen fun s _ => .ok s v

/-- `nom::branch::alt` of two parsers; longer alternatives are nested. -/
def alt (a b : P α) : P α := fun s =>
  match a s with
  | .err => b s
  | x => x

/-- `nom::combinator::not`: succeeds without consuming if the parser fails. -/
def not (a : P α) : P Unit := fun s =>
  match a s with
  | .ok _ _ => .err
  | .err => .ok s ()
  | .fuel => .fuel

/-- `nom::combinator::peek`. -/
def peek (a : P α) : P α := fun s => (a s).andThen fun _ v => .ok s v

/-- `nom::combinator::recognize`, with the recognized text dropped (it is never used). -/
def recognize (a : P α) : P Unit := fun s => (a s).andThen fun r _ => .ok r ()

/-- `nom::combinator::opt`. -/
def opt (a : P α) : P (Option α) := fun s =>
  match a s with
  | .ok r v => .ok r (some v)
  | .err => .ok s none
  | .fuel => .fuel

/-- `nom::combinator::all_consuming`. -/
def allConsuming (a : P α) : P α := fun s =>
  (a s).andThen fun r v => match r with
    | [] => .ok r v
    | _ :: _ => .err

/-- The loop of `nom::multi::many1` after its first element: stops at the first error; an element that consumes nothing
is an error of the whole (`nom`'s infinite loop check, on `input_len`). -/
def manyLoop (p : P α) : Nat → Str → List α → Res (List α)
  | 0, _, _ => .fuel
  | n + 1, s, acc =>
    match p s with
    | .fuel => .fuel
    | .err => .ok s acc
    | .ok r v => if byteLen r = byteLen s then .err else manyLoop p n r (acc ++ [v])

/-- `nom::multi::many1`. -/
def many1 (n : Nat) (p : P α) : P (List α) := fun s => (p s).andThen fun r v => manyLoop p n r [v]

/-- `src/parsers/nom_xt.rs` 15-32: the loop of `xt_list_with_separator`. -/
def xtLoop (p : P α) (d : P β) : Nat → Str → List α → Res (List α)
  | 0, _, _ => .fuel
  | n + 1, s, acc =>
    match p s with
    | .fuel => .fuel
    | .err => .err
    | .ok r v =>
      match d r with
      | .fuel => .fuel
      | .err => .ok r (acc ++ [v])
      | .ok r' _ => xtLoop p d n r' (acc ++ [v])

/-- `src/parsers/nom_xt.rs` 4-35: `xt_list_with_separator`. -/
def xtList (n : Nat) (p : P α) (d : P β) : P (List α) := fun s => xtLoop p d n s []

end Nom
end Bnf
