import Verif.Model.Errors

/-!
# The generic helpers of the crate

`xt_list_with_separator` for any parsers, also those that keep state (`FnMut`) or fail with `Err::Failure` or `Err::Incomplete`, and `AppendOnlyVec` as a
type of its own.  `Model/Nom`, `Model/Errors`, `Model/Earley` and `Model/ParseGrammar` have them only as the crate uses them.
-/

set_option autoImplicit false

namespace Bnf.Generic

/-! ## `xt_list_with_separator` -/

/-- `nom::IResult`: `Ok((rest, out))`, or one of the three variants of `nom::Err` (the payload of `Incomplete` is an `ε` as well). -/
inductive Outcome (ι ε α : Type) where
  | ok (rest : ι) (out : α)
  | error (e : ε)
  | failure (e : ε)
  | incomplete (e : ε)

/-- A parser, `FnMut(I) -> IResult<I, O, E>`.  The state is that of everything the two closures can change. -/
abbrev Parser (σ ι ε α : Type) := σ → ι → Outcome ι ε α × σ

variable {σ ι ε α δ : Type}

/-- `src/parsers/nom_xt.rs` 15-32: the loop.  The number is that of rounds, `none` means that they do not suffice. -/
def listLoop (parser : Parser σ ι ε α) (delimiter : Parser σ ι ε δ) : Nat → σ → ι → List α → Option (Outcome ι ε (List α) × σ)
  | 0, _, _, _ => none
  | n + 1, st, input, acc =>
    match parser st input with
    | (.ok i o, st) =>
      let acc := acc ++ [o]
      match delimiter st i with
      | (.ok i _, st) => listLoop parser delimiter n st i acc
      | (.error _, st) => some (.ok i acc, st)
      | (.failure e, st) => some (.failure e, st)
      | (.incomplete e, st) => some (.incomplete e, st)
    | (.error e, st) => some (.error e, st)
    | (.failure e, st) => some (.failure e, st)
    | (.incomplete e, st) => some (.incomplete e, st)

/-- `src/parsers/nom_xt.rs` 4-35: `xt_list_with_separator`. -/
def listWithSeparator (parser : Parser σ ι ε α) (delimiter : Parser σ ι ε δ) (n : Nat) (st : σ) (input : ι) :
    Option (Outcome ι ε (List α) × σ) :=
  listLoop parser delimiter n st input []

/-! ## `AppendOnlyVec` -/

/-- `src/append_vec.rs` 26-29.  The type of the ids is a wrapped `usize` (1-20). -/
structure AppendOnlyVec (α : Type) where
  vec : List α

namespace AppendOnlyVec

/-- `src/append_vec.rs` 35-37 and 66-70. -/
def new : AppendOnlyVec α := ⟨[]⟩

/-- `src/append_vec.rs` 38-40. -/
def len (v : AppendOnlyVec α) : Nat := v.vec.length

/-- `src/append_vec.rs` 41-43. -/
def nextId (v : AppendOnlyVec α) : Nat := v.len

/-- `src/append_vec.rs` 44-48. -/
def push (v : AppendOnlyVec α) (item : α) : Nat × AppendOnlyVec α :=
  let id := v.nextId
  (id, ⟨v.vec ++ [item]⟩)

/-- `src/append_vec.rs` 58-60. -/
def get (v : AppendOnlyVec α) (id : Nat) : Option α := v.vec[id]?

/-- `src/append_vec.rs` 49-57: the reference returned, and the vector.  `none` is the panic of `expect`. -/
def pushWithId (v : AppendOnlyVec α) (build : Nat → α) : Option α × AppendOnlyVec α :=
  let id := v.nextId
  let item := build id
  let (id, v) := v.push item
  (v.get id, v)

/-- A call that adds an item. -/
inductive Call (α : Type) where
  | push (item : α)
  | pushWithId (build : Nat → α)

/-- What a call returns: an id, or a reference (`none`: a panic). -/
inductive Returned (α : Type) where
  | id (i : Nat)
  | item (a : Option α)

/-- One call. -/
def call (v : AppendOnlyVec α) : Call α → Returned α × AppendOnlyVec α
  | .push a => let (i, v) := v.push a; (.id i, v)
  | .pushWithId b => let (a, v) := v.pushWithId b; (.item a, v)

/-- Several calls one after the other: what they return, and the vector afterwards. -/
def calls : AppendOnlyVec α → List (Call α) → List (Returned α) × AppendOnlyVec α
  | v, [] => ([], v)
  | v, c :: cs =>
    let (r, v) := v.call c
    let (rs, v) := calls v cs
    (r :: rs, v)

end AppendOnlyVec

end Bnf.Generic
