import Verif.Model.DebugText

/-!
# Error values with their texts

`Error` of `Model/Basic` leaves the text of `ParseError` out; here is the type with all of its payloads and what its two ways of printing write.
-/

set_option autoImplicit false

namespace Bnf

/-- `src/error.rs` 7-13: `enum Error`, with the text of each variant. -/
inductive FullError where
  | parseError (msg : Str)
  | generateError (msg : Str)
  | validationError (msg : Str)
  deriving DecidableEq

/-- `src/error.rs` 15-23: `Display`: the text alone, without the name of the variant. -/
def FullError.display : FullError → Str
  | .parseError s => s
  | .generateError s => s
  | .validationError s => s

/-- `src/error.rs` 7: `derive(Debug)`. -/
def FullError.debugVal : FullError → DVal
  | .parseError s => .tuple (chars! "ParseError") (.str s)
  | .generateError s => .tuple (chars! "GenerateError") (.str s)
  | .validationError s => .tuple (chars! "ValidationError") (.str s)

/-- `format!("{e:?}")`. -/
def FullError.debug (plain : Char → Bool) (e : FullError) : Str := e.debugVal.compact plain

/-- `format!("{e:#?}")`. -/
def FullError.debugPretty (plain : Char → Bool) (e : FullError) : Str := e.debugVal.pretty plain

end Bnf
