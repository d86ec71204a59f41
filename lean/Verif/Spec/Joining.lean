import Verif.Spec.Syntax

/-! # What may stand between two grammar texts -/

set_option autoImplicit false

namespace Bnf.Spec
open Bnf

/-- Text within a line. -/
def OneLine (t : Str) : Prop := ∀ d ∈ t, ¬ IsNewline d

/-- Ends of a production on its line: nothing, or something that begins with a character that ends it in the format: `;` if names are delimited,
whitespace before `;` otherwise. -/
inductive LineEnd (F : Format) : Str → Prop
  | nil : LineEnd F []
  | space {c t} : isWhitespace c = true → ¬ IsNewline c → LineEnd F t → LineEnd F (c :: t)
  | semicolon {a b t} : F.nonterminalDelimiter = some (a, b) → OneLine t → LineEnd F (';' :: t)
  | spaced {c t} : isWhitespace c = true → ¬ IsNewline c → OneLine t → LineEnd F (c :: ';' :: t)

end Bnf.Spec
