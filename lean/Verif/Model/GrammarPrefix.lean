import Verif.Model.Text

/-! # The parser for grammars at the beginning of a text -/

set_option autoImplicit false

namespace Bnf

/-- `src/parsers/mod.rs` 204-207: `grammar`, the variant of `grammar_complete` (253-262) that also returns the text not read.  The fuel is proved to suffice. -/
def grammarPrefix (F : Format) : P Grammar := fun s =>
  (parsedGrammar F (s.length + 1) s).andThen fun s parsed =>
    match normalizeParsedGrammar parsed with
    | none => .fuel
    | some g => .ok s g

end Bnf
