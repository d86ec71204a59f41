import Verif.Model.Errors

/-! # `FromStr` for grammars without the default feature `ABNF` -/

set_option autoImplicit false

namespace Bnf

/-- `src/grammar.rs` 805-813: `Grammar::from_str` without the feature `ABNF`. -/
def Grammar.fromStrBnfOnly (s : Str) : Option (Except Error Grammar) := (grammarComplete BNF s).toResult

/-- The same with the message of the error. -/
def E.fromStrBnfOnly (dbg : Str → Str) (s : Str) : Option (Except Str Grammar) := (E.grammarComplete BNF s).toResult dbg

end Bnf
