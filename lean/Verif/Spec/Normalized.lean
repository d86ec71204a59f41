import Verif.Spec.Ebnf

/-! # Specification: the words of a text and of a grammar -/

set_option autoImplicit false

namespace Bnf.Spec
open Bnf

/-- The name or terminal `u` occurs in the text. -/
def WordOf (pg : ParsedGrammar) (u : Str) : Prop := DeclaredIn u pg ∨ UsedIn u pg ∨ PartOf (.term (.simple (.terminal u))) pg

/-- There is a group or an optional in the text. -/
def Bracketed (pg : ParsedGrammar) : Prop := ∃ as, PartOf (.term (.group as)) pg ∨ PartOf (.term (.optional as)) pg

/-- The characters printed around names and terminals. -/
def punctuation : List Char := ['<', '>', ':', '=', '|', ' ', '\n', '\'', '"']

end Bnf.Spec
