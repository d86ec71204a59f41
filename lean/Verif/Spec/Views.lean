import Verif.Model.Basic

/-! # What the order of terms and expressions should be -/

set_option autoImplicit false

namespace Bnf.Spec
open Bnf

/-- `l` is smaller than `m`: a proper prefix, or smaller at the first difference. -/
inductive LexLt {α : Type} (lt : α → α → Prop) : List α → List α → Prop
  | prefix {l b m} : LexLt lt l (l ++ b :: m)
  | differ {u a b l m} : lt a b → LexLt lt (u ++ a :: l) (u ++ b :: m)

/-- Texts by code points. -/
def TextLt : Str → Str → Prop := LexLt fun a b => a.toNat < b.toNat

/-- Terminals before nonterminals, otherwise by the text. -/
inductive TermLt : Term → Term → Prop
  | kind {s t} : TermLt (.terminal s) (.nonterminal t)
  | terminal {s t} : TextLt s t → TermLt (.terminal s) (.terminal t)
  | nonterminal {s t} : TextLt s t → TermLt (.nonterminal s) (.nonterminal t)

def ExpressionLt (a b : Expression) : Prop := LexLt TermLt a.terms b.terms

end Bnf.Spec
