import Verif.Spec.Splice

/-!
# Specification: the ways to derive a text from an extended grammar

A way records every choice that is made: which production and which of its alternatives for a nonterminal, which alternative of
a group, whether an optional is left out and if not, which of its alternatives.
-/

set_option autoImplicit false

namespace Bnf.Spec
open Bnf

/-- The choices made for a term (positions count from 0). -/
inductive Choices where
  | /-- a terminal -/ leaf
  | /-- a nonterminal -/ node (production alternative : Nat) (kids : List Choices)
  | /-- a group, or an optional that is not left out -/ chosen (alternative : Nat) (kids : List Choices)
  | /-- an optional that is left out -/ absent

/-- `IsWay g ts ws ns`: `ws` are ways for the terms `ts`, and `ns` are the nodes of the text's nonterminals and terminals they stand for. -/
inductive IsWay (g : ParsedGrammar) : List ParsedTerm → List Choices → List ParseTreeNode → Prop
  | nil : IsWay g [] [] []
  | terminal {u ts ws ns} : IsWay g ts ws ns → IsWay g (.simple (.terminal u) :: ts) (.leaf :: ws) (.terminal u :: ns)
  | nonterminal {i j p e kids ks ts ws ns} : g[i]? = some p → p.rhs[j]? = some e → IsWay g e kids ks → IsWay g ts ws ns →
      IsWay g (.simple (.nonterminal p.lhs) :: ts) (.node i j kids :: ws) (.nonterminal (.nonterminal p.lhs) ks :: ns)
  | group {j as e kids ks ts ws ns} : as[j]? = some e → IsWay g e kids ks → IsWay g ts ws ns →
      IsWay g (.group as :: ts) (.chosen j kids :: ws) (ks ++ ns)
  | present {j as e kids ks ts ws ns} : as[j]? = some e → IsWay g e kids ks → IsWay g ts ws ns →
      IsWay g (.optional as :: ts) (.chosen j kids :: ws) (ks ++ ns)
  | absent {as ts ws ns} : IsWay g ts ws ns → IsWay g (.optional as :: ts) (.absent :: ws) (.terminal [] :: ns)

/-- `x` is a way for the nonterminal `n` and `t` its tree, up to the nodes of generated names. -/
def WayOf (pg : ParsedGrammar) (n : Str) (x : Choices) (t : ParseTree) : Prop :=
  IsWay pg [.simple (.nonterminal n)] [x] [.nonterminal (.nonterminal n) (splice (pg.map (·.lhs)) t.rhs)]

end Bnf.Spec
