import Verif.Spec.Ebnf
import Verif.Spec.Derivation

/-!
# Specification: the trees of a text with groups and optionals

Nodes exist only for the nonterminals of the text.  What a group or an optional contributes are children of the node around it.
-/

set_option autoImplicit false

namespace Bnf.Spec
open Bnf

/-- `Spans g i ns`: the part `i` of the extended grammar `g` can produce the list `ns` of neighbouring nodes.  An optional that is left out
produces an empty leaf. -/
inductive Spans (g : ParsedGrammar) : Item → List ParseTreeNode → Prop
  | terminal {u} : Spans g (.term (.simple (.terminal u))) [.terminal u]
  | nonterminal {p ns} : p ∈ g → Spans g (.alts p.rhs) ns →
      Spans g (.term (.simple (.nonterminal p.lhs))) [.nonterminal (.nonterminal p.lhs) ns]
  | group {as ns} : Spans g (.alts as) ns → Spans g (.term (.group as)) ns
  | present {as ns} : Spans g (.alts as) ns → Spans g (.term (.optional as)) ns
  | absent {as} : Spans g (.term (.optional as)) [.terminal []]
  | nil : Spans g (.terms []) []
  | cons {t ts ns ms} : Spans g (.term t) ns → Spans g (.terms ts) ms → Spans g (.terms (t :: ts)) (ns ++ ms)
  | choose {e as ns} : e ∈ as → Spans g (.terms e) ns → Spans g (.alts as) ns

mutual
/-- Replace the nodes whose names are not in `names` by their children. -/
def spliceNode (names : List Str) : ParseTreeNode → List ParseTreeNode
  | .terminal u => [.terminal u]
  | .nonterminal (.terminal u) kids => [.nonterminal (.terminal u) (splice names kids)]
  | .nonterminal (.nonterminal n) kids =>
    if n ∈ names then [.nonterminal (.nonterminal n) (splice names kids)] else splice names kids
/-- The same for all nodes of a list. -/
def splice (names : List Str) : List ParseTreeNode → List ParseTreeNode
  | [] => []
  | n :: ns => spliceNode names n ++ splice names ns
end

end Bnf.Spec
