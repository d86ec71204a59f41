import Verif.Spec.Derivation
import Verif.Model.Api

/-!
# Specification: what methods, operators and macros build

Only data types are used from the model.
-/

set_option autoImplicit false

namespace Bnf.Spec

/-- `l'` is `l` without the first element equal to `x`, order kept. -/
def FirstRemoved {α : Type} (x : α) (l l' : List α) : Prop := ∃ a b, l = a ++ x :: b ∧ x ∉ a ∧ l' = a ++ b

/-- A written production: name and alternatives, as in the source text. -/
abbrev Written := Str × List (List Term)

/-- The token of a term. -/
def termToken : Term → MToken
  | .terminal s => .lit s
  | .nonterminal n => .nt n

/-- The tokens of alternatives separated by bars. -/
def altTokens (alts : List (List Term)) : List MToken := List.flatten ((alts.map (·.map termToken)).intersperse [.bar])

/-- The tokens of a production. -/
def prodTokens (w : Written) : List MToken := .nt w.1 :: .define :: altTokens w.2

/-- The tokens of productions separated by semicolons. -/
def gramTokens (ws : List Written) : List MToken := List.flatten ((ws.map prodTokens).intersperse [.semi])

/-- What a written production denotes. -/
def denote (w : Written) : Production := ⟨.nonterminal w.1, w.2.map Expression.mk⟩

/-- All but the last in reverse order, then the last. -/
def lastKept {α : Type} (l : List α) : List α := l.dropLast.reverse ++ l.getLast?.toList

/-- The term a child stands for. -/
def childTerm : ParseTreeNode → Term
  | .terminal s => .terminal s
  | .nonterminal lhs _ => lhs

mutual
/-- The alternatives used in the nodes of a forest: left-hand side and terms. -/
def nodeAlts : ParseTreeNode → List (Term × List Term)
  | .terminal _ => []
  | .nonterminal lhs kids => (lhs, kids.map childTerm) :: forestAlts kids
def forestAlts : List ParseTreeNode → List (Term × List Term)
  | [] => []
  | n :: ns => nodeAlts n ++ forestAlts ns
end

end Bnf.Spec
