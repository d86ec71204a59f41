import Verif.Spec.Order

/-!
# Specification: the results of a parse and their order, as a growing list

No ids, maps, queues or positions: an item carries the derivations found so far and the texts that follow its beginning and its end.
Items are treated one after the other, each time new items are put at the end of the list.
-/

set_option autoImplicit false

namespace Bnf.Spec
open Bnf

/-- An alternative of `lhs` begun before the text `start`, of which the children `kids` have been found; `todo` and the text `rest` remain. -/
structure ChartItem where
  lhs : Term
  todo : List Term
  kids : List ParseTreeNode
  start : Str
  rest : Str

/-- The item waits for the nonterminal `n` before the text `s`. -/
def ChartItem.waits (x : ChartItem) (n : Str) (s : Str) : Bool := x.todo.head? == some (.nonterminal n) && x.rest == s

/-- The item is a complete derivation of `T` before the text `s`. -/
def ChartItem.complete (x : ChartItem) (T : Term) (s : Str) : Bool := x.todo.isEmpty && x.lhs == T && x.start == s

/-- The item with one more child. -/
def ChartItem.extend (x : ChartItem) (k : ParseTreeNode) (r : Str) : ChartItem := ⟨x.lhs, x.todo.tail, x.kids ++ [k], x.start, r⟩

/-- The item with a complete item as next child. -/
def ChartItem.extendBy (x c : ChartItem) : ChartItem := x.extend (.nonterminal c.lhs c.kids) c.rest

/-- All alternatives of `T`, begun before the text `s`. -/
def begin (g : Grammar) (T : Term) (s : Str) : List ChartItem := (listed g T).map fun e => ⟨T, e.terms, [], s, s⟩

/-- What the item `x` gives rise to, if the items `before` were treated already. -/
def arising (g : Grammar) (S : Term) (input : Str) (before : List ChartItem) (x : ChartItem) : List ChartItem :=
  match x.todo with
  | [] =>
    match x.lhs with
    | .terminal _ => []
    | .nonterminal n => (before.filter fun w => w.waits n x.start).map fun w => w.extendBy x
  | .nonterminal n :: _ =>
    (if (Term.nonterminal n = S ∧ x.rest = input) ∨ before.any fun w => w.waits n x.rest then [] else begin g (.nonterminal n) x.rest) ++
    (before.filter fun c => c.complete (.nonterminal n) x.rest).map fun c => x.extendBy c
  | .terminal u :: _ => if u.isPrefixOf x.rest then [x.extend (.terminal u) (x.rest.drop u.length)] else []

/-- The list of items after the first `h` ones have been treated. -/
def chart (g : Grammar) (S : Term) (input : Str) : Nat → List ChartItem
  | 0 => begin g S input
  | h + 1 => match (chart g S input h)[h]? with
    | none => chart g S input h
    | some x => chart g S input h ++ arising g S input ((chart g S input h).take h) x

/-- The complete derivations of the whole input among the first `h` items. -/
def found (g : Grammar) (S : Term) (input : Str) (h : Nat) : List ParseTree :=
  (((chart g S input h).take h).filter fun x => x.complete S input && x.rest.isEmpty).map fun x => ⟨x.lhs, x.kids⟩

/-- Terms that a parse from `S` may have to look for. -/
inductive Needed (g : Grammar) (S : Term) : Term → Prop
  | start : Needed g S S
  | used {T : Term} {e : Expression} {n : Str} : Needed g S T → e ∈ listed g T → Term.nonterminal n ∈ e.terms → Needed g S (.nonterminal n)

end Bnf.Spec
