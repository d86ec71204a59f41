import Verif.Model.Generate

/-! # `Grammar::terminates` with its passes and comparisons counted

The functions below follow those of `Model/Generate` line by line, and also count what they do.  Counted are the executions of the body of
the `while` loop, and the comparisons of two terms made by the calls of `Vec::contains`, which goes through the vector from the front
until it finds the element.  Not counted: everything else, such as the test whether an expression has any nonterminal. -/

set_option autoImplicit false

namespace Bnf

/-- Comparisons made by `rules.contains(t)`. -/
def vecContainsCost (t : Term) : List Term → Nat
  | [] => 0
  | x :: xs => if x = t then 1 else vecContainsCost t xs + 1

/-- `src/expression.rs` 87-97: the loop over the nonterminals of an expression, which stops at the first that is not in the list. -/
def nontermsCost (rules : List Term) : List Term → Nat
  | [] => 0
  | nt :: nts => if rules.contains nt then vecContainsCost nt rules + nontermsCost rules nts else vecContainsCost nt rules

/-- `src/expression.rs` 78-98, called with a list. -/
def exprCost (rules : List Term) (e : Expression) : Nat := nontermsCost rules (e.terms.filter Term.isNonterminal)

/-- `src/production.rs` 88-93, called with a list: `any` stops at the first alternative that terminates. -/
def altsCost (rules : List Term) : List Expression → Nat
  | [] => 0
  | e :: es => if e.terminates (some rules) then exprCost rules e else exprCost rules e + altsCost rules es

/-- `src/grammar.rs` 750-768: one pass. -/
def passCost (start : Term) : List Production → List Term → Nat
  | [], _ => 0
  | p :: ps, rules =>
    if rules.contains p.lhs then vecContainsCost p.lhs rules + passCost start ps rules
    else if p.hasTerminatingExpression (some rules) then
      if p.lhs = start then vecContainsCost p.lhs rules + altsCost rules p.rhs
      else vecContainsCost p.lhs rules + altsCost rules p.rhs + passCost start ps (rules ++ [p.lhs])
    else vecContainsCost p.lhs rules + altsCost rules p.rhs + passCost start ps rules

/-- `src/grammar.rs` 747-771: the `while` loop and the final `contains`.  The result, the number of passes, the number of comparisons;
`none` is out of fuel. -/
def terminatesLoopWork (start : Term) (ps : List Production) : Nat → List Term → Option (Bool × Nat × Nat)
  | 0, _ => none
  | n + 1, rules =>
    match terminatesPass start ps rules false with
    | none => some (true, 1, passCost start ps rules)
    | some (rules', true) =>
      (terminatesLoopWork start ps n rules').map fun r => (r.1, r.2.1 + 1, r.2.2 + passCost start ps rules)
    | some (rules', false) => some (rules'.contains start, 1, passCost start ps rules + vecContainsCost start rules')

/-- `src/grammar.rs` 725-772: `Grammar::terminates`.  The first pass (735-739) calls `has_terminating_expression(None)`, which
compares no terms. -/
def Grammar.terminatesWork (g : Grammar) : Option (Bool × Nat × Nat) :=
  match g.startingTerm with
  | none => some (true, 0, 0)
  | some start =>
    let rules := initialRules g.productions
    if rules.isEmpty then some (false, 0, 0)
    else terminatesLoopWork start g.productions (g.productions.length + 1) rules

end Bnf
