import Verif.Model.Basic

/-!
# Building and changing grammars: methods, operators and macros

`&mut self` methods return the new value together with the result.
-/

set_option autoImplicit false

namespace Bnf

/-! ## `Vec` operations of the standard library used by the methods -/

/-- `iter().position(|x| *x == *y)`: index of the first equal element. -/
def position {α : Type} [DecidableEq α] (y : α) : List α → Option Nat
  | [] => none
  | x :: xs => if x = y then some 0 else (position y xs).map (· + 1)

/-- `Vec::remove`: removes the element at an index and shifts those behind it; `none` is the panic of an index out of range. -/
def vecRemove {α : Type} : List α → Nat → Option (α × List α)
  | [], _ => none
  | x :: xs, 0 => some (x, xs)
  | x :: xs, i + 1 => (vecRemove xs i).map fun r => (r.1, x :: r.2)

/-- `Vec::swap_remove`: replaces the element at an index by the last one and shortens; `none` is the panic of an index out of range. -/
def vecSwapRemove {α : Type} (l : List α) (i : Nat) : Option (α × List α) :=
  match l[i]?, l.getLast? with
  | some x, some last => some (x, (l.set i last).dropLast)
  | _, _ => none

/-! ## Methods -/

/-- `src/expression.rs` 22-24 -/
def Expression.new : Expression := ⟨[]⟩

/-- `src/expression.rs` 34-36 -/
def Expression.addTerm (e : Expression) (t : Term) : Expression := ⟨e.terms ++ [t]⟩

/-- `src/expression.rs` 58-64: `remove_term`; the outer `none` is a panic. -/
def Expression.removeTerm (e : Expression) (t : Term) : Option (Option Term × Expression) :=
  match position t e.terms with
  | some pos => (vecRemove e.terms pos).map fun r => (some r.1, ⟨r.2⟩)
  | none => some (none, e)

/-- `src/production.rs` 42-44 -/
def Production.addToRhs (p : Production) (e : Expression) : Production := ⟨p.lhs, p.rhs ++ [e]⟩

/-- `src/production.rs` 49-55: `remove_from_rhs`; the outer `none` is a panic. -/
def Production.removeFromRhs (p : Production) (e : Expression) : Option (Option Expression × Production) :=
  match position e p.rhs with
  | some pos => (vecRemove p.rhs pos).map fun r => (some r.1, ⟨p.lhs, r.2⟩)
  | none => some (none, p)

/-- `src/grammar.rs` 342-344 -/
def Grammar.addProduction (g : Grammar) (p : Production) : Grammar := ⟨g.productions ++ [p]⟩

/-- `src/grammar.rs` 347-352: `remove_production`; the outer `none` is a panic. -/
def Grammar.removeProduction (g : Grammar) (p : Production) : Option (Option Production × Grammar) :=
  match position p g.productions with
  | some pos => (vecSwapRemove g.productions pos).map fun r => (some r.1, ⟨r.2⟩)
  | none => some (none, g)

/-! ## Operators -/

/-- The loop `for t in rhs.terms_iter() { new.add_term(t.clone()) }`. -/
def Expression.addTerms (e : Expression) : List Term → Expression
  | [] => e
  | t :: ts => (e.addTerm t).addTerms ts

/-- `src/term.rs` 59-65: `Term + Term`. -/
def Term.addTerm (a b : Term) : Expression := ⟨[a, b]⟩

/-- `src/term.rs` 67-73: `Term + Expression`. -/
def Term.addExpression (a : Term) (b : Expression) : Expression := b.addTerm a

/-- `src/term.rs` 75-85: `Term + &Expression`. -/
def Term.addExpressionRef (a : Term) (b : Expression) : Expression := (Expression.new.addTerms b.terms).addTerm a

/-- `src/expression.rs` 153-165: `&Expression + Expression`. -/
def Expression.refAddExpression (a b : Expression) : Expression := (Expression.new.addTerms a.terms).addTerms b.terms

/-- `src/expression.rs` 167-177: `&Expression + Term`. -/
def Expression.refAddTerm (a : Expression) (b : Term) : Expression := (Expression.new.addTerms a.terms).addTerm b

/-- `src/expression.rs` 179-187: `Expression + Expression`. -/
def Expression.addExpression (a b : Expression) : Expression := a.addTerms b.terms

/-- `src/expression.rs` 189-195: `Expression + Term`. -/
def Expression.addTermOp (a : Expression) (b : Term) : Expression := a.addTerm b

/-! ## Macros

A macro is a function from token lists to values, `none` if no arm matches (a compile error).  `<ident>` and `::=` are single
tokens here, and a literal is given by the text `to_string` makes of it.  Every arm is one case; the accumulators in brackets are
arguments. -/

/-- Tokens of macro invocations. -/
inductive MToken where
  | nt (n : Str)
  | lit (s : Str)
  | define
  | bar
  | semi
  deriving DecidableEq, Repr

/-- `src/expression.rs` 116-126: the `@collect` arms. -/
def expressionCollect (collected : List Term) : List MToken → Option Expression
  | .nt n :: rest => expressionCollect (collected ++ [.nonterminal n]) rest
  | .lit s :: rest => expressionCollect (collected ++ [.terminal s]) rest
  | [] => some ⟨collected⟩
  | _ => none

/-- `src/expression.rs` 106-127: `expression!`. -/
def expressionMacro : List MToken → Option Expression
  | .nt n :: rest => expressionCollect [.nonterminal n] rest
  | .lit s :: rest => expressionCollect [.terminal s] rest
  | _ => none

/-- `src/production.rs` 144-173: the `@collect_exprs` arms. -/
def productionCollect (current : List Term) (prev : List (List Term)) : List MToken → Option (List Expression)
  | .bar :: rest => productionCollect [] (current :: prev) rest
  | .lit s :: rest => productionCollect (current ++ [.terminal s]) prev rest
  | .nt n :: rest => productionCollect (current ++ [.nonterminal n]) prev rest
  | [] => some (prev.map Expression.mk ++ [⟨current⟩])
  | _ => none

/-- `src/production.rs` 132-142: `production!`. -/
def productionMacro : List MToken → Option Production
  | .nt lhs :: .define :: rest => (productionCollect [] [] rest).map fun es => ⟨.nonterminal lhs, es⟩
  | _ => none

/-- `src/grammar.rs` 838-889: the `@collect_prods` arms.  `prevProds` lists the finished productions, the last one first, with the
terms of their expressions. -/
def grammarCollect (terms : List Term) (exprs : List (List Term)) (lhs : Str) (prevProds : List (List (List Term) × Str)) :
    List MToken → Option (List Production)
  | .semi :: .nt next :: .define :: rest => grammarCollect [] [] next ((terms :: exprs, lhs) :: prevProds) rest
  | [.semi] => some (build terms exprs lhs prevProds)
  | .bar :: rest => grammarCollect [] (terms :: exprs) lhs prevProds rest
  | .lit s :: rest => grammarCollect (terms ++ [.terminal s]) exprs lhs prevProds rest
  | .nt n :: rest => grammarCollect (terms ++ [.nonterminal n]) exprs lhs prevProds rest
  | [] => some (build terms exprs lhs prevProds)
  | _ => none
where
  /-- 865-889, 892-900: the base case. -/
  build (terms : List Term) (exprs : List (List Term)) (lhs : Str) (prevProds : List (List (List Term) × Str)) : List Production :=
    prevProds.map (fun p => ⟨.nonterminal p.2, p.1.map Expression.mk⟩) ++ [⟨.nonterminal lhs, (exprs ++ [terms]).map Expression.mk⟩]

/-- `src/grammar.rs` 822-836: `grammar!`. -/
def grammarMacro : List MToken → Option Grammar
  | [] => some ⟨[]⟩
  | .nt lhs :: .define :: rest => (grammarCollect [] [] lhs [] rest).map Grammar.mk
  | _ => none

end Bnf
