import Verif.Model.Api

/-!
# Constructors, sizes and changes through mutable iterators

A mutable iterator hands out the elements of a vector one after the other; writing through the `i`-th of them replaces that element.
-/

set_option autoImplicit false

namespace Bnf

/-- `src/grammar.rs` 321-325 and 312 (`Default`). -/
def Grammar.new : Grammar := ⟨[]⟩

/-- `src/grammar.rs` 329-331. -/
def Grammar.fromParts (v : List Production) : Grammar := ⟨v⟩

/-- `src/production.rs` 28-33 and 96-100 (`Default`): the left-hand side is the nonterminal with the empty name. -/
def Production.new : Production := ⟨.nonterminal [], []⟩

/-- `src/production.rs` 37-39. -/
def Production.fromParts (t : Term) (e : List Expression) : Production := ⟨t, e⟩

/-- `src/expression.rs` 29-31. -/
def Expression.fromParts (v : List Term) : Expression := ⟨v⟩

/-- `src/production.rs` 69-71. -/
def Production.len (p : Production) : Nat := p.rhs.length

/-- `src/production.rs` 75-77. -/
def Production.isEmpty (p : Production) : Bool := p.rhs.isEmpty

/-- `src/grammar.rs` 360-362. -/
def Grammar.productionCount (g : Grammar) : Nat := g.productions.length

/-- Writing through the `i`-th item of `iter_mut()`; beyond the end there is none. -/
def writeAt {α : Type} (f : α → α) : List α → Nat → List α
  | [], _ => []
  | x :: xs, 0 => f x :: xs
  | x :: xs, i + 1 => x :: writeAt f xs i

/-- `src/grammar.rs` 365-367: `productions_iter_mut`, changing the `i`-th item. -/
def Grammar.editProduction (g : Grammar) (i : Nat) (f : Production → Production) : Grammar := ⟨writeAt f g.productions i⟩

/-- `src/production.rs` 63-65: `rhs_iter_mut`, changing the `i`-th item. -/
def Production.editExpression (p : Production) (i : Nat) (f : Expression → Expression) : Production := ⟨p.lhs, writeAt f p.rhs i⟩

/-- `src/expression.rs` 72-74: `terms_iter_mut`, changing the `i`-th item. -/
def Expression.editTerm (e : Expression) (i : Nat) (f : Term → Term) : Expression := ⟨writeAt f e.terms i⟩

/-- A `for` loop over `iter_mut()` that writes to every item, one after the other. -/
def forEachMut {α : Type} (f : α → α) (l : List α) : List α := (List.range l.length).foldl (writeAt f) l

/-- The loop of `tests/iterate.rs` 72-83 over `productions_iter_mut()`, `rhs_iter_mut()` and `terms_iter_mut()`
(`src/grammar.rs` 365-367, `src/production.rs` 63-65, `src/expression.rs` 72-74): every terminal is overwritten, by any term that is a function
of its text (in the test `Term::Terminal("Z")`); the nonterminals are filtered out. -/
def Grammar.overwriteTerminals (f : Str → Term) (g : Grammar) : Grammar :=
  ⟨forEachMut (fun p => ⟨p.lhs, forEachMut (fun e => ⟨forEachMut (fun t => match t with
    | .terminal u => f u
    | .nonterminal n => .nonterminal n) e.terms⟩) p.rhs⟩) g.productions⟩

end Bnf
