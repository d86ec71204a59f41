import Verif.Model.Earley

/-!
# Specification: call histories of the parse tree iterator

`Next it r it'`: the call `it.next()` returns `r` and leaves the iterator in state `it'`.
`Draws it ts it'`: successive calls of `next()` starting in state `it` return `Some` of the trees `ts`, in this
order, and leave the iterator in state `it'`.
`Diverges it`: the call `it.next()` never returns (and does not panic).
-/

namespace Bnf.Spec

/-- `Opened g S input it`: `it` is a fresh iterator over the parses of `input` from the starting term `S`, obtained by
any of the four public entry points. -/
inductive Opened (g : Grammar) (S : Term) (input : Str) : ParseTreeIter → Prop
  | parserStarting {ord p it} : g.buildParser ord = .ok p → p.parseInputStartingWith input S = some it →
      Opened g S input it
  | parser {ord p it} : g.buildParser ord = .ok p → g.startingTerm = some S → p.parseInput input = some it →
      Opened g S input it
  | deprecatedStarting {it} : g.parseInputStartingWithDeprecated input S = some it → Opened g S input it
  | deprecated {it} : g.startingTerm = some S → g.parseInputDeprecated input = some it → Opened g S input it

def Next (it : ParseTreeIter) (r : Option ParseTree) (it' : ParseTreeIter) : Prop :=
  ∃ fuel, it.next fuel = .returned (r, it')

inductive Draws : ParseTreeIter → List ParseTree → ParseTreeIter → Prop
  | nil {it} : Draws it [] it
  | cons {it t it1 ts it'} : Next it (some t) it1 → Draws it1 ts it' → Draws it (t :: ts) it'

/-- States reachable by any calls of `next()`, whatever they return. -/
inductive Reach : ParseTreeIter → ParseTreeIter → Prop
  | refl {it} : Reach it it
  | step {it r it1 it2} : Next it r it1 → Reach it1 it2 → Reach it it2

def Diverges (it : ParseTreeIter) : Prop := ∀ fuel, it.next fuel = .outOfFuel

def Panics (it : ParseTreeIter) : Prop := ∃ fuel, it.next fuel = .panic

end Bnf.Spec
